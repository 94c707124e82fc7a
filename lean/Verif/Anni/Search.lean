import Verif.Anni.Total

/-!
# The reducible search on a class with a reachable part, and what its result means

`RFamily` is the contract of a class such as `sfmt` or `dSFMT`: before the first `setUpParam` only `Inv0` holds; the
states reached by seeding lie in the span `M` of the unit states.
-/

namespace MTT.Anni

open Polynomial PIS Search Parity

variable {σ π κ S : Type} {w : ℕ} [AddCommGroup S] [Module (ZMod 2) S]

/-- What a search needs of a class of reducible generators. -/
def dOps (R : ROps σ w) (setUp : σ → π → Option (σ × π)) (seedOne : σ → σ) : SearchOps σ π w :=
  ⟨R.toGenOps, setUp, seedOne⟩

/-- Contract of a class of reducible generators with parameters `κ`. -/
structure RFamily (R : ROps σ w) (setUp : σ → π → Option (σ × π)) (seedOne : σ → σ) (Inv0 Inv : σ → Prop)
    (par : σ → κ) (den : σ → S) (T : κ → S →ₗ[ZMod 2] S) (O : κ → S →ₗ[ZMod 2] V) (e : ℕ → S) (P : S →ₗ[ZMod 2] V) :
    Prop where
  wpos : 0 < w
  red : ∀ s, Inv s → RedGen R (fun t => Inv t ∧ par t = par s) den (T (par s)) (O (par s)) e P
  weak : ∀ s, Inv s → Inv0 s
  setUp_inv : ∀ s src s' src', Inv0 s → setUp s src = some (s', src') → Inv s'
  seed_inv : ∀ s, Inv s → Inv (seedOne s) ∧ par (seedOne s) = par s ∧ den (seedOne s) ∈ M R.bitSize e
  seed_den : ∀ s t, Inv s → Inv t → par s = par t → den (seedOne s) = den (seedOne t)

variable {R : ROps σ w} {setUp : σ → π → Option (σ × π)} {seedOne : σ → σ} {Inv0 Inv : σ → Prop} {par : σ → κ}
  {den : σ → S} {T : κ → S →ₗ[ZMod 2] S} {O : κ → S →ₗ[ZMod 2] V} {e : ℕ → S} {P : S →ₗ[ZMod 2] V} {mps : MPS}

/-- What is known about the object of the search when it succeeds: `r` is the object after `setUpParam`, `f` an irreducible
factor of degree `mexp` of the minimal polynomial `p` of the lowest bit of the output after seeding. -/
structure Hit (R : ROps σ w) (seedOne : σ → σ) (Inv : σ → Prop) (par : σ → κ) (den : σ → S) (e : ℕ → S)
    (f p : (ZMod 2)[X]) (s : σ) : Prop where
  inv : Inv s
  mem : den s ∈ M R.bitSize e
  irr : Irreducible f
  deg : f.natDegree = R.mexp
  min : ∃ r, Inv r ∧ par r = par s ∧ IsSeqMinpoly p (bitAt R.toGenOps (seedOne r) 0)
  steps : ∃ r, Inv r ∧ par r = par s ∧ IsSeqMinpoly p (bitAt R.toGenOps (seedOne r) 0) ∧
    s = stateAt R.toGenOps (seedOne r) (2 * R.bitSize)
  dvd : f ∣ p

/-- **C56** for classes with a reachable part: one turn of the search. -/
theorem rTryOnce_red (hm : MinPolySeqSpec mps) (F : RFamily R setUp seedOne Inv0 Inv par den T O e P)
    (hmexp : 1 ≤ R.mexp) (st : RSt σ π) (hinv : Inv0 st.rand) :
    (setUp st.rand st.src = none ∧ rTryOnce mps (dOps R setUp seedOne) R.mexp st = .threw st) ∨
    ∃ r src st' b, setUp st.rand st.src = some (r, src) ∧
      rTryOnce mps (dOps R setUp seedOne) R.mexp st = .ret b st' ∧ st'.count = st.count + 1 ∧ st'.src = src ∧
      Inv r ∧ Inv st'.rand ∧ par st'.rand = par r ∧ den st'.rand ∈ M R.bitSize e ∧
      st'.rand = stateAt R.toGenOps (seedOne r) (2 * R.bitSize) ∧ IsSeqMinpoly st'.poly (bitAt R.toGenOps (seedOne r) 0) ∧
      (b = true → Irreducible st'.irreducible ∧ st'.irreducible.natDegree = R.mexp ∧ st'.irreducible ∣ st'.poly) ∧
      (∀ g, Irreducible g → g.natDegree = R.mexp → g ∣ st'.poly → st'.poly.natDegree < 2 * R.mexp →
        b = true ∧ st'.irreducible = g) := by
  unfold rTryOnce
  simp only [dOps]
  cases hsu : setUp st.rand st.src with
  | none => left; exact ⟨rfl, rfl⟩
  | some q =>
    right
    obtain ⟨r, src⟩ := q
    have hr := F.setUp_inv _ _ _ _ hinv hsu
    obtain ⟨hs, hpar, hmem⟩ := F.seed_inv r hr
    have h := F.red r hr
    have := M_finite R.bitSize e
    have hl := restrict h.toLinGen (M R.bitSize e) h.closed
    obtain ⟨p, e1, e2⟩ := minpoly_dim hm hl (s := seedOne r) ⟨⟨hs, hpar⟩, hmem⟩ F.wpos (finrank_M h).le
    have hst := (stateAt_spec hl (g := seedOne r) ⟨⟨hs, hpar⟩, hmem⟩ (2 * R.bitSize)).1
    simp only [Nat.cast_zero] at e1
    simp only [e1]
    have hdeg : Period.deg p = p.natDegree := Period.deg_of_ne e2.1
    by_cases hd : Period.deg p < R.mexp
    · rw [if_pos hd]
      refine ⟨r, src, _, false, rfl, rfl, rfl, rfl, hr, hst.1.1, hst.1.2, hst.2, rfl, e2, by simp, ?_⟩
      intro g hg hgd hgp _
      exfalso
      have := natDegree_le_of_dvd hgp e2.1
      rw [hdeg] at hd
      have hd' : p.natDegree < R.mexp := by exact_mod_cast hd
      simp only at this
      omega
    · rw [if_neg hd]
      obtain ⟨b, irr, g1, g2, g3, g4⟩ := Period.hasFactorOfDegree_correct p hmexp
        (fuel := p.natDegree + 1) le_rfl
      have hhalf := fun g hg hgp hgd hh => Period.hasFactorOfDegree_half p g e2.1 hmexp
        (fuel := p.natDegree + 1) le_rfl hg hgp hgd hh
      simp only [g1]
      cases b with
      | false =>
        simp only [if_true]
        refine ⟨r, src, _, false, rfl, rfl, rfl, rfl, hr, hst.1.1, hst.1.2, hst.2, rfl, e2, by simp, ?_⟩
        intro g hg hgd hgp hh
        have := hhalf g hg hgp hgd hh
        rw [g1] at this
        simp at this
      | true =>
        obtain ⟨k1, k2⟩ := g3 rfl
        have hne : ¬ Period.deg irr ≠ R.mexp := by
          rw [Period.deg_of_ne k1.ne_zero, k2]; simp
        rw [if_neg (by simp), if_neg hne]
        refine ⟨r, src, _, true, rfl, rfl, rfl, rfl, hr, hst.1.1, hst.1.2, hst.2, rfl, e2, fun _ => ⟨k1, k2, g2⟩, ?_⟩
        intro g hg hgd hgp hh
        have := hhalf g hg hgp hgd hh
        rw [g1] at this
        simpa using this

/-- **C56, C34** for classes with a reachable part: the whole search.  If the source never throws, it returns. -/
theorem rStart_red (hm : MinPolySeqSpec mps) (F : RFamily R setUp seedOne Inv0 Inv par den T O e P)
    (hmexp : 1 ≤ R.mexp) (hsrc : ∀ s src, Inv0 s → setUp s src ≠ none) (n : ℕ) (st : RSt σ π) (hinv : Inv0 st.rand) :
    ∃ b st', rStart mps (dOps R setUp seedOne) R.mexp n st = .ret b st' ∧ Inv0 st'.rand ∧
      st'.count ≤ st.count + n ∧ (b = false → st'.count = st.count + n) ∧
      (b = true → Hit R seedOne Inv par den e st'.irreducible st'.poly st'.rand) := by
  induction n generalizing st with
  | zero => exact ⟨false, st, rfl, hinv, le_rfl, fun _ => rfl, by simp⟩
  | succ n ih =>
    rcases rTryOnce_red hm F hmexp st hinv with ⟨h1, h2⟩ |
      ⟨r, src, st1, b, h1, h2, h3, h4, h5, h6, h7, h7', h7'', h8, h9, -⟩
    · exact absurd h1 (hsrc _ _ hinv)
    · cases b with
      | false =>
        obtain ⟨b, st', i1, i2, i3, i4, i5⟩ := ih st1 (F.weak _ h6)
        refine ⟨b, st', ?_, i2, by omega, fun hb => by rw [i4 hb]; omega, i5⟩
        simp only [rStart, h2]
        exact i1
      | true =>
        obtain ⟨k1, k2, k3⟩ := h9 rfl
        exact ⟨true, st1, by simp only [rStart, h2], F.weak _ h6, by omega, by simp, fun _ =>
          ⟨h6, h7', k1, k2, ⟨r, h5, h7.symm, h8⟩, ⟨r, h5, h7.symm, h8, h7''⟩, k3⟩⟩

section Algebra

variable {κ' : Type} {T' : S →ₗ[ZMod 2] S} {O' : S →ₗ[ZMod 2] V} {Inv' : σ → Prop}

/-- A factor of the minimal polynomial of an output bit has a non-zero root space. -/
theorem exists_root (h : RedGen R Inv' den T' O' e P) (hw : 0 < w) {s : σ} (hs : Inv' s)
    (hsM : den s ∈ M R.bitSize e) {f p : (ZMod 2)[X]} (hf : 1 ≤ f.natDegree) (hp : IsSeqMinpoly p (bitAt R.toGenOps s 0))
    (hfp : f ∣ p) : ∃ x ∈ M R.bitSize e, x ≠ 0 ∧ aeval T' f x = 0 := by
  have := M_finite R.bitSize e
  by_contra hcon
  push Not at hcon
  -- a non-zero polynomial annihilating the state could be divided by `f` for ever
  have key : ∀ (k : ℕ) (r : (ZMod 2)[X]), r.natDegree ≤ k → r ≠ 0 → aeval T' r (den s) ≠ 0 := by
    intro k
    induction k with
    | zero =>
      intro r hr hr0 hrs
      have hpr : p ∣ r := hp.2.2 _ (by rw [bitAt_eq h.toLinGen hs hw]; exact ann_outSeq _ _ hrs)
      have := natDegree_le_of_dvd (hfp.trans hpr) hr0
      omega
    | succ k ih =>
      intro r hr hr0 hrs
      have hpr : p ∣ r := hp.2.2 _ (by rw [bitAt_eq h.toLinGen hs hw]; exact ann_outSeq _ _ hrs)
      obtain ⟨c, rfl⟩ := hfp.trans hpr
      have hf0 : f ≠ 0 := left_ne_zero_of_mul hr0
      have hc0 : c ≠ 0 := right_ne_zero_of_mul hr0
      rw [natDegree_mul hf0 hc0] at hr
      refine ih c (by omega) hc0 ?_
      rw [map_mul, Module.End.mul_apply] at hrs
      by_contra hne
      exact hcon _ (aeval_M h _ hsM) hne hrs
  refine key _ (T'.restrict h.closed).charpoly le_rfl (LinearMap.charpoly_monic _).ne_zero ?_
  rw [← denL_val (den := den) hsM, ← aeval_restrict h.closed, LinearMap.aeval_self_charpoly]; rfl

/-- If `bitSize() < 2 mexp`, the reachable part is the sum of the part annihilated by `f` and one annihilated by a
coprime polynomial. -/
theorem exists_cofactor (h : RedGen R Inv' den T' O' e P) (hbig : R.bitSize < 2 * R.mexp) {f : (ZMod 2)[X]}
    (hf : Irreducible f) (hdeg : f.natDegree = R.mexp) (hx : ∃ x ∈ M R.bitSize e, x ≠ 0 ∧ aeval T' f x = 0) :
    ∃ q, IsCoprime f q ∧ (f * q).natDegree = R.bitSize ∧ ∀ x ∈ M R.bitSize e, aeval T' (f * q) x = 0 := by
  have := M_finite R.bitSize e
  have hc := LinearMap.charpoly_monic (T'.restrict h.closed)
  have hann : ∀ x ∈ M R.bitSize e, aeval T' (T'.restrict h.closed).charpoly x = 0 := fun x hx => by
    rw [← aeval_restrict h.closed _ ⟨x, hx⟩, LinearMap.aeval_self_charpoly]; rfl
  have hd : (T'.restrict h.closed).charpoly.natDegree = R.bitSize := by
    rw [LinearMap.charpoly_natDegree, finrank_M h]
  obtain ⟨x, hxM, hx0, hxf⟩ := hx
  have hfd : f ∣ (T'.restrict h.closed).charpoly := by
    by_contra hnd
    obtain ⟨a, b, hab⟩ := (hf.coprime_iff_not_dvd.2 hnd)
    have h1 : aeval T' (a * f + b * (T'.restrict h.closed).charpoly) x = 0 := by
      rw [map_add, map_mul, map_mul, LinearMap.add_apply, Module.End.mul_apply, Module.End.mul_apply, hxf, hann x hxM,
        map_zero, map_zero, add_zero]
    rw [hab, map_one, Module.End.one_apply] at h1
    exact hx0 h1
  obtain ⟨q, hq⟩ := hfd
  have hq0 : q ≠ 0 := fun h0 => hc.ne_zero (by rw [hq, h0, mul_zero])
  have hqd := hd
  rw [hq, natDegree_mul hf.ne_zero hq0] at hqd
  refine ⟨q, hf.coprime_iff_not_dvd.2 fun hfq => ?_, by rw [← hq]; exact hd, fun x hx => by rw [← hq]; exact hann x hx⟩
  have := natDegree_le_of_dvd hfq hq0
  omega

/-- The part annihilated by `f` is generated by every one of its non-zero states. -/
theorem cyc_eq_root (h : RedGen R Inv' den T' O' e P) (hbig : R.bitSize < 2 * R.mexp) {f : (ZMod 2)[X]}
    (hf : Irreducible f) (hdeg : f.natDegree = R.mexp) {x : S} (hxM : x ∈ M R.bitSize e) (hx : IsVecMinpoly T' x f)
    (y : S) : y ∈ cyc T' x ↔ y ∈ M R.bitSize e ∧ aeval T' f y = 0 := by
  have := M_finite R.bitSize e
  have hpoly : ∀ p : (ZMod 2)[X], aeval T' p x ∈ cyc T' x := by
    intro p
    rw [aeval_eq_sum_range, LinearMap.sum_apply]
    refine Submodule.sum_mem _ fun i _ => ?_
    rw [LinearMap.smul_apply]
    exact Submodule.smul_mem _ _ (Submodule.subset_span ⟨i, rfl⟩)
  constructor
  · intro hy
    refine ⟨?_, cyc_annihilated T' ((hx.2 f).2 (dvd_refl f)) hy⟩
    have : cyc T' x ≤ M R.bitSize e := Submodule.span_le.2 (by
      rintro _ ⟨j, rfl⟩
      have := aeval_M h (X ^ j : (ZMod 2)[X]) hxM
      rwa [map_pow, aeval_X] at this)
    exact this hy
  · rintro ⟨hyM, hy⟩
    by_contra hny
    let F : (degreeLT (ZMod 2) R.mexp × degreeLT (ZMod 2) R.mexp) →ₗ[ZMod 2] M R.bitSize e :=
      { toFun := fun p => ⟨aeval T' p.1.1 x + aeval T' p.2.1 y, Submodule.add_mem _ (aeval_M h _ hxM) (aeval_M h _ hyM)⟩
        map_add' := fun p q => by
          apply Subtype.ext
          show aeval T' (p.1.1 + q.1.1) x + aeval T' (p.2.1 + q.2.1) y =
            (aeval T' p.1.1 x + aeval T' p.2.1 y) + (aeval T' q.1.1 x + aeval T' q.2.1 y)
          rw [map_add, map_add, LinearMap.add_apply, LinearMap.add_apply]; abel
        map_smul' := fun c p => by
          apply Subtype.ext
          show aeval T' (c • p.1.1) x + aeval T' (c • p.2.1) y = c • (aeval T' p.1.1 x + aeval T' p.2.1 y)
          rw [map_smul, map_smul, LinearMap.smul_apply, LinearMap.smul_apply, smul_add] }
    have hlt : ∀ p : degreeLT (ZMod 2) R.mexp, f ∣ p.1 → p = 0 := by
      intro p hp
      by_contra hne
      have hp0 : p.1 ≠ 0 := fun h => hne (Subtype.ext h)
      have h1 := natDegree_le_of_dvd hp hp0
      have h2 := mem_degreeLT.1 p.2
      rw [degree_eq_natDegree hp0] at h2
      have h3 : p.1.natDegree < R.mexp := by exact_mod_cast h2
      omega
    have hF : Function.Injective F := by
      rw [← LinearMap.ker_eq_bot, LinearMap.ker_eq_bot']
      intro p hp
      have hp' : aeval T' p.1.1 x + aeval T' p.2.1 y = 0 := congrArg Subtype.val hp
      have h2 : p.2 = 0 := by
        by_contra hne
        have hnd : ¬ f ∣ p.2.1 := fun hd => hne (hlt _ hd)
        obtain ⟨a, b, hab⟩ := hf.coprime_iff_not_dvd.2 hnd
        have h3 : aeval T' (a * f + b * p.2.1) y = aeval T' b (aeval T' p.2.1 y) := by
          rw [map_add, map_mul, map_mul, LinearMap.add_apply, Module.End.mul_apply, Module.End.mul_apply, hy, map_zero,
            zero_add]
        rw [hab, map_one, Module.End.one_apply, eq_neg_of_add_eq_zero_right hp', map_neg, ← Module.End.mul_apply,
          ← map_mul] at h3
        exact hny (by rw [h3]; exact Submodule.neg_mem _ (hpoly _))
      rw [h2] at hp'
      have h1 : aeval T' p.1.1 x = 0 := by
        rw [show ((0 : degreeLT (ZMod 2) R.mexp) : (ZMod 2)[X]) = 0 from rfl, map_zero, LinearMap.zero_apply,
          add_zero] at hp'
        exact hp'
      exact Prod.ext (hlt _ ((hx.2 _).1 h1)) h2
    have h1 := LinearMap.finrank_le_finrank_of_injective hF
    rw [Module.finrank_prod, finrank_M h] at h1
    have h2 : Module.finrank (ZMod 2) (degreeLT (ZMod 2) R.mexp) = R.mexp := by
      rw [(degreeLTEquiv (ZMod 2) R.mexp).finrank_eq, Module.finrank_fin_fun]
    omega

/-- A member that no operation changes may be fixed. -/
theorem RedGen.field {α : Type} (h : RedGen R Inv' den T' O' e P) (φ : σ → α) (hgen : ∀ s, φ (R.generate s).1 = φ s)
    (hgenV : ∀ v s, φ (R.generateV v s).1 = φ s) (hadd : ∀ a b, φ (R.add a b) = φ a)
    (hzero : ∀ s, φ (R.setZero s) = φ s) (hone : ∀ k s, φ (R.setOneBit k s) = φ s) (c : α) :
    RedGen R (fun s => Inv' s ∧ φ s = c) den T' O' e P where
  gen_inv s hs := ⟨h.gen_inv s hs.1, (hgen s).trans hs.2⟩
  gen_den s hs := h.gen_den s hs.1
  gen_out s hs := h.gen_out s hs.1
  genV_inv v s h1 h2 hs := ⟨h.genV_inv v s h1 h2 hs.1, (hgenV v s).trans hs.2⟩
  genV_den v s h1 h2 hs := h.genV_den v s h1 h2 hs.1
  genV_out v s h1 h2 hs := h.genV_out v s h1 h2 hs.1
  add_inv a b ha hb := ⟨h.add_inv a b ha.1 hb.1, (hadd a b).trans ha.2⟩
  add_den a b ha hb := h.add_den a b ha.1 hb.1
  zero_inv s hs := ⟨h.zero_inv s hs.1, (hzero s).trans hs.2⟩
  zero_den s hs := h.zero_den s hs.1
  one_inv k s hk hs := ⟨h.one_inv k s hk hs.1, (hone k s).trans hs.2⟩
  one_den k s hk hs := h.one_den k s hk hs.1
  indep := h.indep
  closed := h.closed
  inj := h.inj
  isZero_iff s hs := h.isZero_iff s hs.1
  parity s hs := h.parity s hs.1

/-- There is at most one irreducible factor of degree `mexp`. -/
theorem factor_unique (h : RedGen R Inv' den T' O' e P) (hbig : R.bitSize < 2 * R.mexp) (hw : 0 < w) {t : σ} (ht : Inv' t)
    (htM : den t ∈ M R.bitSize e) {f f' p : (ZMod 2)[X]} (hf : Irreducible f) (hdeg : f.natDegree = R.mexp)
    (hf' : Irreducible f') (hdeg' : f'.natDegree = R.mexp) (hp : IsSeqMinpoly p (bitAt R.toGenOps t 0)) (hfp : f ∣ p)
    (hfp' : f' ∣ p) : f' = f := by
  have := M_finite R.bitSize e
  have hc := LinearMap.charpoly_monic (T'.restrict h.closed)
  have hpc : p ∣ (T'.restrict h.closed).charpoly := by
    apply hp.2.2
    rw [bitAt_eq h.toLinGen ht hw]
    refine ann_outSeq _ _ ?_
    rw [← denL_val (den := den) htM, ← aeval_restrict h.closed, LinearMap.aeval_self_charpoly]; rfl
  have hpd : p.natDegree ≤ R.bitSize :=
    (natDegree_le_of_dvd hpc hc.ne_zero).trans (by rw [LinearMap.charpoly_natDegree, finrank_M h])
  by_contra hne
  have hcop : IsCoprime f' f := by
    rw [hf'.coprime_iff_not_dvd]
    intro hd
    exact hne (eq_of_dvd_natDegree hd hf.ne_zero (by omega))
  have h1 := natDegree_le_of_dvd (hcop.mul_dvd hfp' hfp) hp.1
  rw [natDegree_mul hf'.ne_zero hf.ne_zero] at h1
  omega

/-- The first step of the tools: the minimal polynomial and the search for its factor of degree `mexp`. -/
theorem factor_step {mps : MPS} (hm : MinPolySeqSpec mps) (h : RedGen R Inv' den T' O' e P) (hw : 0 < w)
    (hmexp : 1 ≤ R.mexp) (hbig : R.bitSize < 2 * R.mexp) {s : σ} (hs : Inv' s) (hsM : den s ∈ M R.bitSize e) :
    ∃ p s' b irr, minpoly mps R.toGenOps 0 0 s = some (s', p) ∧ IsSeqMinpoly p (bitAt R.toGenOps s 0) ∧ Inv' s' ∧
      den s' ∈ M R.bitSize e ∧ (∀ q, (∀ x ∈ M R.bitSize e, aeval T' q x = 0) → p ∣ q) ∧
      Period.hasFactorOfDegree (p.natDegree + 1) p R.mexp = some (b, irr) ∧
      (b = false → ∀ f, Irreducible f → f.natDegree = R.mexp → ¬ f ∣ p) ∧
      (b = true → Irreducible irr ∧ irr.natDegree = R.mexp ∧ irr ∣ p ∧
        ∃ x ∈ M R.bitSize e, x ≠ 0 ∧ aeval T' irr x = 0) := by
  have := M_finite R.bitSize e
  have hr := restrict h.toLinGen (M R.bitSize e) h.closed
  have hdim : Module.finrank (ZMod 2) (M R.bitSize e) ≤ R.bitSize := (finrank_M h).le
  obtain ⟨p, e1, e2⟩ := minpoly_dim hm hr (s := s) ⟨hs, hsM⟩ hw hdim
  simp only [Nat.cast_zero] at e1
  obtain ⟨hs1, hs2⟩ := (stateAt_spec hr (g := s) ⟨hs, hsM⟩ (2 * R.bitSize)).1
  have hpd : p.natDegree ≤ R.bitSize := by
    have hc := LinearMap.charpoly_monic (T'.restrict h.closed)
    have hd : p ∣ (T'.restrict h.closed).charpoly := by
      apply e2.2.2
      rw [bitAt_eq hr ⟨hs, hsM⟩ hw]; exact ann_charpoly _ _
    exact (natDegree_le_of_dvd hd hc.ne_zero).trans ((LinearMap.charpoly_natDegree _).le.trans hdim)
  obtain ⟨b, irr, g1, g2, g3, -⟩ := Period.hasFactorOfDegree_correct p hmexp (fuel := p.natDegree + 1) le_rfl
  refine ⟨p, _, b, irr, e1, e2, hs1, hs2, fun q hq => ?_, g1, ?_, ?_⟩
  · apply e2.2.2
    rw [bitAt_eq h.toLinGen hs hw]
    exact ann_outSeq _ _ (hq _ hsM)
  · rintro rfl f f1 f2 f3
    have := Period.hasFactorOfDegree_half p f e2.1 hmexp (fuel := p.natDegree + 1) le_rfl f1 f3 f2 (by omega)
    rw [g1] at this
    simp at this
  · rintro rfl
    obtain ⟨k1, k2⟩ := g3 rfl
    exact ⟨k1, k2, g2, exists_root h hw hs hsM (by omega) e2 g2⟩

/-- There is at most one irreducible polynomial of degree `mexp` with a non-zero root space. -/
theorem root_unique (h : RedGen R Inv' den T' O' e P) (hbig : R.bitSize < 2 * R.mexp) {f f' : (ZMod 2)[X]}
    (hf : Irreducible f) (hdeg : f.natDegree = R.mexp) (hx : ∃ x ∈ M R.bitSize e, x ≠ 0 ∧ aeval T' f x = 0)
    (hf' : Irreducible f') (hdeg' : f'.natDegree = R.mexp) (hx' : ∃ x ∈ M R.bitSize e, x ≠ 0 ∧ aeval T' f' x = 0) :
    f' = f := by
  obtain ⟨q, h1, h2, h3⟩ := exists_cofactor h hbig hf hdeg hx
  obtain ⟨x, hxM, hx0, hxf⟩ := hx'
  by_contra hne
  have hq0 : q ≠ 0 := by
    rintro rfl
    exact hf.not_isUnit (isCoprime_zero_right.1 h1)
  have hq : q.natDegree < f'.natDegree := by
    rw [natDegree_mul hf.ne_zero hq0] at h2
    omega
  have hnd : ¬ f' ∣ f * q := by
    intro hd
    rcases hf'.prime.dvd_or_dvd hd with hd | hd
    · exact hne (eq_of_dvd_natDegree hd hf.ne_zero (by omega))
    · have := natDegree_le_of_dvd hd hq0
      omega
  obtain ⟨a, b, hab⟩ := hf'.coprime_iff_not_dvd.2 hnd
  have : aeval T' (a * f' + b * (f * q)) x = 0 := by
    rw [map_add (aeval T'), map_mul (aeval T') a, map_mul (aeval T') b, LinearMap.add_apply, Module.End.mul_apply,
      Module.End.mul_apply, hxf, h3 x hxM, map_zero, map_zero, add_zero]
  rw [hab, map_one, Module.End.one_apply] at this
  exact hx0 this

/-- **C65.**  If the minimal polynomial of the lowest bit has the factor, `anni` of the SFMT search returns true and leaves
a state whose minimal polynomial is the factor. -/
theorem anniS_of_factor (hm : MinPolySeqSpec mps) (h : RedGen R Inv' den T' O' e P) (hw : 0 < w) (hmexp : 1 ≤ R.mexp)
    (hbig : R.bitSize < 2 * R.mexp) (hobs : ObsO w R.bitSize e T' O') {t : σ} (ht : Inv' t)
    (htM : den t ∈ M R.bitSize e) {f p : (ZMod 2)[X]} (hf : Irreducible f) (hdeg : f.natDegree = R.mexp)
    (hp : IsSeqMinpoly p (bitAt R.toGenOps t 0)) (hfp : f ∣ p) :
    ∃ s', anniS mps R t = some (s', true) ∧ Isolated R Inv' den T' e s' f := by
  obtain ⟨s', b, p', e1, e2, e3, e4⟩ := anniS_correct hm h hw hmexp hbig hobs ht htM
  have hpp : p' = p := e2.unique hp
  subst hpp
  cases b with
  | false => exact absurd hfp ((e3 rfl).2 f hf hdeg)
  | true =>
    obtain ⟨f', f1, f2, f3, f4⟩ := e4 rfl
    have := factor_unique h hbig hw ht htM hf hdeg f1 f2 hp hfp f3
    subst this
    exact ⟨s', e1, f4⟩

/-- **C65.**  The same for `anni` of the dSFMT search. -/
theorem anniD_of_factor (hm : MinPolySeqSpec mps) (h : RedGen R Inv' den T' O' e P) (hw : 0 < w) (hmexp : 1 ≤ R.mexp)
    (hbig : R.bitSize < 2 * R.mexp) (hobs : ObsP w R.bitSize e T' P) {t : σ} (ht : Inv' t)
    (htM : den t ∈ M R.bitSize e) {f p : (ZMod 2)[X]} (hf : Irreducible f) (hdeg : f.natDegree = R.mexp)
    (hp : IsSeqMinpoly p (bitAt R.toGenOps t 0)) (hfp : f ∣ p) :
    ∃ s', anniD mps R t = some (s', true) ∧ Isolated R Inv' den T' e s' f := by
  obtain ⟨s', b, p', e1, e2, e3, e4⟩ := anniD_correct hm h hw hmexp hbig hobs ht htM
  have hpp : p' = p := e2.unique hp
  subst hpp
  cases b with
  | false => exact absurd hfp ((e3 rfl).2 f hf hdeg)
  | true =>
    obtain ⟨f', f1, f2, f3, f4⟩ := e4 rfl
    have := factor_unique h hbig hw ht htM hf hdeg f1 f2 hp hfp f3
    subst this
    exact ⟨s', e1, f4⟩

end Algebra

/-! ### The object of a successful search -/

variable {f p : (ZMod 2)[X]} {s : σ}

theorem Hit.root (F : RFamily R setUp seedOne Inv0 Inv par den T O e P) (hmexp : 1 ≤ R.mexp)
    (H : Hit R seedOne Inv par den e f p s) : ∃ x ∈ M R.bitSize e, x ≠ 0 ∧ aeval (T (par s)) f x = 0 := by
  obtain ⟨r, h1, h2, h3⟩ := H.min
  obtain ⟨i1, i2, i3⟩ := F.seed_inv r h1
  rw [← h2]
  exact exists_root (F.red r h1) F.wpos ⟨i1, i2⟩ i3 (by rw [H.deg]; exact hmexp) h3 H.dvd

/-- Every object with the same parameters, seeded, has the factor. -/
theorem Hit.seeded (F : RFamily R setUp seedOne Inv0 Inv par den T O e P) (H : Hit R seedOne Inv par den e f p s) {t : σ}
    (ht : Inv t) (hp : par t = par s) : IsSeqMinpoly p (bitAt R.toGenOps (seedOne t) 0) := by
  obtain ⟨r, h1, h2, h3⟩ := H.min
  obtain ⟨i1, i2, i3⟩ := F.seed_inv r h1
  obtain ⟨j1, j2, j3⟩ := F.seed_inv t ht
  rw [bitAt_eq (F.red r h1).toLinGen ⟨i1, i2⟩ F.wpos, F.seed_den r t h1 ht (h2.trans hp.symm)] at h3
  rw [bitAt_eq (F.red r h1).toLinGen ⟨j1, j2.trans (hp.trans h2.symm)⟩ F.wpos]
  exact h3

/-- The minimal polynomial found by the search divides every polynomial that annihilates all states. -/
theorem Hit.poly_dvd (F : RFamily R setUp seedOne Inv0 Inv par den T O e P) (H : Hit R seedOne Inv par den e f p s)
    {q : (ZMod 2)[X]} (hq : ∀ x ∈ M R.bitSize e, aeval (T (par s)) q x = 0) : p ∣ q := by
  have h3 := H.seeded F H.inv rfl
  obtain ⟨j1, j2, j3⟩ := F.seed_inv s H.inv
  apply h3.2.2
  rw [bitAt_eq (F.red s H.inv).toLinGen ⟨j1, j2⟩ F.wpos]
  exact ann_outSeq _ _ (hq _ j3)

end MTT.Anni

namespace MTT.Anni

open Polynomial PIS Search

/-- The states generated by a state with minimal polynomial `f` form a space of dimension `deg f`. -/
theorem finrank_cyc {S : Type} [AddCommGroup S] [Module (ZMod 2) S] {T : S →ₗ[ZMod 2] S} {x : S} {f : (ZMod 2)[X]}
    (hx : IsVecMinpoly T x f) : Module.finrank (ZMod 2) (cyc T x) = f.natDegree := by
  have hf := hx.1
  rw [cyc_finrank (monic_of_ne hf) ((hx.2 f).2 (dvd_refl f)), finrank_span_eq_card, Fintype.card_fin]
  rw [Fintype.linearIndependent_iff]
  intro g hg
  let p : (ZMod 2)[X] := ∑ i : Fin f.natDegree, monomial (i : ℕ) (g i)
  have hp : aeval T p x = 0 := by
    show aeval T (∑ i : Fin f.natDegree, monomial (i : ℕ) (g i)) x = 0
    rw [map_sum, LinearMap.sum_apply, ← hg]
    refine Finset.sum_congr rfl fun i _ => ?_
    rw [aeval_monomial, Module.End.mul_apply, Module.algebraMap_end_apply]
  have hc : ∀ i : Fin f.natDegree, p.coeff i = g i := by
    intro i
    show (∑ j : Fin f.natDegree, monomial (j : ℕ) (g j)).coeff i = g i
    rw [finsetSum_coeff, Finset.sum_eq_single i]
    · rw [coeff_monomial, if_pos rfl]
    · intro j _ hj
      rw [coeff_monomial, if_neg fun h => hj (Fin.ext h)]
    · intro h; exact absurd (Finset.mem_univ _) h
  have h0 : p = 0 := by
    by_contra hne
    have h1 := natDegree_le_of_dvd ((hx.2 p).1 hp) hne
    have h2 : p.natDegree < f.natDegree := by
      rcases Nat.eq_zero_or_pos f.natDegree with h | h
      · exfalso
        apply hne
        have : IsEmpty (Fin f.natDegree) := by rw [h]; infer_instance
        exact Finset.sum_of_isEmpty _
      · refine lt_of_le_of_lt (natDegree_sum_le_of_forall_le (n := f.natDegree - 1) _ _ fun i _ => ?_) (by omega)
        exact (natDegree_monomial_le _).trans (by have := i.2; omega)
    omega
  intro i
  rw [← hc i, h0, coeff_zero]

end MTT.Anni
