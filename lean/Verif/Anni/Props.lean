import Verif.Anni.Lemmas

/-!
# C65, C66: `anni` and `getLCMPoly`
-/

namespace MTT.Anni

open Polynomial PIS Search Parity

variable {σ S : Type} {w : ℕ} [AddCommGroup S] [Module (ZMod 2) S]
  {R : ROps σ w} {Inv : σ → Prop} {den : σ → S} {T : S →ₗ[ZMod 2] S} {O : S →ₗ[ZMod 2] V} {e : ℕ → S}
  {P : S →ₗ[ZMod 2] V} {mps : MPS}

/-- Every state of the reachable part can be read off the outputs. -/
def ObsO (w bitSize : ℕ) (e : ℕ → S) (T : S →ₗ[ZMod 2] S) (O : S →ₗ[ZMod 2] V) : Prop :=
  ∀ x ∈ M bitSize e, (∀ i j, j < w → O ((T ^ i) x) j = 0) → x = 0

/-- Every state of the reachable part can be read off the certified words after each step. -/
def ObsP (w bitSize : ℕ) (e : ℕ → S) (T : S →ₗ[ZMod 2] S) (P : S →ₗ[ZMod 2] V) : Prop :=
  ∀ x ∈ M bitSize e, (∀ i j, j < w → P ((T ^ (i + 1)) x) j = 0) → x = 0

/-! ### The restricted generator -/

section Setup

theorem one_restrict (h : RedGen R Inv den T O e P) (k : ℕ) (s : σ) (hk : k < R.bitSize)
    (hs : Inv s ∧ den s ∈ M R.bitSize e) :
    (Inv (R.setOneBit k s) ∧ den (R.setOneBit k s) ∈ M R.bitSize e) ∧
      denL (M R.bitSize e) den (R.setOneBit k s) =
        if h : k < R.bitSize then ⟨e k, Submodule.subset_span ⟨⟨k, h⟩, rfl⟩⟩ else 0 := by
  have h1 := h.one_den k s hk hs.1
  have hm : e k ∈ M R.bitSize e := Submodule.subset_span ⟨⟨k, hk⟩, rfl⟩
  have h2 : den (R.setOneBit k s) ∈ M R.bitSize e := by rw [h1]; exact hm
  refine ⟨⟨h.one_inv k s hk hs.1, h2⟩, Subtype.ext ?_⟩
  rw [denL_val h2, h1, dif_pos hk]

theorem inj_restrict (h : RedGen R Inv den T O e P) : Function.Injective (T.restrict h.closed) := by
  rw [← LinearMap.ker_eq_bot, LinearMap.ker_eq_bot']
  intro y hy
  exact Subtype.ext (h.inj y y.2 (congrArg Subtype.val hy))

theorem finrank_M (h : RedGen R Inv den T O e P) : Module.finrank (ZMod 2) (M R.bitSize e) = R.bitSize := by
  unfold M; rw [finrank_span_eq_card h.indep, Fintype.card_fin]

theorem parity_restrict (h : RedGen R Inv den T O e P) (s : σ) (hs : Inv s ∧ den s ∈ M R.bitSize e) :
    bits (R.getParity s) = (P.comp (M R.bitSize e).subtype) (denL (M R.bitSize e) den s) := by
  rw [h.parity s hs.1 hs.2]
  show P (den s) = P (denL (M R.bitSize e) den s)
  rw [denL_val hs.2]

/-- Annihilating the sequences of all units is annihilating the sequences of all states. -/
theorem ann_all {N : ℕ} {e : ℕ → S} (c : S →ₗ[ZMod 2] ZMod 2) (q : (ZMod 2)[X])
    (h : ∀ j, j < N → Ann q (outSeq T c (e j))) : ∀ x ∈ M N e, Ann q (outSeq T c x) := by
  have : M N e ≤ LinearMap.ker ((aeval shiftOp q).comp (outSeq T c)) := by
    refine Submodule.span_le.2 ?_
    rintro _ ⟨j, rfl⟩
    exact ann_iff.1 (h j j.2)
  intro x hx
  exact ann_iff.2 (this hx)

theorem outSeq_restrict {L : Submodule (ZMod 2) S} (hL : ∀ x ∈ L, T x ∈ L) (c : S →ₗ[ZMod 2] ZMod 2) (x : L) :
    outSeq (T.restrict hL) (c.comp L.subtype) x = outSeq T c (x : S) := by
  funext i
  show c (((T.restrict hL) ^ i) x : L) = c ((T ^ i) (x : S))
  have := aeval_restrict hL (X ^ i : (ZMod 2)[X]) x
  rw [map_pow, map_pow, aeval_X, aeval_X] at this
  rw [this]

end Setup

/-! ### C66: `getLCMPoly` -/

/-- **C66.**  `getLCMPoly(lcm, sf)` of the SFMT search, started with a polynomial that divides everything annihilating
all states, returns without undefined behaviour the least common multiple of it and of the minimal polynomials of the
lowest output bit over *all* states of the object: its multiples are the multiples of `lcm` that annihilate the lowest
output bit from every state.  The early exit loses nothing. -/
theorem getLCMPolyS_correct (hm : MinPolySeqSpec mps) (h : RedGen R Inv den T O e P) (hw : 0 < w) {s : σ} (hs : Inv s)
    (hsM : den s ∈ M R.bitSize e) {lcm : (ZMod 2)[X]}
    (hl : ∀ q, (∀ x ∈ M R.bitSize e, aeval T q x = 0) → lcm ∣ q) :
    ∃ r, getLCMPolyS mps R lcm s = some r ∧ r ≠ 0 ∧ r.natDegree ≤ R.bitSize ∧
      ∀ q, r ∣ q ↔ lcm ∣ q ∧ ∀ t, Inv t → den t ∈ M R.bitSize e → Ann q (bitAt R.toGenOps t 0) := by
  have := M_finite R.bitSize e
  have hr := restrict h.toLinGen (M R.bitSize e) h.closed
  have hdim := (finrank_M h).le
  have hch := LinearMap.charpoly_monic (T.restrict h.closed)
  have hlc : lcm ∣ (T.restrict h.closed).charpoly := by
    refine hl _ fun x hx => ?_
    rw [← aeval_restrict h.closed _ ⟨x, hx⟩, LinearMap.aeval_self_charpoly]; rfl
  obtain ⟨r, e1, e2, e3⟩ := lcmLoop_spec (T := T.restrict h.closed) (den := denL (M R.bitSize e) den)
    (c := coord w 0 (O.comp (M R.bitSize e).subtype)) hdim
    (fun k s hk hs => one_restrict h k s hk hs) (mp := minpoly mps R.toGenOps 0 0)
    (fun s hs => by
      obtain ⟨p, h1, h2⟩ := minpoly_dim hm hr hs (pos := 0) hw hdim
      rw [bitAt_eq hr hs hw] at h2
      exact ⟨_, p, h1, (stateAt_spec hr hs _).1, h2⟩) (p₀ := lcm) R.bitSize 0 s lcm (by omega) ⟨hs, hsM⟩ hlc
      (fun q => ⟨fun hq => ⟨hq, fun j hj => absurd hj (by omega)⟩, fun hq => hq.1⟩)
  have hr0 : r ≠ 0 := fun h0 => hch.ne_zero (by rw [h0] at e2; exact zero_dvd_iff.1 e2)
  refine ⟨r, e1, hr0, (natDegree_le_of_dvd e2 hch.ne_zero).trans
    ((LinearMap.charpoly_natDegree _).le.trans hdim), fun q => (e3 q).trans (and_congr_right fun _ => ?_)⟩
  have hbit : ∀ t, Inv t → den t ∈ M R.bitSize e → bitAt R.toGenOps t 0 = outSeq T (coord w 0 O) (den t) :=
    fun t ht _ => bitAt_eq h.toLinGen ht hw
  have hunit : ∀ j, j < R.bitSize → outSeq (T.restrict h.closed) (coord w 0 (O.comp (M R.bitSize e).subtype))
      (if h : j < R.bitSize then ⟨e j, Submodule.subset_span ⟨⟨j, h⟩, rfl⟩⟩ else 0) = outSeq T (coord w 0 O) (e j) := by
    intro j hj
    rw [dif_pos hj]
    exact outSeq_restrict h.closed (coord w 0 O) _
  constructor
  · intro hq t ht htM
    rw [hbit t ht htM]
    exact ann_all (coord w 0 O) q (fun j hj => by rw [← hunit j hj]; exact hq j hj) _ htM
  · intro hq j hj
    rw [hunit j hj, ← h.one_den j s hj hs, ← hbit _ (h.one_inv j s hj hs) (by
      rw [h.one_den j s hj hs]; exact Submodule.subset_span ⟨⟨j, hj⟩, rfl⟩)]
    exact hq _ (h.one_inv j s hj hs) (by
      rw [h.one_den j s hj hs]; exact Submodule.subset_span ⟨⟨j, hj⟩, rfl⟩)

/-- **C66.**  The same for `getLCMPoly(lcm, sf)` of the dSFMT search: the multiples of the result are the multiples of
`lcm` that annihilate every bit of the certified word (the lung) from the state `sf`, and its lowest bit from every state
of the object. -/
theorem getLCMPolyD_correct (hm : MinPolySeqSpec mps) (h : RedGen R Inv den T O e P) (hw : 0 < w) {s : σ} (hs : Inv s)
    (hsM : den s ∈ M R.bitSize e) {lcm : (ZMod 2)[X]}
    (hl : ∀ q, (∀ x ∈ M R.bitSize e, aeval T q x = 0) → lcm ∣ q) :
    ∃ r, getLCMPolyD mps R lcm s = some r ∧ r ≠ 0 ∧ r.natDegree ≤ R.bitSize ∧
      (∀ q, (∀ x ∈ M R.bitSize e, aeval T q x = 0) → r ∣ q) ∧
      ∀ q, r ∣ q ↔ lcm ∣ q ∧ (∀ pos, pos < w → Ann q (lungAt R s pos)) ∧
        ∀ t, Inv t → den t ∈ M R.bitSize e → Ann q (lungAt R t 0) := by
  have := M_finite R.bitSize e
  have hr := restrict h.toLinGen (M R.bitSize e) h.closed
  have hdim := (finrank_M h).le
  have hch := LinearMap.charpoly_monic (T.restrict h.closed)
  have hlc : lcm ∣ (T.restrict h.closed).charpoly := by
    refine hl _ fun x hx => ?_
    rw [← aeval_restrict h.closed _ ⟨x, hx⟩, LinearMap.aeval_self_charpoly]; rfl
  obtain ⟨m, l, d1, d2, d3⟩ := lungLCM_spec hm hr (inj_restrict h) (fun s hs => parity_restrict h s hs) hdim
    (s := s) ⟨hs, hsM⟩ (p₀ := lcm) w 0 0 lcm (by omega) hlc
    (fun q => ⟨fun hq => ⟨hq, fun j hj => absurd hj (by omega)⟩, fun hq => hq.1⟩)
  obtain ⟨r, e1, e2, e3⟩ := lcmLoop_spec (T := T.restrict h.closed) (den := denL (M R.bitSize e) den)
    (c := (coord w 0 (P.comp (M R.bitSize e).subtype)).comp (T.restrict h.closed)) hdim
    (fun k s hk hs => one_restrict h k s hk hs) (mp := minPolyLung mps R 0)
    (fun s hs => by
      obtain ⟨p, h1, h2⟩ := minPolyLung_spec hm hr (fun s hs => parity_restrict h s hs) hdim hs (pos := 0) hw
      rw [lungAt_eq hr (fun s hs => parity_restrict h s hs) hs hw] at h2
      exact ⟨_, p, h1, (stateAt_spec hr hs _).1, h2⟩) (p₀ := l) R.bitSize 0 (stateAt R.toGenOps s m) l (by omega)
      (stateAt_spec hr (g := s) ⟨hs, hsM⟩ m).1 d2
      (fun q => ⟨fun hq => ⟨hq, fun j hj => absurd hj (by omega)⟩, fun hq => hq.1⟩)
  have hr0 : r ≠ 0 := fun h0 => hch.ne_zero (by rw [h0] at e2; exact zero_dvd_iff.1 e2)
  have hbit : ∀ t, Inv t → den t ∈ M R.bitSize e → lungAt R t 0 =
      outSeq (T.restrict h.closed) ((coord w 0 (P.comp (M R.bitSize e).subtype)).comp (T.restrict h.closed))
        (denL (M R.bitSize e) den t) :=
    fun t ht htM => lungAt_eq hr (fun s hs => parity_restrict h s hs) ⟨ht, htM⟩ hw
  have hseq : ∀ x : M R.bitSize e, outSeq (T.restrict h.closed)
      ((coord w 0 (P.comp (M R.bitSize e).subtype)).comp (T.restrict h.closed)) x =
        outSeq T ((coord w 0 P).comp T) (x : S) := fun x =>
    outSeq_restrict h.closed ((coord w 0 P).comp T) x
  have hunitM : ∀ j, j < R.bitSize → e j ∈ M R.bitSize e := fun j hj => Submodule.subset_span ⟨⟨j, hj⟩, rfl⟩
  have hlast : ∀ q, (∀ j, j < R.bitSize → Ann q (outSeq (T.restrict h.closed)
      ((coord w 0 (P.comp (M R.bitSize e).subtype)).comp (T.restrict h.closed))
        (if h : j < R.bitSize then ⟨e j, Submodule.subset_span ⟨⟨j, h⟩, rfl⟩⟩ else 0))) ↔
      ∀ t, Inv t → den t ∈ M R.bitSize e → Ann q (lungAt R t 0) := by
    intro q
    constructor
    · intro hq t ht htM
      rw [hbit t ht htM, hseq, denL_val htM]
      refine ann_all _ q (fun j hj => ?_) _ htM
      have := hq j hj
      rwa [dif_pos hj, hseq] at this
    · intro hq j hj
      have h1 := h.one_den j s hj hs
      have := hq _ (h.one_inv j s hj hs) (by rw [h1]; exact hunitM j hj)
      rw [hbit _ (h.one_inv j s hj hs) (by rw [h1]; exact hunitM j hj), hseq, denL_val (by rw [h1]; exact hunitM j hj),
        h1] at this
      rw [dif_pos hj, hseq]; exact this
  have hiff : ∀ q, r ∣ q ↔ lcm ∣ q ∧ (∀ pos, pos < w → Ann q (lungAt R s pos)) ∧
      ∀ t, Inv t → den t ∈ M R.bitSize e → Ann q (lungAt R t 0) := fun q => by
    rw [e3, d3, hlast, and_assoc]
  refine ⟨r, ?_, hr0, (natDegree_le_of_dvd e2 hch.ne_zero).trans
    ((LinearMap.charpoly_natDegree _).le.trans hdim), fun q hq => ?_, hiff⟩
  · unfold getLCMPolyD
    rw [show s = stateAt R.toGenOps s 0 from rfl, d1]
    exact e1
  · rw [hiff]
    have hlung : ∀ t, Inv t → den t ∈ M R.bitSize e → ∀ pos, pos < w → Ann q (lungAt R t pos) := by
      intro t ht htM pos hpos
      rw [lungAt_eq hr (fun s hs => parity_restrict h s hs) ⟨ht, htM⟩ hpos]
      apply ann_outSeq
      apply Subtype.ext
      rw [aeval_restrict h.closed]
      exact hq _ (denL (M R.bitSize e) den t).2
    exact ⟨hl q hq, hlung s hs hsM, fun t ht htM => hlung t ht htM 0 hw⟩

/-! ### C65: `anni` -/

/-- What `anni` achieves: the object `s'` it leaves is one of the same kind, and its state has minimal polynomial `f`. -/
def Isolated (R : ROps σ w) (Inv : σ → Prop) (den : σ → S) (T : S →ₗ[ZMod 2] S) (e : ℕ → S) (s' : σ)
    (f : (ZMod 2)[X]) : Prop :=
  Inv s' ∧ den s' ∈ M R.bitSize e ∧ IsVecMinpoly T (den s') f

section Anni

/-- Common part of the two functions. -/
theorem isolate (hm : MinPolySeqSpec mps) (h : RedGen R Inv den T O e P) (hw : 0 < w)
    (hbig : R.bitSize < 2 * R.mexp) {s : σ} (hs : Inv s) (hsM : den s ∈ M R.bitSize e) {f p : (ZMod 2)[X]}
    (hf : Irreducible f) (hfd : f.natDegree = R.mexp) (hfp : f ∣ p)
    (hp : ∀ q, (∀ x ∈ M R.bitSize e, aeval T q x = 0) → p ∣ q) (hann : aeval T p (den s) = 0)
    (hd : ∀ r, aeval T r (den s) = 0 → f ∣ r) :
    ∃ s', finish mps R f p s = some (s', true) ∧ Isolated R Inv den T e s' f := by
  have := M_finite R.bitSize e
  have hr := restrict h.toLinGen (M R.bitSize e) h.closed
  have hpc : p ∣ (T.restrict h.closed).charpoly := by
    refine hp _ fun x hx => ?_
    rw [← aeval_restrict h.closed _ ⟨x, hx⟩, LinearMap.aeval_self_charpoly]; rfl
  have hz : ∀ r : (ZMod 2)[X], aeval (T.restrict h.closed) r (denL (M R.bitSize e) den s) = 0 ↔ aeval T r (den s) = 0 := by
    intro r
    rw [← Submodule.coe_eq_zero, aeval_restrict h.closed, denL_val hsM]
  obtain ⟨s', e1, e2, e3⟩ := finish_spec hm hr (inj_restrict h) hw (finrank_M h).le hbig (s := s) ⟨hs, hsM⟩ hf hfd hfp
    hpc ((hz p).2 hann) (fun r h' => hd r ((hz r).1 h'))
  refine ⟨s', e1, e2.1, e2.2, ?_⟩
  have := (vecMinpoly_restrict h.closed).1 e3
  rwa [denL_val e2.2] at this

/-- **C65.**  `anni` of the SFMT search, on any object of a reducible generator whose state can be read off its outputs
and with `bitSize() < 2 mexp`: nothing undefined happens; it returns true exactly if the minimal polynomial of the lowest
output bit has an irreducible factor of degree `mexp`, and then the object is left in a state whose minimal polynomial is
that factor; otherwise the object is only advanced. -/
theorem anniS_correct (hm : MinPolySeqSpec mps) (h : RedGen R Inv den T O e P) (hw : 0 < w) (hmexp : 1 ≤ R.mexp)
    (hbig : R.bitSize < 2 * R.mexp) (hobs : ObsO w R.bitSize e T O) {s : σ} (hs : Inv s)
    (hsM : den s ∈ M R.bitSize e) :
    ∃ s' b p, anniS mps R s = some (s', b) ∧ IsSeqMinpoly p (bitAt R.toGenOps s 0) ∧
      (b = false → s' = stateAt R.toGenOps s (2 * R.bitSize) ∧
        ∀ f, Irreducible f → f.natDegree = R.mexp → ¬ f ∣ p) ∧
      (b = true → ∃ f, Irreducible f ∧ f.natDegree = R.mexp ∧ f ∣ p ∧ Isolated R Inv den T e s' f) := by
  have := M_finite R.bitSize e
  have hfin : Finite (M R.bitSize e) := Module.finite_of_finite (ZMod 2)
  have hr := restrict h.toLinGen (M R.bitSize e) h.closed
  have hdim := (finrank_M h).le
  have hT := inj_restrict h
  obtain ⟨p, e1, e2⟩ := minpoly_dim hm hr (s := s) ⟨hs, hsM⟩ hw hdim
  simp only [Nat.cast_zero] at e1
  have hs1 := (stateAt_spec hr (g := s) ⟨hs, hsM⟩ (2 * R.bitSize)).1
  have hpd : p.natDegree ≤ R.bitSize := by
    have hc := LinearMap.charpoly_monic (T.restrict h.closed)
    have : p ∣ (T.restrict h.closed).charpoly := by
      apply e2.2.2
      rw [bitAt_eq hr ⟨hs, hsM⟩ hw]; exact ann_charpoly _ _
    exact (natDegree_le_of_dvd this hc.ne_zero).trans ((LinearMap.charpoly_natDegree _).le.trans hdim)
  obtain ⟨b, irr, g1, g2, g3, -⟩ := Period.hasFactorOfDegree_correct p hmexp (fuel := p.natDegree + 1) le_rfl
  have hhalf := fun g hg hgp hgd => Period.hasFactorOfDegree_half p g e2.1 hmexp
    (fuel := p.natDegree + 1) le_rfl hg hgp hgd (by omega)
  unfold anniS
  simp only [e1, g1]
  cases b with
  | false =>
    refine ⟨_, false, p, rfl, e2, fun _ => ⟨rfl, fun g hg hgd hgp => ?_⟩, by simp⟩
    have := hhalf g hg hgp hgd
    rw [g1] at this
    simp at this
  | true =>
    obtain ⟨k1, k2⟩ := g3 rfl
    dsimp only
    -- the lcm over all output bits
    set s1 := stateAt R.toGenOps s (2 * R.bitSize) with hs1def
    have hp1 : IsSeqMinpoly p (bitAt R.toGenOps s1 0) :=
      ⟨e2.1, (ann_stateAt hr hT (s := s) ⟨hs, hsM⟩ hw _ _).2 e2.2.1,
        fun q hq => e2.2.2 q ((ann_stateAt hr hT (s := s) ⟨hs, hsM⟩ hw _ _).1 hq)⟩
    obtain ⟨m, r, c1, c2, c3, c4⟩ := calcCharPoly_bit0 hm hr hT hs1 hw hdim hp1
    rw [c1]
    dsimp only
    obtain ⟨s2, s2M⟩ := (stateAt_spec hr hs1 m).1
    set t := stateAt R.toGenOps s1 m with ht
    have hdt : denL (M R.bitSize e) den t = ((T.restrict h.closed) ^ m) (denL (M R.bitSize e) den s1) :=
      (stateAt_spec hr hs1 m).2
    have hzt : ∀ q : (ZMod 2)[X], aeval T q (den t) = 0 ↔ aeval T q (den s1) = 0 := by
      intro q
      rw [← denL_val s2M, ← denL_val hs1.2, ← aeval_restrict h.closed, ← aeval_restrict h.closed,
        Submodule.coe_eq_zero, Submodule.coe_eq_zero, hdt, aeval_pow_eq_zero hT]
    -- everything that annihilates all output bits annihilates the state
    have hobs' : ∀ q, AnnAll R.toGenOps s1 q → aeval T q (den s1) = 0 := by
      intro q hq
      refine hobs _ (aeval_M h q hs1.2) fun i j hj => ?_
      have h1 := hq (w - 1 - j) (by omega)
      rw [bitAt_eq h.toLinGen hs1.1 (by omega), ann_iff, aeval_outSeq] at h1
      have h2 := congrFun h1 i
      have h3 : O ((T ^ i) (aeval T q (den s1))) (w - 1 - (w - 1 - j)) = 0 := h2
      rwa [show w - 1 - (w - 1 - j) = j by omega] at h3
    have hirr : ∀ q, aeval T q (den t) = 0 → irr ∣ q := by
      intro q hq
      refine g2.trans (hp1.2.2 q ?_)
      rw [bitAt_eq h.toLinGen hs1.1 hw]
      exact ann_outSeq _ _ ((hzt q).1 hq)
    have hrall : ∀ q, (∀ x ∈ M R.bitSize e, aeval T q x = 0) → r ∣ q := by
      intro q hq
      rw [c4]
      intro pos hpos
      rw [bitAt_eq h.toLinGen hs1.1 hpos]
      exact ann_outSeq _ _ (hq _ hs1.2)
    have hfr : irr ∣ r := g2.trans (hp1.2.2 r ((c4 r).1 (dvd_refl _) 0 hw))
    have hrt : aeval T r (den t) = 0 := (hzt r).2 (hobs' r ((c4 r).1 (dvd_refl _)))
    by_cases hd : Period.deg r ≠ R.bitSize
    · rw [if_pos hd]
      obtain ⟨r', d1, d2, d3, d4⟩ := getLCMPolyS_correct hm h hw s2 s2M hrall
      rw [d1]
      have hrr' : r ∣ r' := ((d4 r').1 (dvd_refl _)).1
      obtain ⟨s', f1, f2⟩ := isolate hm h hw hbig s2 s2M k1 k2 (hfr.trans hrr') (fun q hq => by
        rw [d4]
        refine ⟨hrall q hq, fun u hu huM => ?_⟩
        rw [bitAt_eq h.toLinGen hu hw]
        exact ann_outSeq _ _ (hq _ huM)) (by
          obtain ⟨c, hc⟩ := hrr'
          rw [hc, mul_comm, map_mul, Module.End.mul_apply, hrt, map_zero]) hirr
      exact ⟨s', true, p, f1, e2, by simp, fun _ => ⟨irr, k1, k2, g2, f2⟩⟩
    · rw [if_neg hd]
      obtain ⟨s', f1, f2⟩ := isolate hm h hw hbig s2 s2M k1 k2 hfr hrall hrt hirr
      exact ⟨s', true, p, f1, e2, by simp, fun _ => ⟨irr, k1, k2, g2, f2⟩⟩

/-- **C65.**  The same for `anni` of the dSFMT search, the states being readable off the certified words. -/
theorem anniD_correct (hm : MinPolySeqSpec mps) (h : RedGen R Inv den T O e P) (hw : 0 < w) (hmexp : 1 ≤ R.mexp)
    (hbig : R.bitSize < 2 * R.mexp) (hobs : ObsP w R.bitSize e T P) {s : σ} (hs : Inv s)
    (hsM : den s ∈ M R.bitSize e) :
    ∃ s' b p, anniD mps R s = some (s', b) ∧ IsSeqMinpoly p (bitAt R.toGenOps s 0) ∧
      (b = false → s' = stateAt R.toGenOps s (2 * R.bitSize) ∧
        ∀ f, Irreducible f → f.natDegree = R.mexp → ¬ f ∣ p) ∧
      (b = true → ∃ f, Irreducible f ∧ f.natDegree = R.mexp ∧ f ∣ p ∧ Isolated R Inv den T e s' f) := by
  have := M_finite R.bitSize e
  have hfin : Finite (M R.bitSize e) := Module.finite_of_finite (ZMod 2)
  have hr := restrict h.toLinGen (M R.bitSize e) h.closed
  have hdim := (finrank_M h).le
  have hT := inj_restrict h
  have hc := LinearMap.charpoly_monic (T.restrict h.closed)
  obtain ⟨p, e1, e2⟩ := minpoly_dim hm hr (s := s) ⟨hs, hsM⟩ hw hdim
  simp only [Nat.cast_zero] at e1
  have hs1 := (stateAt_spec hr (g := s) ⟨hs, hsM⟩ (2 * R.bitSize)).1
  have hpc : p ∣ (T.restrict h.closed).charpoly := by
    apply e2.2.2
    rw [bitAt_eq hr ⟨hs, hsM⟩ hw]; exact ann_charpoly _ _
  have hpd : p.natDegree ≤ R.bitSize :=
    (natDegree_le_of_dvd hpc hc.ne_zero).trans ((LinearMap.charpoly_natDegree _).le.trans hdim)
  obtain ⟨b, irr, g1, g2, g3, -⟩ := Period.hasFactorOfDegree_correct p hmexp (fuel := p.natDegree + 1) le_rfl
  have hhalf := fun g hg hgp hgd => Period.hasFactorOfDegree_half p g e2.1 hmexp
    (fuel := p.natDegree + 1) le_rfl hg hgp hgd (by omega)
  unfold anniD
  simp only [e1, g1]
  cases b with
  | false =>
    refine ⟨_, false, p, rfl, e2, fun _ => ⟨rfl, fun g hg hgd hgp => ?_⟩, by simp⟩
    have := hhalf g hg hgp hgd
    rw [g1] at this
    simp at this
  | true =>
    obtain ⟨k1, k2⟩ := g3 rfl
    dsimp only
    set s1 := stateAt R.toGenOps s (2 * R.bitSize) with hs1def
    have hp1 : IsSeqMinpoly p (bitAt R.toGenOps s1 0) :=
      ⟨e2.1, (ann_stateAt hr hT (s := s) ⟨hs, hsM⟩ hw _ _).2 e2.2.1,
        fun q hq => e2.2.2 q ((ann_stateAt hr hT (s := s) ⟨hs, hsM⟩ hw _ _).1 hq)⟩
    -- the second call computes the same polynomial
    obtain ⟨p2, c1, c2⟩ := minpoly_dim hm hr hs1 hw hdim
    simp only [Nat.cast_zero] at c1
    have hpp : p2 = p := c2.unique hp1
    subst hpp
    rw [c1]
    dsimp only
    obtain ⟨s2, s2M⟩ := (stateAt_spec hr hs1 (2 * R.bitSize)).1
    set t := stateAt R.toGenOps s1 (2 * R.bitSize) with ht
    have hdt : denL (M R.bitSize e) den t = ((T.restrict h.closed) ^ (2 * R.bitSize)) (denL (M R.bitSize e) den s1) :=
      (stateAt_spec hr hs1 _).2
    have hzt : ∀ q : (ZMod 2)[X], aeval T q (den t) = 0 ↔ aeval T q (den s1) = 0 := by
      intro q
      rw [← denL_val s2M, ← denL_val hs1.2, ← aeval_restrict h.closed, ← aeval_restrict h.closed,
        Submodule.coe_eq_zero, Submodule.coe_eq_zero, hdt, aeval_pow_eq_zero hT]
    have hirr : ∀ q, aeval T q (den t) = 0 → irr ∣ q := by
      intro q hq
      refine g2.trans (hp1.2.2 q ?_)
      rw [bitAt_eq h.toLinGen hs1.1 hw]
      exact ann_outSeq _ _ ((hzt q).1 hq)
    have hpall : ∀ q, (∀ x ∈ M R.bitSize e, aeval T q x = 0) → p2 ∣ q := by
      intro q hq
      apply hp1.2.2
      rw [bitAt_eq h.toLinGen hs1.1 hw]
      exact ann_outSeq _ _ (hq _ hs1.2)
    by_cases hd : Period.deg p2 ≠ R.bitSize
    · rw [if_pos hd]
      obtain ⟨r', d1, d2, d3, d4, d5⟩ := getLCMPolyD_correct hm h hw s2 s2M hpall
      rw [d1]
      obtain ⟨q1, q2, -⟩ := (d5 r').1 (dvd_refl _)
      obtain ⟨s', f1, f2⟩ := isolate hm h hw hbig s2 s2M k1 k2 (g2.trans q1) d4 (by
        refine hobs _ (aeval_M h r' s2M) fun i j hj => ?_
        have h1 := q2 (w - 1 - j) (by omega)
        rw [lungAt_eq hr (fun s hs => parity_restrict h s hs) ⟨s2, s2M⟩ (by omega)] at h1
        have h1' : Ann r' (outSeq T ((coord w (w - 1 - j) P).comp T) (denL (M R.bitSize e) den t : S)) := by
          rw [← outSeq_restrict h.closed]; exact h1
        rw [denL_val s2M, ann_iff, aeval_outSeq] at h1'
        have h2 := congrFun h1' i
        have h3 : P (T ((T ^ i) (aeval T r' (den t)))) (w - 1 - (w - 1 - j)) = 0 := h2
        rw [pow_succ', Module.End.mul_apply]
        rwa [show w - 1 - (w - 1 - j) = j by omega] at h3) hirr
      exact ⟨s', true, p2, f1, e2, by simp, fun _ => ⟨irr, k1, k2, g2, f2⟩⟩
    · rw [if_neg hd]
      obtain ⟨s', f1, f2⟩ := isolate hm h hw hbig s2 s2M k1 k2 g2 hpall (by
        have hd' := not_not.1 hd
        rw [Period.deg_of_ne hp1.1] at hd'
        have hd'' : p2.natDegree = R.bitSize := by exact_mod_cast hd'
        rw [eq_of_dvd_natDegree hpc hc.ne_zero (by rw [LinearMap.charpoly_natDegree]; omega), ← denL_val s2M,
          ← aeval_restrict h.closed, LinearMap.aeval_self_charpoly]
        rfl) hirr
      exact ⟨s', true, p2, f1, e2, by simp, fun _ => ⟨irr, k1, k2, g2, f2⟩⟩

/-- **C65.**  What it means for the sequence: if `2^mexp - 1` is prime, the state left by a successful `anni` recurs after
`k` steps exactly if `2^mexp - 1` divides `k`. -/
theorem isolated_period (h : RedGen R Inv den T O e P) {s : σ} {f : (ZMod 2)[X]} (hf : Irreducible f)
    (hfd : f.natDegree = R.mexp) (hp : (2 ^ R.mexp - 1).Prime) (hi : Isolated R Inv den T e s f) (k : ℕ) :
    den (stateAt R.toGenOps s k) = den s ↔ 2 ^ R.mexp - 1 ∣ k := by
  obtain ⟨h1, h2, h3⟩ := hi
  have hprim := Period.primitive_of_mersenne hf (by rw [hfd]; exact hp)
  rw [hfd] at hprim
  rw [(stateAt_spec h.toLinGen h1 k).2, ← aeval_X_pow_sub_one, h3.2]
  exact hprim.2 k

end Anni

end MTT.Anni
