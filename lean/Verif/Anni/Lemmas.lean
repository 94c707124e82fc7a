import Verif.Anni.Model
import Verif.Search.Props
import Verif.Lin.Props
import Verif.Parity.Loop

/-!
# Helper lemmas for C65, C66
-/

namespace MTT.Anni

open Polynomial PIS Search Parity

/-! ### Restriction of a linear generator to an invariant subspace -/

section Restrict

variable {σ S : Type} {w : ℕ} [AddCommGroup S] [Module (ZMod 2) S]
  {G : GenOps σ w} {Inv : σ → Prop} {den : σ → S} {T : S →ₗ[ZMod 2] S} {O : S →ₗ[ZMod 2] V}

open Classical in
/-- The state as an element of the subspace `L`. -/
noncomputable def denL (L : Submodule (ZMod 2) S) (den : σ → S) (s : σ) : L :=
  if h : den s ∈ L then ⟨den s, h⟩ else 0

theorem denL_val {L : Submodule (ZMod 2) S} {s : σ} (h : den s ∈ L) : (denL L den s : S) = den s := by
  unfold denL; rw [dif_pos h]

theorem restrict (h : LinGen G Inv den T O) (L : Submodule (ZMod 2) S) (hL : ∀ x ∈ L, T x ∈ L) :
    LinGen G (fun s => Inv s ∧ den s ∈ L) (denL L den) (T.restrict hL) (O.comp L.subtype) := by
  have hg : ∀ s, Inv s → den s ∈ L → den (G.generate s).1 ∈ L := fun s h1 h2 => by
    rw [h.gen_den s h1]; exact hL _ h2
  have hv : ∀ v s, 1 ≤ v → v ≤ w → Inv s → den s ∈ L → den (G.generateV v s).1 ∈ L := fun v s a b h1 h2 => by
    rw [h.genV_den v s a b h1]; exact hL _ h2
  have ha : ∀ a b, Inv a → Inv b → den a ∈ L → den b ∈ L → den (G.add a b) ∈ L := fun a b h1 h2 h3 h4 => by
    rw [h.add_den a b h1 h2]; exact L.add_mem h3 h4
  have hz : ∀ s, Inv s → den (G.setZero s) ∈ L := fun s h1 => by
    rw [h.zero_den s h1]; exact L.zero_mem
  constructor
  · exact fun s hs => ⟨h.gen_inv s hs.1, hg s hs.1 hs.2⟩
  · intro s hs
    apply Subtype.ext
    rw [denL_val (hg s hs.1 hs.2), h.gen_den s hs.1]
    show T (den s) = T (denL L den s)
    rw [denL_val hs.2]
  · intro s hs
    rw [h.gen_out s hs.1]
    show O (den s) = O (denL L den s)
    rw [denL_val hs.2]
  · exact fun v s a b hs => ⟨h.genV_inv v s a b hs.1, hv v s a b hs.1 hs.2⟩
  · intro v s a b hs
    apply Subtype.ext
    rw [denL_val (hv v s a b hs.1 hs.2), h.genV_den v s a b hs.1]
    show T (den s) = T (denL L den s)
    rw [denL_val hs.2]
  · intro v s a b hs
    rw [h.genV_out v s a b hs.1]
    show mask v (O (den s)) = mask v (O (denL L den s))
    rw [denL_val hs.2]
  · exact fun a b h1 h2 => ⟨h.add_inv a b h1.1 h2.1, ha a b h1.1 h2.1 h1.2 h2.2⟩
  · intro a b h1 h2
    apply Subtype.ext
    rw [denL_val (ha a b h1.1 h2.1 h1.2 h2.2), h.add_den a b h1.1 h2.1, Submodule.coe_add, denL_val h1.2, denL_val h2.2]
  · exact fun s hs => ⟨h.zero_inv s hs.1, hz s hs.1⟩
  · intro s hs
    apply Subtype.ext
    rw [denL_val (hz s hs.1), h.zero_den s hs.1]; rfl

theorem aeval_restrict {L : Submodule (ZMod 2) S} (hL : ∀ x ∈ L, T x ∈ L) (p : (ZMod 2)[X]) (x : L) :
    (aeval (T.restrict hL) p x : S) = aeval T p (x : S) := by
  induction p using Polynomial.induction_on' with
  | add p q hp hq => rw [map_add, map_add, LinearMap.add_apply, LinearMap.add_apply, Submodule.coe_add, hp, hq]
  | monomial k a =>
    rw [aeval_monomial, aeval_monomial, Module.End.mul_apply, Module.End.mul_apply, Module.algebraMap_end_apply,
      Module.algebraMap_end_apply]
    have : ∀ k, (((T.restrict hL) ^ k) x : S) = (T ^ k) (x : S) := by
      intro k
      induction k with
      | zero => rfl
      | succ k ih => rw [pow_succ', pow_succ', Module.End.mul_apply, Module.End.mul_apply, ← ih]; rfl
    rw [← this]; rfl

theorem vecMinpoly_restrict {L : Submodule (ZMod 2) S} (hL : ∀ x ∈ L, T x ∈ L) {p : (ZMod 2)[X]} {x : L} :
    IsVecMinpoly (T.restrict hL) x p ↔ IsVecMinpoly T (x : S) p := by
  unfold IsVecMinpoly
  refine and_congr_right fun _ => forall_congr' fun q => ?_
  rw [← aeval_restrict hL]
  exact Iff.of_eq (congrArg (· ↔ p ∣ q) (propext (Submodule.coe_eq_zero (x := aeval (T.restrict hL) q x)).symm))

end Restrict

/-! ### Minimal polynomials of vectors -/

section Vec

variable {S : Type} [AddCommGroup S] [Module (ZMod 2) S] {T : S →ₗ[ZMod 2] S}

theorem aeval_pow_comm (p : (ZMod 2)[X]) (k : ℕ) (x : S) : aeval T p ((T ^ k) x) = (T ^ k) (aeval T p x) := by
  have h : (T ^ k : S →ₗ[ZMod 2] S) = aeval T (X ^ k : (ZMod 2)[X]) := by rw [map_pow, aeval_X]
  rw [h, ← Module.End.mul_apply, ← Module.End.mul_apply, ← map_mul, ← map_mul, mul_comm]

theorem pow_injective (hT : Function.Injective T) (k : ℕ) : Function.Injective (T ^ k : S →ₗ[ZMod 2] S) := by
  rw [Module.End.coe_pow]; exact hT.iterate k

theorem aeval_pow_eq_zero (hT : Function.Injective T) (p : (ZMod 2)[X]) (k : ℕ) (x : S) :
    aeval T p ((T ^ k) x) = 0 ↔ aeval T p x = 0 := by
  rw [aeval_pow_comm]
  constructor
  · intro h; exact pow_injective hT k (h.trans (map_zero _).symm)
  · intro h; rw [h, map_zero]

theorem vecMinpoly_pow (hT : Function.Injective T) {p : (ZMod 2)[X]} {k : ℕ} {x : S} :
    IsVecMinpoly T ((T ^ k) x) p ↔ IsVecMinpoly T x p := by
  unfold IsVecMinpoly
  refine and_congr_right fun _ => forall_congr' fun q => ?_
  rw [aeval_pow_eq_zero hT]

/-- The algebra behind `anni`: if `f q` annihilates `x`, `f` divides everything that annihilates `x`, and `f` does not
divide `q`, then `q(T) x` has minimal polynomial `f`. -/
theorem vecMinpoly_quotient {f q : (ZMod 2)[X]} (hf : Irreducible f) {x : S} (h : aeval T (f * q) x = 0)
    (hd : ∀ r, aeval T r x = 0 → f ∣ r) (hq : ¬ f ∣ q) : IsVecMinpoly T (aeval T q x) f := by
  refine ⟨hf.ne_zero, fun r => ⟨fun hr => ?_, ?_⟩⟩
  · rw [← Module.End.mul_apply, ← map_mul] at hr
    exact (hf.prime.dvd_or_dvd (hd _ hr)).resolve_right hq
  · rintro ⟨c, rfl⟩
    rw [← Module.End.mul_apply, ← map_mul, show f * c * q = c * (f * q) by ring, map_mul, Module.End.mul_apply, h,
      map_zero]

/-- Over the two-element field a divisor of the same degree is the polynomial itself. -/
theorem eq_of_dvd_natDegree {p q : (ZMod 2)[X]} (h : p ∣ q) (hq : q ≠ 0) (hd : q.natDegree ≤ p.natDegree) : p = q := by
  obtain ⟨c, hc⟩ := h
  have hp0 : p ≠ 0 := fun h0 => hq (by rw [hc, h0, zero_mul])
  have hc0 : c ≠ 0 := fun h0 => hq (by rw [hc, h0, mul_zero])
  have h1 := congrArg natDegree hc
  rw [natDegree_mul hp0 hc0] at h1
  rw [hc, (monic_of_ne hc0).natDegree_eq_zero.1 (by omega), mul_one]

end Vec

/-! ### The loops -/

theorem lcmInto_spec {a b : (ZMod 2)[X]} (ha : a ≠ 0) :
    ∃ l, lcmInto a b = some l ∧ ∀ q, l ∣ q ↔ a ∣ q ∧ b ∣ q := by
  obtain ⟨st, f1, f2, f3, f4, -, -⟩ := Util.LCM_correct (fun v => if v = 0 then a else b) 0 0 1 (by simp [ha])
  simp only [if_true, one_ne_zero, if_false] at f2 f3 f4
  refine ⟨st 0, ?_, fun q => ⟨fun h => ⟨f2.trans h, f3.trans h⟩, fun h => f4 q h.1 h.2⟩⟩
  unfold lcmInto
  rw [f1]; rfl

section Loops

variable {σ S : Type} {w : ℕ} [AddCommGroup S] [Module (ZMod 2) S] [Module.Finite (ZMod 2) S]
  {R : ROps σ w} {Inv : σ → Prop} {den : σ → S} {T : S →ₗ[ZMod 2] S} {O : S →ₗ[ZMod 2] V}

theorem ann_charpoly (c : S →ₗ[ZMod 2] ZMod 2) (x : S) : Ann T.charpoly (outSeq T c x) :=
  ann_outSeq _ _ (charpoly_hyps T x).2.1

omit [Module.Finite (ZMod 2) S] in
theorem seqMinpoly_dvd {p : (ZMod 2)[X]} {c : S →ₗ[ZMod 2] ZMod 2} {x : S} (h : IsSeqMinpoly p (outSeq T c x)) :
    ∀ q, p ∣ q ↔ Ann q (outSeq T c x) := fun q => ⟨fun hq => h.2.1.of_dvd hq, h.2.2 q⟩

/-- `getLCMPoly` with any way `mp` of computing minimal polynomials of the functional `c`. -/
theorem lcmLoop_spec (hdim : Module.finrank (ZMod 2) S ≤ R.bitSize) {e : ℕ → S}
    (hone : ∀ k s, k < R.bitSize → Inv s → Inv (R.setOneBit k s) ∧ den (R.setOneBit k s) = e k)
    {mp : σ → Option (σ × (ZMod 2)[X])} {c : S →ₗ[ZMod 2] ZMod 2}
    (hmp : ∀ s, Inv s → ∃ s' p, mp s = some (s', p) ∧ Inv s' ∧ IsSeqMinpoly p (outSeq T c (den s)))
    {p₀ : (ZMod 2)[X]} :
    ∀ (k i : ℕ) (gen : σ) (lcm : (ZMod 2)[X]), i + k = R.bitSize → Inv gen → lcm ∣ T.charpoly →
      (∀ q, lcm ∣ q ↔ p₀ ∣ q ∧ ∀ j, j < i → Ann q (outSeq T c (e j))) →
      ∃ r, lcmLoop R mp k i gen lcm = some r ∧ r ∣ T.charpoly ∧
        ∀ q, r ∣ q ↔ p₀ ∣ q ∧ ∀ j, j < R.bitSize → Ann q (outSeq T c (e j)) := by
  have hc0 : T.charpoly ≠ 0 := (LinearMap.charpoly_monic T).ne_zero
  intro k
  induction k with
  | zero =>
    intro i gen lcm hik _ hl hinv
    refine ⟨lcm, rfl, hl, ?_⟩
    have : i = R.bitSize := by omega
    rw [← this]; exact hinv
  | succ k ih =>
    intro i gen lcm hik hg hl hinv
    obtain ⟨g1, g2⟩ := hone i gen (by omega) hg
    obtain ⟨s', p, e1, e2, e3⟩ := hmp _ g1
    rw [g2] at e3
    have hl0 : lcm ≠ 0 := fun h => hc0 (by rw [h] at hl; exact zero_dvd_iff.1 hl)
    obtain ⟨l, f1, f2⟩ := lcmInto_spec (b := p) hl0
    have hlc : l ∣ T.charpoly := (f2 _).2 ⟨hl, (seqMinpoly_dvd e3 _).2 (ann_charpoly c _)⟩
    have hinv' : ∀ q, l ∣ q ↔ p₀ ∣ q ∧ ∀ j, j < i + 1 → Ann q (outSeq T c (e j)) := by
      intro q
      rw [f2, hinv, seqMinpoly_dvd e3]
      constructor
      · rintro ⟨⟨h1, h2⟩, h3⟩
        refine ⟨h1, fun j hj => ?_⟩
        rcases Nat.lt_succ_iff_lt_or_eq.1 hj with h | h
        · exact h2 j h
        · rw [h]; exact h3
      · rintro ⟨h1, h2⟩
        exact ⟨⟨h1, fun j hj => h2 j (by omega)⟩, h2 i (by omega)⟩
    unfold lcmLoop
    simp only [e1, f1]
    by_cases hd : Period.deg l = R.bitSize
    · rw [if_pos hd]
      refine ⟨l, rfl, hlc, fun q => ⟨fun hq => ⟨((hinv' q).1 hq).1, fun j _ => ?_⟩, fun hq =>
        (hinv' q).2 ⟨hq.1, fun j hj => hq.2 j (by omega)⟩⟩⟩
      have hl0' : l ≠ 0 := fun h => hc0 (by rw [h] at hlc; exact zero_dvd_iff.1 hlc)
      rw [Period.deg_of_ne hl0'] at hd
      have hd' : l.natDegree = R.bitSize := by exact_mod_cast hd
      have := eq_of_dvd_natDegree hlc hc0 (by rw [LinearMap.charpoly_natDegree]; omega)
      rw [this] at hq
      exact (ann_charpoly c _).of_dvd hq
    · rw [if_neg hd]
      exact ih (i + 1) s' l (by omega) e2 hlc hinv'

/-- The bits of the certified word after each step, as a sequence. -/
def lungAt (R : ROps σ w) (s : σ) (pos : ℕ) : BitSeq := fun i =>
  if (R.getParity (stateAt R.toGenOps s (i + 1))).getLsbD pos then 1 else 0

variable {P : S →ₗ[ZMod 2] V}

omit [Module.Finite (ZMod 2) S] in
theorem lungAt_eq (h : LinGen R.toGenOps Inv den T O) (hP : ∀ s, Inv s → bits (R.getParity s) = P (den s)) {s : σ}
    (hs : Inv s) {pos : ℕ} (hp : pos < w) :
    lungAt R s pos = outSeq T ((coord w pos P).comp T) (den s) := by
  funext i
  show _ = P (T ((T ^ i) (den s))) (w - 1 - pos)
  obtain ⟨h1, h2⟩ := stateAt_spec h (g := s) hs (i + 1)
  rw [pow_succ', Module.End.mul_apply] at h2
  rw [← h2, ← hP _ h1]
  unfold lungAt bits
  rw [BitVec.getMsbD_eq_getLsbD]
  have h1 : w - 1 - pos < w := by omega
  have h2 : w - 1 - (w - 1 - pos) = pos := by omega
  simp [h1, h2]

theorem lungAt_shift (R : ROps σ w) (s : σ) (pos m i : ℕ) :
    lungAt R (stateAt R.toGenOps s m) pos i = lungAt R s pos (m + i) := by
  unfold lungAt
  rw [← stateAt_add, Nat.add_assoc]

theorem collectP_spec (R : ROps σ w) {pos : ℕ} (hp : pos < w) (n : ℕ) (s : σ) :
    collectP R pos n s = some (stateAt R.toGenOps s n, (List.range n).map (lungAt R s pos)) := by
  induction n generalizing s with
  | zero => rfl
  | succ n ih =>
    unfold collectP
    dsimp only
    rw [((Util.bitOfPos_correct (R.getParity (R.generate s).1) 0 pos).1 pos rfl hp).2]
    simp only [ih, Option.map_some, Option.some.injEq, Prod.mk.injEq, List.range_succ_eq_map,
      List.map_cons, List.map_map]
    refine ⟨(stateAt_succ' R.toGenOps s n).symm, ?_⟩
    congr 1
    · show _ = (if (R.getParity (R.generate s).1).getLsbD pos then (1 : ZMod 2) else 0)
      cases (R.getParity (R.generate s).1).getLsbD pos <;> simp
    · apply List.map_congr_left
      intro i _
      have := lungAt_shift R s pos 1 i
      show lungAt R (stateAt R.toGenOps s 1) pos i = lungAt R s pos (i + 1)
      rw [this]; congr 1; omega

theorem minPolyLung_spec {mps : MPS} (hm : MinPolySeqSpec mps) (h : LinGen R.toGenOps Inv den T O)
    (hP : ∀ s, Inv s → bits (R.getParity s) = P (den s)) (hdim : Module.finrank (ZMod 2) S ≤ R.bitSize)
    {s : σ} (hs : Inv s) {pos : ℕ} (hp : pos < w) :
    ∃ p, minPolyLung mps R pos s = some (stateAt R.toGenOps s (2 * R.bitSize), p) ∧
      IsSeqMinpoly p (lungAt R s pos) := by
  unfold minPolyLung
  rw [collectP_spec R hp]
  refine ⟨_, rfl, ?_⟩
  obtain ⟨h1, h2, h3⟩ := charpoly_hyps T (den s)
  have hA : Ann T.charpoly (lungAt R s pos) := by
    rw [lungAt_eq h hP hs hp]; exact ann_outSeq _ _ h2
  have := minPolySeq_correct hm h1.ne_zero (h3.le.trans hdim) hA
  convert this using 2
  funext i
  simp

omit [Module.Finite (ZMod 2) S] in
/-- A polynomial annihilates the sequence of a functional from a later state exactly if it does from the state. -/
theorem ann_pow [Finite S] (hT : Function.Injective T) (c : S →ₗ[ZMod 2] ZMod 2) (x : S) (m : ℕ) (q : (ZMod 2)[X]) :
    Ann q (outSeq T c ((T ^ m) x)) ↔ Ann q (outSeq T c x) := by
  obtain ⟨N, hN1, hN⟩ := exists_period hT x
  have key : ∀ (y : S) (k : ℕ), Ann q (outSeq T c y) → Ann q (outSeq T c ((T ^ k) y)) := by
    intro y k hy
    rw [ann_iff] at hy ⊢
    rw [aeval_outSeq] at hy ⊢
    rw [aeval_pow_comm]
    funext i
    have := congrFun hy (i + k)
    show c ((T ^ i) ((T ^ k) (aeval T q y))) = 0
    rw [← Module.End.mul_apply, ← pow_add]
    exact this
  constructor
  · intro h
    have h1 := key _ (N * (m + 1) - m) h
    rw [← Module.End.mul_apply, ← pow_add, show N * (m + 1) - m + m = N * (m + 1) by
      have : m ≤ N * (m + 1) := by nlinarith
      omega, period_mul hN] at h1
    exact h1
  · exact key x m

theorem lungLCM_spec {mps : MPS} (hm : MinPolySeqSpec mps) (h : LinGen R.toGenOps Inv den T O)
    (hT : Function.Injective T) (hP : ∀ s, Inv s → bits (R.getParity s) = P (den s))
    (hdim : Module.finrank (ZMod 2) S ≤ R.bitSize) {s : σ} (hs : Inv s) {p₀ : (ZMod 2)[X]} :
    ∀ (k i m : ℕ) (lcm : (ZMod 2)[X]), i + k = w → lcm ∣ T.charpoly →
      (∀ q, lcm ∣ q ↔ p₀ ∣ q ∧ ∀ pos, pos < i → Ann q (lungAt R s pos)) →
      ∃ m' r, lungLCM mps R k i (stateAt R.toGenOps s m) lcm = some (stateAt R.toGenOps s m', r) ∧
        r ∣ T.charpoly ∧ ∀ q, r ∣ q ↔ p₀ ∣ q ∧ ∀ pos, pos < w → Ann q (lungAt R s pos) := by
  have : Finite S := Module.finite_of_finite (ZMod 2)
  have hc0 : T.charpoly ≠ 0 := (LinearMap.charpoly_monic T).ne_zero
  intro k
  induction k with
  | zero =>
    intro i m lcm hik hl hinv
    have : i = w := by omega
    subst this
    exact ⟨m, lcm, rfl, hl, hinv⟩
  | succ k ih =>
    intro i m lcm hik hl hinv
    obtain ⟨g1, g2⟩ := stateAt_spec h (g := s) hs m
    obtain ⟨p, e1, e2⟩ := minPolyLung_spec hm h hP hdim g1 (pos := i) (by omega)
    rw [lungAt_eq h hP g1 (by omega), g2] at e2
    have hl0 : lcm ≠ 0 := fun h => hc0 (by rw [h] at hl; exact zero_dvd_iff.1 hl)
    obtain ⟨l, f1, f2⟩ := lcmInto_spec (b := p) hl0
    have hp : ∀ q, p ∣ q ↔ Ann q (lungAt R s i) := fun q => by
      rw [seqMinpoly_dvd e2, ann_pow hT, lungAt_eq h hP hs (by omega)]
    unfold lungLCM
    simp only [e1, f1]
    rw [← stateAt_add]
    refine ih (i + 1) _ l (by omega) ((f2 _).2 ⟨hl, (seqMinpoly_dvd e2 _).2 (ann_charpoly _ _)⟩) fun q => ?_
    rw [f2, hinv, hp]
    constructor
    · rintro ⟨⟨h1, h2⟩, h3⟩
      refine ⟨h1, fun j hj => ?_⟩
      rcases Nat.lt_succ_iff_lt_or_eq.1 hj with h | h
      · exact h2 j h
      · rw [h]; exact h3
    · rintro ⟨h1, h2⟩
      exact ⟨⟨h1, fun j hj => h2 j (by omega)⟩, h2 i (by omega)⟩

/-- The end of `anni`. -/
theorem finish_spec {mps : MPS} (hm : MinPolySeqSpec mps) (h : LinGen R.toGenOps Inv den T O)
    (hT : Function.Injective T) (hw : 0 < w) (hdim : Module.finrank (ZMod 2) S ≤ R.bitSize)
    (hbig : R.bitSize < 2 * R.mexp) {s : σ} (hs : Inv s) {f p : (ZMod 2)[X]} (hf : Irreducible f)
    (hfd : f.natDegree = R.mexp) (hfp : f ∣ p) (hp : p ∣ T.charpoly) (hann : aeval T p (den s) = 0)
    (hd : ∀ r, aeval T r (den s) = 0 → f ∣ r) :
    ∃ s', finish mps R f p s = some (s', true) ∧ Inv s' ∧ IsVecMinpoly T (den s') f := by
  have hc0 : T.charpoly ≠ 0 := (LinearMap.charpoly_monic T).ne_zero
  have hp0 : p ≠ 0 := fun h => hc0 (by rw [h] at hp; exact zero_dvd_iff.1 hp)
  obtain ⟨q, rfl⟩ := hfp
  have hq0 : q ≠ 0 := right_ne_zero_of_mul hp0
  have hdeg : (f * q).natDegree ≤ R.bitSize :=
    (natDegree_le_of_dvd hp hc0).trans ((LinearMap.charpoly_natDegree T).le.trans hdim)
  rw [natDegree_mul hf.ne_zero hq0] at hdeg
  have hnd : ¬ f ∣ q := fun hd => by
    have := natDegree_le_of_dvd hd hq0
    omega
  have hquot : f * q / f = q := mul_div_cancel_left₀ q hf.ne_zero
  obtain ⟨a1, a2⟩ := Lin.annihilate_correct h q hs
  obtain ⟨p', e1, -⟩ := minpoly_dim hm h a1 (pos := 0) hw hdim
  obtain ⟨b1, b2⟩ := stateAt_spec h a1 (2 * R.bitSize)
  refine ⟨_, ?_, b1, ?_⟩
  · unfold finish
    dsimp only
    rw [if_neg hf.ne_zero, hquot]
    simp only [Nat.cast_zero] at e1
    rw [e1]
  · rw [b2, vecMinpoly_pow hT, a2]
    exact vecMinpoly_quotient hf hann hd hnd

end Loops

end MTT.Anni
