import Verif.Lin.Model
import Verif.Search.Lemmas
import Verif.Samples.XorShiftProps

/-!
# C20, C21: the linearity test and `annihilate`
-/

namespace MTT.Lin

open PIS Polynomial

variable {σ S : Type} {w : ℕ} [AddCommGroup S] [Module (ZMod 2) S]
  {G : GenOps σ w} {Inv : σ → Prop} {den : σ → S} {T : S →ₗ[ZMod 2] S} {O : S →ₗ[ZMod 2] V}

/-! ## C20 -/

theorem test1Loop_iff (G : GenOps σ w) (k : ℕ) (g : σ) :
    test1Loop G k g = true ↔ ∀ i, i < k → outAt G g i = 0 := by
  induction k generalizing g with
  | zero => simp [test1Loop]
  | succ k ih =>
    unfold test1Loop
    dsimp only
    have hs : ∀ i, outAt G (G.generate g).1 i = outAt G g (i + 1) := fun i => by
      unfold outAt; rw [Search.stateAt_succ']
    constructor
    · intro h i hi
      split at h
      · simp at h
      · next h0 =>
        rcases i with _ | i
        · exact not_not.1 h0
        · rw [← hs]; exact (ih _).1 h i (by omega)
    · intro h
      have h0 : (G.generate g).2 = 0 := h 0 (by omega)
      rw [if_neg (not_not.2 h0)]
      exact (ih _).2 fun i hi => by rw [hs]; exact h (i + 1) (by omega)

theorem test2Loop_iff (G : GenOps σ w) (k : ℕ) (g1 g2 g3 : σ) :
    test2Loop G k g1 g2 g3 = true ↔
      ∀ i, i < k → outAt G g1 i ^^^ outAt G g2 i = outAt G g3 i := by
  induction k generalizing g1 g2 g3 with
  | zero => simp [test2Loop]
  | succ k ih =>
    unfold test2Loop
    dsimp only
    have hs : ∀ g i, outAt G (G.generate g).1 i = outAt G g (i + 1) := fun g i => by
      unfold outAt; rw [Search.stateAt_succ']
    constructor
    · intro h i hi
      split at h
      · simp at h
      · next h0 =>
        rcases i with _ | i
        · exact not_not.1 h0
        · rw [← hs, ← hs, ← hs]; exact (ih _ _ _).1 h i (by omega)
    · intro h
      have h0 : (G.generate g1).2 ^^^ (G.generate g2).2 = (G.generate g3).2 := h 0 (by omega)
      rw [if_neg (not_not.2 h0)]
      exact (ih _ _ _).2 fun i hi => by rw [hs, hs, hs]; exact h (i + 1) (by omega)

/-- What the test decides, for any class whatsoever: the outputs of `g1 + g1` are zero and the outputs of
`g1 + g2` are the sums of the outputs, for 100 steps, `g1` and `g2` being seeded with 1234 and 4321. -/
theorem testLinearity_iff (G : GenOps σ w) (seed : σ → BitVec w → σ) (g : σ) :
    testLinearity G seed g = true ↔
      (∀ i, i < 100 → outAt G (G.add (seed g 1234) (seed g 1234)) i = 0) ∧
      ∀ i, i < 100 → outAt G (seed g 1234) i ^^^ outAt G (seed g 4321) i =
        outAt G (G.add (seed g 4321) (seed g 1234)) i := by
  unfold testLinearity test1 test2
  dsimp only
  rw [Bool.and_eq_true, test1Loop_iff, test2Loop_iff]
  rfl

/-- **C20.**  A class satisfying the contract of a linear generator passes the test in every state. -/
theorem testLinearity_complete (h : LinGen G Inv den T O) (seed : σ → BitVec w → σ)
    (hseed : ∀ s v, Inv s → Inv (seed s v)) {g : σ} (hg : Inv g) : testLinearity G seed g = true := by
  rw [testLinearity_iff]
  have h1 := hseed g 1234 hg
  have h2 := hseed g 4321 hg
  constructor
  · intro i _
    apply bits_inj
    rw [outAt_spec h (h.add_inv _ _ h1 h1), h.add_den _ _ h1 h1, ZModModule.add_self, map_zero,
      map_zero]
    funext j
    simp [bits]
  · intro i _
    apply bits_inj
    rw [bits_xor, outAt_spec h h1, outAt_spec h h2, outAt_spec h (h.add_inv _ _ h2 h1),
      h.add_den _ _ h2 h1, map_add, map_add, add_comm]

/-- **C20**, the contrapositive: a rejection proves that no choice of invariant, state space, transition and
output makes the class linear. -/
theorem reject_nonlinear (seed : σ → BitVec w → σ) (hseed : ∀ s v, Inv s → Inv (seed s v)) {g : σ}
    (hg : Inv g) (hr : testLinearity G seed g = false) : ¬ LinGen G Inv den T O := fun h => by
  rw [testLinearity_complete h seed hseed hg] at hr
  exact Bool.noConfusion hr

-- the xorshift class with any parameters passes
example (p : XorShift.St) : testLinearity XorShift.ops (fun s v => XorShift.seed v s) p = true :=
  testLinearity_complete (XorShift.linGen p) (fun s v => XorShift.seed v s) (fun _ _ hs => hs) ⟨rfl, rfl, rfl, rfl⟩

/-- A counter modulo 256 whose `add` is xor. -/
def counter : GenOps (BitVec 8) 8 := ⟨fun s => (s + 1, s), fun _ s => (s + 1, s), fun a b => a ^^^ b,
  fun _ => 0, fun s => s == 0, 8⟩

-- a non-linear class is rejected
example : testLinearity counter (fun _ v => v) 0 = false := by decide

/-! ## C21 -/

theorem annLoop_spec (h : LinGen G Inv den T O) (p : (ZMod 2)[X]) : ∀ (k i : ℕ) (rg other : σ), Inv rg →
    Inv other → Inv (annLoop G p k i rg other) ∧
      den (annLoop G p k i rg other) =
        den rg + ∑ j ∈ Finset.range k, p.coeff (i + j) • (T ^ j) (den other) := by
  intro k
  induction k with
  | zero => intro i rg other h1 h2; exact ⟨h1, by simp [annLoop]⟩
  | succ k ih =>
    intro i rg other h1 h2
    unfold annLoop
    have hif : Inv (if p.coeff i ≠ 0 then G.add rg other else rg) ∧
        den (if p.coeff i ≠ 0 then G.add rg other else rg) = den rg + p.coeff i • den other := by
      split
      · next hc =>
        refine ⟨h.add_inv _ _ h1 h2, ?_⟩
        have : p.coeff i = 1 := by
          generalize p.coeff i = a at hc ⊢
          revert a; decide
        rw [h.add_den _ _ h1 h2, this, one_smul]
      · next hc =>
        refine ⟨h1, ?_⟩
        rw [not_not.1 hc, zero_smul, add_zero]
    obtain ⟨e1, e2⟩ := ih (i + 1) _ _ hif.1 (h.gen_inv _ h2)
    refine ⟨e1, ?_⟩
    rw [e2, hif.2, h.gen_den _ h2, Finset.sum_range_succ', add_assoc]
    congr 1
    rw [add_comm, pow_zero]
    congr 1
    apply Finset.sum_congr rfl
    intro j _
    rw [pow_succ, Module.End.mul_apply, show i + 1 + j = i + (j + 1) by omega]

/-- **C21.**  `annihilate(g, p)` replaces the state `s` by `p(T) s`. -/
theorem annihilate_correct (h : LinGen G Inv den T O) (p : (ZMod 2)[X]) {g : σ} (hg : Inv g) :
    Inv (annihilate G p g) ∧ den (annihilate G p g) = aeval T p (den g) := by
  unfold annihilate
  obtain ⟨h1, h2⟩ := annLoop_spec h p (Period.deg p + 1).toNat 0 _ g (h.zero_inv g hg) hg
  refine ⟨h1, ?_⟩
  rw [h2, h.zero_den g hg, zero_add]
  by_cases hp : p = 0
  · subst hp; simp
  · have hd : (Period.deg p + 1).toNat = p.natDegree + 1 := by
      rw [Period.deg, if_neg hp]; omega
    rw [hd, aeval_eq_sum_range, LinearMap.sum_apply]
    apply Finset.sum_congr rfl
    intro j _
    rw [Nat.zero_add, LinearMap.smul_apply]

/-- **C21.**  If `p` annihilates the state, `annihilate` gives the zero state. -/
theorem annihilate_zero (h : LinGen G Inv den T O) {p : (ZMod 2)[X]} {g : σ} (hg : Inv g)
    {μ : (ZMod 2)[X]} (hμ : aeval T μ (den g) = 0) (hp : μ ∣ p) : den (annihilate G p g) = 0 := by
  obtain ⟨q, rfl⟩ := hp
  rw [(annihilate_correct h _ hg).2, mul_comm, map_mul, Module.End.mul_apply, hμ, map_zero]

/-- **C21.**  If `p q` annihilates the state, the minimal polynomial of the new state divides `q`. -/
theorem annihilate_minpoly (h : LinGen G Inv den T O) {p q : (ZMod 2)[X]} {g : σ} (hg : Inv g)
    (hpq : aeval T (p * q) (den g) = 0) {ν : (ZMod 2)[X]}
    (hν : Search.IsVecMinpoly T (den (annihilate G p g)) ν) : ν ∣ q := by
  rw [← hν.2, (annihilate_correct h p hg).2, ← Module.End.mul_apply, ← map_mul, mul_comm]
  exact hpq

/-- **C21.**  More precisely, if `s` has minimal polynomial `p q`, the new state has minimal polynomial
`q`. -/
theorem annihilate_exact (h : LinGen G Inv den T O) {p q : (ZMod 2)[X]} {g : σ} (hg : Inv g)
    (hpq : Search.IsVecMinpoly T (den g) (p * q)) :
    Search.IsVecMinpoly T (den (annihilate G p g)) q := by
  refine ⟨right_ne_zero_of_mul hpq.1, fun r => ?_⟩
  rw [(annihilate_correct h p hg).2, ← Module.End.mul_apply, ← map_mul, mul_comm r, hpq.2]
  exact mul_dvd_mul_iff_left (left_ne_zero_of_mul hpq.1)

-- for the xorshift class `annihilate` by `X` is one step of the generator
example (p : XorShift.St) :
    XorShift.den (annihilate XorShift.ops X p) = XorShift.den (XorShift.generate p).1 := by
  rw [(annihilate_correct (XorShift.linGen p) X ⟨rfl, rfl, rfl, rfl⟩).2, aeval_X]
  exact ((XorShift.linGen p).gen_den p ⟨rfl, rfl, rfl, rfl⟩).symm

end MTT.Lin
