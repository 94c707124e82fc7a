import Verif.Spec.Primitive
import Mathlib.Algebra.Polynomial.Module.AEval
import Mathlib.RingTheory.PrincipalIdealDomain
import Mathlib.LinearAlgebra.Charpoly.Basic
import Mathlib.LinearAlgebra.FreeModule.Finite.Matrix
import Mathlib.Algebra.Algebra.Pi

/-!
# Linear recurring sequences over GF(2): specification and theory

`Ann p a` : the sequence `a` satisfies the recurrence with characteristic polynomial `p`.
`IsSeqMinpoly p a` : `p` is the minimal polynomial of `a`.
`MinPolySeqSpec f` : what is assumed of NTL's `MinPolySeq`.
-/

namespace MTT

open Polynomial Finset

/-- Sequences of bits. -/
abbrev BitSeq := ℕ → ZMod 2

/-- `p_0 a_i + p_1 a_{i+1} + … + p_d a_{i+d} = 0` for all `i`. -/
def Ann (p : (ZMod 2)[X]) (a : BitSeq) : Prop :=
  ∀ i, ∑ j ∈ range (p.natDegree + 1), p.coeff j * a (i + j) = 0

/-- The same on the first `n` elements of the sequence. -/
def WinAnn (p : (ZMod 2)[X]) (a : BitSeq) (n : ℕ) : Prop :=
  ∀ i, i + p.natDegree < n → ∑ j ∈ range (p.natDegree + 1), p.coeff j * a (i + j) = 0

/-- The minimal polynomial of a sequence: non-zero, annihilates, divides every annihilating polynomial. -/
def IsSeqMinpoly (p : (ZMod 2)[X]) (a : BitSeq) : Prop :=
  p ≠ 0 ∧ Ann p a ∧ ∀ q, Ann q a → p ∣ q

/-- What is assumed of NTL's `MinPolySeq(h, a, m)` (`a` of length `2m`): if the given elements satisfy
some recurrence of degree at most `m`, the result is a recurrence of the given elements of least
degree. -/
def MinPolySeqSpec (f : (n : ℕ) → (Fin n → ZMod 2) → ℕ → (ZMod 2)[X]) : Prop :=
  ∀ (m : ℕ) (a : BitSeq), (∃ q, q ≠ 0 ∧ q.natDegree ≤ m ∧ WinAnn q a (2 * m)) →
    let p := f (2 * m) (fun i => a i) m
    p ≠ 0 ∧ WinAnn p a (2 * m) ∧
      ∀ q, q ≠ 0 → q.natDegree ≤ m → WinAnn q a (2 * m) → p.natDegree ≤ q.natDegree

/-- The shift operator. -/
def shiftOp : BitSeq →ₗ[ZMod 2] BitSeq where
  toFun a i := a (i + 1)
  map_add' _ _ := rfl
  map_smul' _ _ := rfl

theorem shiftOp_pow (k : ℕ) (a : BitSeq) (i : ℕ) : (shiftOp ^ k) a i = a (i + k) := by
  induction k generalizing i with
  | zero => rfl
  | succ k ih =>
    rw [pow_succ', Module.End.mul_apply]
    show (shiftOp ^ k) a (i + 1) = _
    rw [ih]; congr 1; omega

theorem aeval_shift (p : (ZMod 2)[X]) (a : BitSeq) (i : ℕ) :
    aeval shiftOp p a i = ∑ j ∈ range (p.natDegree + 1), p.coeff j * a (i + j) := by
  rw [aeval_eq_sum_range, LinearMap.sum_apply, Finset.sum_apply]
  apply sum_congr rfl
  intro j _
  rw [LinearMap.smul_apply, Pi.smul_apply, shiftOp_pow, smul_eq_mul]

theorem ann_iff {p : (ZMod 2)[X]} {a : BitSeq} : Ann p a ↔ aeval shiftOp p a = 0 := by
  constructor
  · intro h; funext i; rw [aeval_shift]; exact h i
  · intro h i; rw [← aeval_shift, h]; rfl

theorem Ann.mul_left {p : (ZMod 2)[X]} {a : BitSeq} (h : Ann p a) (q : (ZMod 2)[X]) : Ann (q * p) a := by
  rw [ann_iff] at *
  rw [map_mul, Module.End.mul_apply, h, map_zero]

theorem Ann.of_dvd {p q : (ZMod 2)[X]} {a : BitSeq} (h : Ann p a) (hd : p ∣ q) : Ann q a := by
  obtain ⟨c, rfl⟩ := hd
  rw [mul_comm]; exact h.mul_left c

theorem Ann.gcd {p q : (ZMod 2)[X]} {a : BitSeq} (h : Ann p a) (h' : Ann q a) :
    Ann (EuclideanDomain.gcd p q) a := by
  rw [EuclideanDomain.gcd_eq_gcd_ab, ann_iff, map_add, LinearMap.add_apply]
  have h1 : Ann (p * EuclideanDomain.gcdA p q) a := h.of_dvd (dvd_mul_right _ _)
  have h2 : Ann (q * EuclideanDomain.gcdB p q) a := h'.of_dvd (dvd_mul_right _ _)
  rw [ann_iff] at h1 h2
  rw [h1, h2, add_zero]

/-- Every sequence with a non-zero annihilating polynomial has a minimal polynomial. -/
theorem exists_seqMinpoly {a : BitSeq} {q : (ZMod 2)[X]} (hq : q ≠ 0) (h : Ann q a) :
    ∃ p, IsSeqMinpoly p a := by
  classical
  have hex : ∃ n, ∃ p, p ≠ 0 ∧ Ann p a ∧ p.natDegree = n := ⟨_, q, hq, h, rfl⟩
  obtain ⟨p, hp0, hpa, hpn⟩ := Nat.find_spec hex
  refine ⟨p, hp0, hpa, fun r hr => ?_⟩
  have hg := hpa.gcd hr
  have hg0 : EuclideanDomain.gcd p r ≠ 0 := by
    rw [Ne, EuclideanDomain.gcd_eq_zero_iff]; tauto
  have hle : p.natDegree ≤ (EuclideanDomain.gcd p r).natDegree := by
    rw [hpn]; exact Nat.find_min' hex ⟨_, hg0, hg, rfl⟩
  obtain ⟨c, hc⟩ := EuclideanDomain.gcd_dvd_left p r
  have hc0 : c ≠ 0 := fun h0 => hp0 (by rw [hc, h0, mul_zero])
  have hdeg := congrArg natDegree hc
  rw [natDegree_mul hg0 hc0] at hdeg
  have hc1 : c = 1 := (monic_of_ne hc0).natDegree_eq_zero.1 (by omega)
  rw [hc, hc1, mul_one]
  exact EuclideanDomain.gcd_dvd_right p r

theorem IsSeqMinpoly.unique {p q : (ZMod 2)[X]} {a : BitSeq} (hp : IsSeqMinpoly p a)
    (hq : IsSeqMinpoly q a) : p = q := eq_of_dvd_dvd (hp.2.2 q hq.2.1) (hq.2.2 p hp.2.1)

/-- A sequence with an annihilating polynomial of degree `d` that starts with `d` zeros is zero. -/
theorem eq_zero_of_start {a : BitSeq} {q : (ZMod 2)[X]} (hq : q ≠ 0) (h : Ann q a)
    (h0 : ∀ i < q.natDegree, a i = 0) : a = 0 := by
  funext i
  show a i = 0
  induction i using Nat.strong_induction_on with
  | _ i ih =>
    rcases Nat.lt_or_ge i q.natDegree with hi | hi
    · exact h0 i hi
    · have := h (i - q.natDegree)
      rw [sum_range_succ] at this
      have hs : ∑ j ∈ range q.natDegree, q.coeff j * a (i - q.natDegree + j) = 0 := by
        apply sum_eq_zero
        intro j hj
        rw [mem_range] at hj
        rw [ih _ (by omega), mul_zero]
      rw [hs, zero_add, (monic_of_ne hq).coeff_natDegree, one_mul] at this
      have e : i - q.natDegree + q.natDegree = i := by omega
      rwa [e] at this

/-- The mathematical content of `minpoly`: a least-degree recurrence for the first `2m` elements of a
sequence that has an annihilating polynomial of degree at most `m` is the minimal polynomial of the whole
infinite sequence. -/
theorem minPolySeq_correct {f : (n : ℕ) → (Fin n → ZMod 2) → ℕ → (ZMod 2)[X]} (hf : MinPolySeqSpec f)
    {m : ℕ} {a : BitSeq} {q : (ZMod 2)[X]} (hq : q ≠ 0) (hqm : q.natDegree ≤ m) (h : Ann q a) :
    IsSeqMinpoly (f (2 * m) (fun i => a i) m) a := by
  obtain ⟨μ, hμ⟩ := exists_seqMinpoly hq h
  have hμm : μ.natDegree ≤ m := (natDegree_le_of_dvd (hμ.2.2 q h) hq).trans hqm
  have hwin : WinAnn μ a (2 * m) := fun i _ => hμ.2.1 i
  obtain ⟨h1, h2, h3⟩ := hf m a ⟨μ, hμ.1, hμm, hwin⟩
  set p := f (2 * m) (fun i => a i) m with hp
  have hle := h3 μ hμ.1 hμm hwin
  have hpa : Ann p a := by
    rw [ann_iff]
    apply eq_zero_of_start hμ.1
    · rw [ann_iff, ← Module.End.mul_apply, ← map_mul, mul_comm, map_mul, Module.End.mul_apply,
        ann_iff.1 hμ.2.1, map_zero]
    · intro i hi
      rw [aeval_shift]
      exact h2 i (by omega)
  refine ⟨h1, hpa, fun r hr => (?_ : p ∣ μ).trans (hμ.2.2 r hr)⟩
  obtain ⟨c, hc⟩ := hμ.2.2 p hpa
  have hc0 : c ≠ 0 := fun h0 => h1 (by rw [hc, h0, mul_zero])
  have hdeg := congrArg natDegree hc
  rw [natDegree_mul hμ.1 hc0] at hdeg
  have hc1 : c = 1 := (monic_of_ne hc0).natDegree_eq_zero.1 (by omega)
  rw [hc, hc1, mul_one]

/-- `MinPolySeqSpec` can be satisfied. -/
theorem minPolySeqSpec_sat : ∃ f, MinPolySeqSpec f := by
  classical
  have key : ∀ (m : ℕ) (v : Fin (2 * m) → ZMod 2), ∃ p : (ZMod 2)[X], ∀ a : BitSeq,
      (∀ i : Fin (2 * m), a i = v i) → (∃ q, q ≠ 0 ∧ q.natDegree ≤ m ∧ WinAnn q a (2 * m)) →
      p ≠ 0 ∧ WinAnn p a (2 * m) ∧
        ∀ q, q ≠ 0 → q.natDegree ≤ m → WinAnn q a (2 * m) → p.natDegree ≤ q.natDegree := by
    intro m v
    let a0 : BitSeq := fun i => if h : i < 2 * m then v ⟨i, h⟩ else 0
    have hwin : ∀ (a : BitSeq), (∀ i : Fin (2 * m), a i = v i) → ∀ q,
        WinAnn q a (2 * m) ↔ WinAnn q a0 (2 * m) := by
      intro a ha q
      have e : ∀ i < 2 * m, a i = a0 i := by
        intro i hi
        simp only [a0, dif_pos hi]
        exact ha ⟨i, hi⟩
      unfold WinAnn
      refine forall_congr' fun i => forall_congr' fun hi => ?_
      rw [sum_congr rfl]
      intro j hj
      rw [mem_range] at hj
      rw [e _ (by omega)]
    by_cases hex : ∃ n, ∃ q : (ZMod 2)[X], q ≠ 0 ∧ q.natDegree ≤ m ∧ WinAnn q a0 (2 * m) ∧ q.natDegree = n
    · obtain ⟨p, h1, h2, h3, h4⟩ := Nat.find_spec hex
      refine ⟨p, fun a ha _ => ⟨h1, (hwin a ha p).2 h3, fun q e1 e2 e3 => ?_⟩⟩
      rw [h4]
      exact Nat.find_min' hex ⟨q, e1, e2, (hwin a ha q).1 e3, rfl⟩
    · refine ⟨0, fun a ha h => absurd ?_ hex⟩
      obtain ⟨q, h1, h2, h3⟩ := h
      exact ⟨_, q, h1, h2, (hwin a ha q).1 h3, rfl⟩
  choose f hf using key
  refine ⟨fun n v m => if h : n = 2 * m then f m (fun i => v (i.cast h.symm)) else 0, fun m a h => ?_⟩
  simp only [dite_true]
  exact hf m _ a (fun i => rfl) h

/-- `Ann 1` only holds for the zero sequence. -/
theorem ann_one {a : BitSeq} : Ann 1 a ↔ a = 0 := by rw [ann_iff, map_one]; rfl

/-! ## Sequences produced by a linear system -/

section
variable {S : Type} [AddCommGroup S] [Module (ZMod 2) S] (T : S →ₗ[ZMod 2] S) (c : S →ₗ[ZMod 2] ZMod 2)

/-- The sequence `c(s), c(Ts), c(T²s), …`. -/
def outSeq : S →ₗ[ZMod 2] BitSeq where
  toFun s i := c ((T ^ i) s)
  map_add' x y := by funext i; simp
  map_smul' k x := by funext i; simp

theorem shift_outSeq (s : S) : shiftOp (outSeq T c s) = outSeq T c (T s) := by
  funext i
  show c ((T ^ (i + 1)) s) = c ((T ^ i) (T s))
  rw [pow_succ, Module.End.mul_apply]

theorem aeval_outSeq (p : (ZMod 2)[X]) (s : S) :
    aeval shiftOp p (outSeq T c s) = outSeq T c (aeval T p s) := by
  have hpow : ∀ n, (shiftOp ^ n) (outSeq T c s) = outSeq T c ((T ^ n) s) := by
    intro n
    induction n with
    | zero => rfl
    | succ n ih =>
      rw [pow_succ', Module.End.mul_apply, ih, shift_outSeq, pow_succ', Module.End.mul_apply]
  rw [aeval_eq_sum_range, aeval_eq_sum_range, LinearMap.sum_apply, LinearMap.sum_apply, map_sum]
  apply sum_congr rfl
  intro j _
  rw [LinearMap.smul_apply, LinearMap.smul_apply, map_smul, hpow]

theorem ann_outSeq {p : (ZMod 2)[X]} {s : S} (h : aeval T p s = 0) : Ann p (outSeq T c s) := by
  rw [ann_iff, aeval_outSeq, h, map_zero]

end

end MTT
