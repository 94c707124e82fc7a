import Mathlib.Algebra.Polynomial.FieldDivision
import Mathlib.Algebra.Field.ZMod
import Mathlib.RingTheory.Polynomial.Basic
import Mathlib.Algebra.EuclideanDomain.Basic

/-!
# C11: `LCM` of `include/MTToolBox/util.hpp`

NTL polynomials are `Polynomial (ZMod 2)`; `GCD`, `mul` and `/=` of NTL are specified by
`EuclideanDomain.gcd`, multiplication and Euclidean division.  To make aliasing visible the arguments are
variables of a store, not values.
-/

namespace MTT.Util

open Polynomial

/-- A store: the value of each `GF2X` variable. -/
abbrev Store := ℕ → (ZMod 2)[X]

/-- Addition of a value for a variable. -/
noncomputable def Store.set (m : Store) (l : ℕ) (p : (ZMod 2)[X]) : Store := Function.update m l p

/-- `LCM(lcm, x, y)`, util.hpp:510-517: `GCD(gcd,x,y); mul(lcm,x,y); lcm /= gcd;`.  `l`, `x`, `y` are the
variables passed by reference; `gcd` is a fresh local.  `none`: division by zero (NTL raises an error). -/
noncomputable def LCM (m : Store) (l x y : ℕ) : Option Store :=
  let gcd := EuclideanDomain.gcd (m x) (m y)
  let m := m.set l (m x * m y)
  if gcd = 0 then none
  else some (m.set l (m l / gcd))

/-- **C11.**  Unless both arguments are zero, `LCM` succeeds and leaves in the result variable a polynomial
that both arguments (as they were before the call) divide and that divides every common multiple; the
division is exact; no other variable changes.  The variables may coincide in any way. -/
theorem LCM_correct (m : Store) (l x y : ℕ) (h : ¬ (m x = 0 ∧ m y = 0)) :
    ∃ m', LCM m l x y = some m' ∧ m x ∣ m' l ∧ m y ∣ m' l ∧
      (∀ c, m x ∣ c → m y ∣ c → m' l ∣ c) ∧
      m' l * EuclideanDomain.gcd (m x) (m y) = m x * m y ∧ ∀ k, k ≠ l → m' k = m k := by
  have hg : EuclideanDomain.gcd (m x) (m y) ≠ 0 := by
    rw [Ne, EuclideanDomain.gcd_eq_zero_iff]; exact h
  have hl : m x * m y / EuclideanDomain.gcd (m x) (m y) = EuclideanDomain.lcm (m x) (m y) := rfl
  refine ⟨(m.set l (m x * m y)).set l (EuclideanDomain.lcm (m x) (m y)), ?_, ?_, ?_, ?_, ?_, ?_⟩
  · unfold LCM
    simp only [if_neg hg]
    congr 2
    simp [Store.set, hl]
  · simpa [Store.set] using EuclideanDomain.dvd_lcm_left _ _
  · simpa [Store.set] using EuclideanDomain.dvd_lcm_right _ _
  · intro c h1 h2
    simpa [Store.set] using EuclideanDomain.lcm_dvd h1 h2
  · have := EuclideanDomain.gcd_mul_lcm (m x) (m y)
    simp only [Store.set, Function.update_self]
    rw [mul_comm]; exact this
  · intro k hk
    simp [Store.set, Function.update_of_ne hk]

/-- **C11.**  The excluded case: with two zero polynomials the code divides by zero. -/
theorem LCM_zero (m : Store) (l x y : ℕ) (hx : m x = 0) (hy : m y = 0) : LCM m l x y = none := by
  unfold LCM
  simp [hx, hy]

/-- Aliased call `LCM(p, p, q)` with `p = X^2+X`, `q = X^2+1`: the hypotheses hold. -/
example : ∃ m', LCM (fun i => if i = 0 then X ^ 2 + X else X ^ 2 + 1) 0 0 1 = some m' ∧
    (X ^ 2 + X : (ZMod 2)[X]) ∣ m' 0 ∧ (X ^ 2 + 1 : (ZMod 2)[X]) ∣ m' 0 := by
  obtain ⟨m', h1, h2, h3, _⟩ := LCM_correct
    (fun i => if i = 0 then (X ^ 2 + X : (ZMod 2)[X]) else X ^ 2 + 1) 0 0 1 (by
      rintro ⟨-, h⟩
      have := congrArg (fun p => Polynomial.coeff p 0) h
      simp at this)
  exact ⟨m', h1, by simpa using h2, by simpa using h3⟩

end MTT.Util
