import Verif.Spec.Word

/-!
# Xor-shift steps on words: linearity and invertibility (helper lemmas)
-/

namespace MTT

variable {w : ℕ}

theorem shl_xor (x y : BitVec w) (k : ℕ) : (x ^^^ y) <<< k = (x <<< k) ^^^ (y <<< k) :=
  BitVec.shiftLeft_xor_distrib ..

theorem shr_xor (x y : BitVec w) (k : ℕ) : (x ^^^ y) >>> k = (x >>> k) ^^^ (y >>> k) :=
  BitVec.ushiftRight_xor_distrib ..

theorem and_xor (x y m : BitVec w) : (x ^^^ y) &&& m = (x &&& m) ^^^ (y &&& m) := by
  ext i hi
  simp [Bool.and_xor_distrib_right]

theorem xor_cancel_right {a b c : Bool} (h : (a ^^ c) = (b ^^ c)) : a = b := by
  revert h; cases a <;> cases b <;> cases c <;> decide

/-- `x ^ ((x << k) & m)` is injective for `k ≥ 1`. -/
theorem shl_step_inj {k : ℕ} (hk : 1 ≤ k) (m : BitVec w) {x y : BitVec w}
    (h : x ^^^ ((x <<< k) &&& m) = y ^^^ ((y <<< k) &&& m)) : x = y := by
  have key : ∀ n i, i < n → x.getLsbD i = y.getLsbD i := by
    intro n
    induction n with
    | zero => intro i hi; omega
    | succ n ih =>
      intro i hi
      have e := congrArg (fun z => z.getLsbD i) h
      simp only [BitVec.getLsbD_xor, BitVec.getLsbD_and, BitVec.getLsbD_shiftLeft] at e
      by_cases hik : i < k
      · simpa [hik] using e
      · rw [ih (i - k) (by omega)] at e
        exact xor_cancel_right e
  apply BitVec.eq_of_getLsbD_eq
  intro i _
  exact key (i + 1) i (by omega)

/-- `x ^ ((x >> k) & m)` is injective for `k ≥ 1`. -/
theorem shr_step_inj {k : ℕ} (hk : 1 ≤ k) (m : BitVec w) {x y : BitVec w}
    (h : x ^^^ ((x >>> k) &&& m) = y ^^^ ((y >>> k) &&& m)) : x = y := by
  have key : ∀ n i, w ≤ i + n → x.getLsbD i = y.getLsbD i := by
    intro n
    induction n with
    | zero =>
      intro i hi
      have hi : w ≤ i := hi
      rw [BitVec.getLsbD_of_ge _ _ hi, BitVec.getLsbD_of_ge _ _ hi]
    | succ n ih =>
      intro i hi
      have e := congrArg (fun z => z.getLsbD i) h
      simp only [BitVec.getLsbD_xor, BitVec.getLsbD_and, BitVec.getLsbD_ushiftRight] at e
      rw [ih (k + i) (by omega)] at e
      exact xor_cancel_right e
  apply BitVec.eq_of_getLsbD_eq
  intro i _
  exact key w i (by omega)

theorem shl_inj {k : ℕ} (hk : 1 ≤ k) {x y : BitVec w}
    (h : x ^^^ (x <<< k) = y ^^^ (y <<< k)) : x = y :=
  shl_step_inj hk (BitVec.allOnes w) (by simpa using h)

theorem shr_inj {k : ℕ} (hk : 1 ≤ k) {x y : BitVec w}
    (h : x ^^^ (x >>> k) = y ^^^ (y >>> k)) : x = y :=
  shr_step_inj hk (BitVec.allOnes w) (by simpa using h)

theorem reverse_xor (x y : BitVec w) : (x ^^^ y).reverse = x.reverse ^^^ y.reverse := by
  apply BitVec.eq_of_getLsbD_eq
  intro i hi
  simp only [BitVec.getLsbD_reverse, BitVec.getLsbD_xor, BitVec.getMsbD_xor]

theorem xor_left_cancel' {a x y : BitVec w} (h : a ^^^ x = a ^^^ y) : x = y := by
  simpa using congrArg (a ^^^ ·) h

end MTT
