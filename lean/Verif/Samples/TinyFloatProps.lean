import Verif.Samples.TinyRef
import Mathlib.Tactic.NormNum
import Mathlib.Tactic.Positivity
import Mathlib.Tactic.FieldSimp
import Mathlib.Tactic.Ring
import Mathlib.Tactic.Linarith

/-!
# C82: the floating point functions of the TinyMT reference code

Specification: a format has `p` bits of precision; a rounding of it leaves the numbers of the format alone.  Nothing else is
assumed about the rounding, so the results hold in every rounding mode.
-/

namespace MTT.TinyRef

/-- `rnd` leaves every number `m 2^e` with `|m| < 2^p` and an exponent in the range alone. -/
def Rounds (p : ℕ) (lo hi : ℤ) (rnd : ℚ → ℚ) : Prop :=
  ∀ (m e : ℤ), |m| < 2 ^ p → lo ≤ e → e ≤ hi → rnd (m * 2 ^ e) = m * 2 ^ e

/-- Rounding to `float`. -/
abbrev RoundsFloat (rnd : ℚ → ℚ) : Prop := Rounds 24 (-149) 104 rnd

/-- Rounding to `double`. -/
abbrev RoundsDouble (rnd : ℚ → ℚ) : Prop := Rounds 53 (-1074) 971 rnd

/-! ## Helpers -/

theorem Rounds.fix {p : ℕ} {lo hi : ℤ} {rnd : ℚ → ℚ} (h : Rounds p lo hi rnd) {k : ℕ} (hk : k < 2 ^ p) (d : ℕ)
    (hd : lo ≤ -(d : ℤ)) (hh : -(d : ℤ) ≤ hi) : rnd ((k : ℚ) / 2 ^ d) = (k : ℚ) / 2 ^ d := by
  have e : (k : ℚ) / 2 ^ d = ((k : ℤ) : ℚ) * 2 ^ (-(d : ℤ)) := by
    rw [zpow_neg, zpow_natCast, div_eq_mul_inv]; norm_cast
  rw [e]
  refine h _ _ ?_ hd hh
  rw [Nat.abs_cast]
  exact_mod_cast hk

theorem Rounds.fixNat {p : ℕ} {lo hi : ℤ} {rnd : ℚ → ℚ} (h : Rounds p lo hi rnd) {k : ℕ} (hk : k < 2 ^ p)
    (hd : lo ≤ 0) (hh : 0 ≤ hi) : rnd k = k := by
  have := h.fix hk 0 (by simpa using hd) (by simpa using hh)
  simpa using this

theorem Rounds.one {p : ℕ} {lo hi : ℤ} {rnd : ℚ → ℚ} (h : Rounds p lo hi rnd) (hp : 1 ≤ p) (hd : lo ≤ 0) (hh : 0 ≤ hi) :
    rnd 1 = 1 := by
  have := h.fixNat (k := 1) (Nat.one_lt_two_pow (by omega)) hd hh
  simpa using this

theorem conv32_eq (one : BitVec 32) (lin : Bool) (r : T32) : conv32 one lin r = (temper32 lin r >>> 9) ||| one := by
  unfold conv32 temper32
  dsimp only
  split <;> rfl

theorem conv64_eq (one : BitVec 64) (lin : Bool) (r : T64) : conv64 one lin r = (temper64 lin r >>> 12) ||| one := by
  unfold conv64 temper64
  split <;> rfl

theorem decode32_conv (u : BitVec 32) (one : BitVec 32) (h31 : one.getLsbD 31 = false) (he : one.extractLsb' 23 8 = 127) :
    decode32 ((u >>> 9) ||| one) = 1 + ((u.toNat / 2 ^ 9 ||| (one.extractLsb' 0 23).toNat : ℕ) : ℚ) / 2 ^ 23 := by
  unfold decode32
  have hs : ((u >>> 9) ||| one).getLsbD 31 = false := by
    rw [BitVec.getLsbD_or, h31, BitVec.getLsbD_ushiftRight, BitVec.getLsbD_of_ge _ _ (by omega)]
    rfl
  have h2 : ((u >>> 9) ||| one).extractLsb' 23 8 = 127 := by
    rw [← he]
    apply BitVec.eq_of_getLsbD_eq
    intro i hi
    rw [BitVec.getLsbD_extractLsb', BitVec.getLsbD_extractLsb', BitVec.getLsbD_or, BitVec.getLsbD_ushiftRight,
      BitVec.getLsbD_of_ge _ (9 + (23 + i)) (by omega), Bool.false_or]
  have h3 : (((u >>> 9) ||| one).extractLsb' 0 23).toNat = u.toNat / 2 ^ 9 ||| (one.extractLsb' 0 23).toNat := by
    have : ((u >>> 9) ||| one).extractLsb' 0 23 = (u >>> 9).setWidth 23 ||| one.extractLsb' 0 23 := by
      apply BitVec.eq_of_getLsbD_eq
      intro i hi
      rw [BitVec.getLsbD_extractLsb', BitVec.getLsbD_or, BitVec.getLsbD_or, BitVec.getLsbD_extractLsb',
        BitVec.getLsbD_setWidth]
      simp [hi]
    rw [this, BitVec.toNat_or, BitVec.toNat_setWidth, BitVec.toNat_ushiftRight, Nat.shiftRight_eq_div_pow,
      Nat.mod_eq_of_lt (by have := u.isLt; omega)]
  rw [hs, h2, h3, show ((127 : BitVec 8).toNat : ℤ) - 127 = 0 by decide, zpow_zero, mul_one, if_neg (by decide), one_mul]

theorem decode64_conv (u : BitVec 64) (one : BitVec 64) (h31 : one.getLsbD 63 = false) (he : one.extractLsb' 52 11 = 1023) :
    decode64 ((u >>> 12) ||| one) = 1 + ((u.toNat / 2 ^ 12 ||| (one.extractLsb' 0 52).toNat : ℕ) : ℚ) / 2 ^ 52 := by
  unfold decode64
  have hs : ((u >>> 12) ||| one).getLsbD 63 = false := by
    rw [BitVec.getLsbD_or, h31, BitVec.getLsbD_ushiftRight, BitVec.getLsbD_of_ge _ _ (by omega)]
    rfl
  have h2 : ((u >>> 12) ||| one).extractLsb' 52 11 = 1023 := by
    rw [← he]
    apply BitVec.eq_of_getLsbD_eq
    intro i hi
    rw [BitVec.getLsbD_extractLsb', BitVec.getLsbD_extractLsb', BitVec.getLsbD_or, BitVec.getLsbD_ushiftRight,
      BitVec.getLsbD_of_ge _ (12 + (52 + i)) (by omega), Bool.false_or]
  have h3 : (((u >>> 12) ||| one).extractLsb' 0 52).toNat = u.toNat / 2 ^ 12 ||| (one.extractLsb' 0 52).toNat := by
    have : ((u >>> 12) ||| one).extractLsb' 0 52 = (u >>> 12).setWidth 52 ||| one.extractLsb' 0 52 := by
      apply BitVec.eq_of_getLsbD_eq
      intro i hi
      rw [BitVec.getLsbD_extractLsb', BitVec.getLsbD_or, BitVec.getLsbD_or, BitVec.getLsbD_extractLsb',
        BitVec.getLsbD_setWidth]
      simp [hi]
    rw [this, BitVec.toNat_or, BitVec.toNat_setWidth, BitVec.toNat_ushiftRight, Nat.shiftRight_eq_div_pow,
      Nat.mod_eq_of_lt (by have := u.isLt; omega)]
  rw [hs, h2, h3, show ((1023 : BitVec 11).toNat : ℤ) - 1023 = 0 by decide, zpow_zero, mul_one, if_neg (by decide), one_mul]

/-- `k/2^d` lies in `[0,1)` if `k < 2^d`. -/
theorem frac_range {k d : ℕ} (hk : k < 2 ^ d) : 0 ≤ (k : ℚ) / 2 ^ d ∧ (k : ℚ) / 2 ^ d < 1 := by
  have h2 : (0 : ℚ) < 2 ^ d := by positivity
  refine ⟨by positivity, ?_⟩
  rw [div_lt_one h2]
  exact_mod_cast hk

theorem frac_pos {k d : ℕ} (hk : 0 < k) : 0 < (k : ℚ) / 2 ^ d := by
  have : (0 : ℚ) < k := by exact_mod_cast hk
  positivity

/-! ## C82 -/

/-- **C82.**  `tinymt32_generate_float` returns exactly the leading 24 bits of the number that `tinymt32_generate_uint32`
would return, divided by `2^24`; it lies in `[0,1)`; the objects end in the same state. -/
theorem genFloat_exact {rnd : ℚ → ℚ} (hr : RoundsFloat rnd) (lin : Bool) (r : T32) :
    (genFloat rnd lin r).1 = (gen32 lin r).1 ∧
    (genFloat rnd lin r).2 = ((gen32 lin r).2.toNat / 2 ^ 8 : ℕ) / 2 ^ 24 ∧
    0 ≤ (genFloat rnd lin r).2 ∧ (genFloat rnd lin r).2 < 1 := by
  have hk : (gen32 lin r).2.toNat / 2 ^ 8 < 2 ^ 24 := by have := (gen32 lin r).2.isLt; omega
  have e : (genFloat rnd lin r).2 = ((gen32 lin r).2.toNat / 2 ^ 8 : ℕ) / 2 ^ 24 := by
    unfold genFloat mul32
    have h1 : rnd (1 / 16777216) = 1 / 16777216 := by
      have := hr.fix (k := 1) (by norm_num) 24 (by norm_num) (by norm_num)
      norm_num at this ⊢
      exact this
    have h2 : ((temper32 lin (next32 r)) >>> 8).toNat = (gen32 lin r).2.toNat / 2 ^ 8 := by
      rw [BitVec.toNat_ushiftRight, Nat.shiftRight_eq_div_pow]; rfl
    dsimp only
    rw [h1, h2, hr.fixNat hk (by norm_num) (by norm_num),
      show ((16777216 : ℚ)) = 2 ^ 24 by norm_num, mul_one_div]
    exact hr.fix hk 24 (by norm_num) (by norm_num)
  refine ⟨rfl, e, ?_⟩
  rw [e]
  exact frac_range hk

/-- **C82.**  `tinymt32_generate_float12`: one plus the leading 23 bits over `2^23`, in `[1,2)`. -/
theorem genFloat12_exact (lin : Bool) (r : T32) :
    (genFloat12 lin r).1 = (gen32 lin r).1 ∧
    (genFloat12 lin r).2 = 1 + ((gen32 lin r).2.toNat / 2 ^ 9 : ℕ) / 2 ^ 23 ∧
    1 ≤ (genFloat12 lin r).2 ∧ (genFloat12 lin r).2 < 2 := by
  have hk : (gen32 lin r).2.toNat / 2 ^ 9 < 2 ^ 23 := by have := (gen32 lin r).2.isLt; omega
  have e : (genFloat12 lin r).2 = 1 + ((gen32 lin r).2.toNat / 2 ^ 9 : ℕ) / 2 ^ 23 := by
    unfold genFloat12
    dsimp only
    rw [conv32_eq, decode32_conv _ _ (by decide) (by decide),
      show ((0x3f800000 : BitVec 32).extractLsb' 0 23).toNat = 0 by decide, Nat.or_zero]
    rfl
  refine ⟨rfl, e, ?_⟩
  rw [e]
  have := frac_range hk
  constructor <;> linarith [this.1, this.2]

/-- **C82.**  `tinymt32_generate_float01`: the leading 23 bits over `2^23`, in `[0,1)`. -/
theorem genFloat01_exact {rnd : ℚ → ℚ} (hr : RoundsFloat rnd) (lin : Bool) (r : T32) :
    (genFloat01 rnd lin r).1 = (gen32 lin r).1 ∧
    (genFloat01 rnd lin r).2 = ((gen32 lin r).2.toNat / 2 ^ 9 : ℕ) / 2 ^ 23 ∧
    0 ≤ (genFloat01 rnd lin r).2 ∧ (genFloat01 rnd lin r).2 < 1 := by
  have hk : (gen32 lin r).2.toNat / 2 ^ 9 < 2 ^ 23 := by have := (gen32 lin r).2.isLt; omega
  have e : (genFloat01 rnd lin r).2 = ((gen32 lin r).2.toNat / 2 ^ 9 : ℕ) / 2 ^ 23 := by
    have h1 : (genFloat01 rnd lin r).2 = rnd ((genFloat12 lin r).2 - 1) := rfl
    rw [h1, (genFloat12_exact lin r).2.1, add_sub_cancel_left]
    exact hr.fix (hk.trans (by norm_num)) 23 (by norm_num) (by norm_num)
  refine ⟨rfl, e, ?_⟩
  rw [e]
  exact frac_range hk

/-- **C82.**  `tinymt32_generate_floatOC`: in `(0,1]`; the function makes two steps and uses the second number only. -/
theorem genFloatOC_exact {rnd : ℚ → ℚ} (hr : RoundsFloat rnd) (lin : Bool) (r : T32) :
    (genFloatOC rnd lin r).1 = (gen32 lin (gen32 lin r).1).1 ∧
    (genFloatOC rnd lin r).2 = 1 - ((gen32 lin (gen32 lin r).1).2.toNat / 2 ^ 8 : ℕ) / 2 ^ 24 ∧
    0 < (genFloatOC rnd lin r).2 ∧ (genFloatOC rnd lin r).2 ≤ 1 := by
  obtain ⟨h1, h2, h3, h4⟩ := genFloat_exact hr lin (next32 r)
  have hk : (gen32 lin (gen32 lin r).1).2.toNat / 2 ^ 8 < 2 ^ 24 := by
    have := (gen32 lin (gen32 lin r).1).2.isLt; omega
  have e : (genFloatOC rnd lin r).2 = 1 - ((gen32 lin (gen32 lin r).1).2.toNat / 2 ^ 8 : ℕ) / 2 ^ 24 := by
    have h5 : (genFloatOC rnd lin r).2 = rnd (1 - (genFloat rnd lin (next32 r)).2) := rfl
    rw [h5, h2]
    have h6 : gen32 lin (next32 r) = gen32 lin (gen32 lin r).1 := rfl
    rw [h6]
    generalize (gen32 lin (gen32 lin r).1).2.toNat / 2 ^ 8 = k at hk ⊢
    rcases Nat.eq_zero_or_pos k with rfl | hk0
    · simpa using hr.one (by norm_num) (by norm_num) (by norm_num)
    · have h7 : (1 : ℚ) - (k : ℚ) / 2 ^ 24 = ((2 ^ 24 - k : ℕ) : ℚ) / 2 ^ 24 := by
        rw [Nat.cast_sub hk.le]
        push_cast
        field_simp
        norm_num
      rw [h7]
      exact hr.fix (by omega) 24 (by norm_num) (by norm_num)
  refine ⟨rfl, e, ?_⟩
  rw [e]
  have := frac_range hk
  constructor <;> linarith [this.1, this.2]

/-- **C82.**  `tinymt32_generate_floatOO`: in `(0,1)`. -/
theorem genFloatOO_exact {rnd : ℚ → ℚ} (hr : RoundsFloat rnd) (lin : Bool) (r : T32) :
    (genFloatOO rnd lin r).1 = (gen32 lin r).1 ∧
    (genFloatOO rnd lin r).2 = ((gen32 lin r).2.toNat / 2 ^ 9 ||| 1 : ℕ) / 2 ^ 23 ∧
    0 < (genFloatOO rnd lin r).2 ∧ (genFloatOO rnd lin r).2 < 1 := by
  have hk : (gen32 lin r).2.toNat / 2 ^ 9 < 2 ^ 23 := by have := (gen32 lin r).2.isLt; omega
  have hk1 : (gen32 lin r).2.toNat / 2 ^ 9 ||| 1 < 2 ^ 23 := Nat.or_lt_two_pow hk (by norm_num)
  have hk2 : 0 < (gen32 lin r).2.toNat / 2 ^ 9 ||| 1 := Nat.lt_of_lt_of_le one_pos Nat.right_le_or
  have e : (genFloatOO rnd lin r).2 = ((gen32 lin r).2.toNat / 2 ^ 9 ||| 1 : ℕ) / 2 ^ 23 := by
    unfold genFloatOO
    dsimp only
    rw [conv32_eq, decode32_conv _ _ (by decide) (by decide),
      show ((0x3f800001 : BitVec 32).extractLsb' 0 23).toNat = 1 by decide, add_sub_cancel_left]
    exact hr.fix (hk1.trans (by norm_num)) 23 (by norm_num) (by norm_num)
  refine ⟨rfl, e, ?_⟩
  rw [e]
  exact ⟨frac_pos hk2, (frac_range hk1).2⟩

/-- **C82.**  `tinymt32_generate_32double`: the number over `2^32`, in `[0,1)`.  The comment in the source promises `(0,1]`:
`gen32double_zero` shows that 0 is returned. -/
theorem gen32double_exact {rnd : ℚ → ℚ} (hr : RoundsDouble rnd) (lin : Bool) (r : T32) :
    (gen32double rnd lin r).1 = (gen32 lin r).1 ∧
    (gen32double rnd lin r).2 = (gen32 lin r).2.toNat / 2 ^ 32 ∧
    0 ≤ (gen32double rnd lin r).2 ∧ (gen32double rnd lin r).2 < 1 := by
  have hk : (gen32 lin r).2.toNat < 2 ^ 32 := (gen32 lin r).2.isLt
  have e : (gen32double rnd lin r).2 = (gen32 lin r).2.toNat / 2 ^ 32 := by
    unfold gen32double
    have h1 : rnd (1 / 4294967296) = 1 / 4294967296 := by
      have := hr.fix (k := 1) (by norm_num) 32 (by norm_num) (by norm_num)
      norm_num at this ⊢
      exact this
    dsimp only
    have h2 : temper32 lin (next32 r) = (gen32 lin r).2 := rfl
    rw [h2, h1, hr.fixNat (hk.trans (by norm_num)) (by norm_num) (by norm_num),
      show ((4294967296 : ℚ)) = 2 ^ 32 by norm_num, mul_one_div]
    exact hr.fix (hk.trans (by norm_num)) 32 (by norm_num) (by norm_num)
  refine ⟨rfl, e, ?_⟩
  rw [e]
  exact frac_range hk

/-- **C82.**  `tinymt64_generate_double`: the leading 53 bits over `2^53`, in `[0,1)`. -/
theorem genDouble_exact {rnd : ℚ → ℚ} (hr : RoundsDouble rnd) (lin : Bool) (r : T64) :
    (genDouble rnd lin r).1 = (gen64 lin r).1 ∧
    (genDouble rnd lin r).2 = ((gen64 lin r).2.toNat / 2 ^ 11 : ℕ) / 2 ^ 53 ∧
    0 ≤ (genDouble rnd lin r).2 ∧ (genDouble rnd lin r).2 < 1 := by
  have hk : (gen64 lin r).2.toNat / 2 ^ 11 < 2 ^ 53 := by have := (gen64 lin r).2.isLt; omega
  have e : (genDouble rnd lin r).2 = ((gen64 lin r).2.toNat / 2 ^ 11 : ℕ) / 2 ^ 53 := by
    unfold genDouble mul64
    have h1 : rnd (1 / 9007199254740992) = 1 / 9007199254740992 := by
      have := hr.fix (k := 1) (by norm_num) 53 (by norm_num) (by norm_num)
      norm_num at this ⊢
      exact this
    have h2 : ((temper64 lin (next64 r)) >>> 11).toNat = (gen64 lin r).2.toNat / 2 ^ 11 := by
      rw [BitVec.toNat_ushiftRight, Nat.shiftRight_eq_div_pow]; rfl
    dsimp only
    rw [h1, h2, hr.fixNat hk (by norm_num) (by norm_num),
      show ((9007199254740992 : ℚ)) = 2 ^ 53 by norm_num, mul_one_div]
    exact hr.fix hk 53 (by norm_num) (by norm_num)
  refine ⟨rfl, e, ?_⟩
  rw [e]
  exact frac_range hk

/-- **C82.**  `tinymt64_generate_double12`: in `[1,2)`. -/
theorem genDouble12_exact (lin : Bool) (r : T64) :
    (genDouble12 lin r).1 = (gen64 lin r).1 ∧
    (genDouble12 lin r).2 = 1 + ((gen64 lin r).2.toNat / 2 ^ 12 : ℕ) / 2 ^ 52 ∧
    1 ≤ (genDouble12 lin r).2 ∧ (genDouble12 lin r).2 < 2 := by
  have hk : (gen64 lin r).2.toNat / 2 ^ 12 < 2 ^ 52 := by have := (gen64 lin r).2.isLt; omega
  have e : (genDouble12 lin r).2 = 1 + ((gen64 lin r).2.toNat / 2 ^ 12 : ℕ) / 2 ^ 52 := by
    unfold genDouble12
    dsimp only
    rw [conv64_eq, decode64_conv _ _ (by decide) (by decide),
      show ((0x3ff0000000000000 : BitVec 64).extractLsb' 0 52).toNat = 0 by decide, Nat.or_zero]
    rfl
  refine ⟨rfl, e, ?_⟩
  rw [e]
  have := frac_range hk
  constructor <;> linarith [this.1, this.2]

/-- **C82.**  `tinymt64_generate_double01`: the leading 52 bits over `2^52`, in `[0,1)`. -/
theorem genDouble01_exact {rnd : ℚ → ℚ} (hr : RoundsDouble rnd) (lin : Bool) (r : T64) :
    (genDouble01 rnd lin r).1 = (gen64 lin r).1 ∧
    (genDouble01 rnd lin r).2 = ((gen64 lin r).2.toNat / 2 ^ 12 : ℕ) / 2 ^ 52 ∧
    0 ≤ (genDouble01 rnd lin r).2 ∧ (genDouble01 rnd lin r).2 < 1 := by
  have hk : (gen64 lin r).2.toNat / 2 ^ 12 < 2 ^ 52 := by have := (gen64 lin r).2.isLt; omega
  have e : (genDouble01 rnd lin r).2 = ((gen64 lin r).2.toNat / 2 ^ 12 : ℕ) / 2 ^ 52 := by
    have h1 : (genDouble01 rnd lin r).2 = rnd ((genDouble12 lin r).2 - 1) := rfl
    rw [h1, (genDouble12_exact lin r).2.1, add_sub_cancel_left]
    exact hr.fix (hk.trans (by norm_num)) 52 (by norm_num) (by norm_num)
  refine ⟨rfl, e, ?_⟩
  rw [e]
  exact frac_range hk

/-- **C82.**  `tinymt64_generate_doubleOC`: in `(0,1]`. -/
theorem genDoubleOC_exact {rnd : ℚ → ℚ} (hr : RoundsDouble rnd) (lin : Bool) (r : T64) :
    (genDoubleOC rnd lin r).1 = (gen64 lin r).1 ∧
    (genDoubleOC rnd lin r).2 = 1 - ((gen64 lin r).2.toNat / 2 ^ 12 : ℕ) / 2 ^ 52 ∧
    0 < (genDoubleOC rnd lin r).2 ∧ (genDoubleOC rnd lin r).2 ≤ 1 := by
  have hk : (gen64 lin r).2.toNat / 2 ^ 12 < 2 ^ 52 := by have := (gen64 lin r).2.isLt; omega
  have e : (genDoubleOC rnd lin r).2 = 1 - ((gen64 lin r).2.toNat / 2 ^ 12 : ℕ) / 2 ^ 52 := by
    have h1 : (genDoubleOC rnd lin r).2 = rnd (2 - (genDouble12 lin r).2) := rfl
    rw [h1, (genDouble12_exact lin r).2.1]
    generalize (gen64 lin r).2.toNat / 2 ^ 12 = k at hk ⊢
    have h7 : (2 : ℚ) - (1 + (k : ℚ) / 2 ^ 52) = ((2 ^ 52 - k : ℕ) : ℚ) / 2 ^ 52 := by
      rw [Nat.cast_sub hk.le]
      push_cast
      field_simp
      ring
    have h8 : (1 : ℚ) - (k : ℚ) / 2 ^ 52 = ((2 ^ 52 - k : ℕ) : ℚ) / 2 ^ 52 := by rw [← h7]; ring
    rw [h7, h8]
    exact hr.fix (by omega) 52 (by norm_num) (by norm_num)
  refine ⟨rfl, e, ?_⟩
  rw [e]
  have := frac_range hk
  constructor <;> linarith [this.1, this.2]

/-- **C82.**  `tinymt64_generate_doubleOO`: in `(0,1)`. -/
theorem genDoubleOO_exact {rnd : ℚ → ℚ} (hr : RoundsDouble rnd) (lin : Bool) (r : T64) :
    (genDoubleOO rnd lin r).1 = (gen64 lin r).1 ∧
    (genDoubleOO rnd lin r).2 = ((gen64 lin r).2.toNat / 2 ^ 12 ||| 1 : ℕ) / 2 ^ 52 ∧
    0 < (genDoubleOO rnd lin r).2 ∧ (genDoubleOO rnd lin r).2 < 1 := by
  have hk : (gen64 lin r).2.toNat / 2 ^ 12 < 2 ^ 52 := by have := (gen64 lin r).2.isLt; omega
  have hk1 : (gen64 lin r).2.toNat / 2 ^ 12 ||| 1 < 2 ^ 52 := Nat.or_lt_two_pow hk (by norm_num)
  have hk2 : 0 < (gen64 lin r).2.toNat / 2 ^ 12 ||| 1 := Nat.lt_of_lt_of_le one_pos Nat.right_le_or
  have e : (genDoubleOO rnd lin r).2 = ((gen64 lin r).2.toNat / 2 ^ 12 ||| 1 : ℕ) / 2 ^ 52 := by
    unfold genDoubleOO
    dsimp only
    rw [conv64_eq, decode64_conv _ _ (by decide) (by decide),
      show ((0x3ff0000000000001 : BitVec 64).extractLsb' 0 52).toNat = 1 by decide, add_sub_cancel_left]
    exact hr.fix (hk1.trans (by norm_num)) 52 (by norm_num) (by norm_num)
  refine ⟨rfl, e, ?_⟩
  rw [e]
  exact ⟨frac_pos hk2, (frac_range hk1).2⟩

/-- **C82, where the documentation is wrong.**  `tinymt32_generate_32double` is documented as `(0,1]`, but it returns 0 from
a non-zero state with the parameters of `Tiny32`. -/
theorem gen32double_zero {rnd : ℚ → ℚ} (hr : RoundsDouble rnd) : ∃ r : T32, r.mat1 = 0x8f7011ee ∧ r.mat2 = 0xfc78ff1f ∧
    r.tmat = 0x3793fdff ∧ r.s1 ≠ 0 ∧ (gen32double rnd false r).2 = 0 := by
  refine ⟨⟨0x5, 0x1170e8c2, 0xe09cdaef, 0x0, 0x8f7011ee, 0xfc78ff1f, 0x3793fdff⟩, rfl, rfl, rfl, by decide, ?_⟩
  rw [(gen32double_exact hr _ _).2.1]
  have : (gen32 false ⟨0x5, 0x1170e8c2, 0xe09cdaef, 0x0, 0x8f7011ee, 0xfc78ff1f, 0x3793fdff⟩).2 = 0 := by decide
  rw [this]
  simp

/-! ## The hypotheses can be met -/

/-- A rounding that leaves the numbers of the format alone and maps all others to 0. -/
noncomputable def crude (p : ℕ) (lo hi : ℤ) (x : ℚ) : ℚ :=
  open Classical in if ∃ m e : ℤ, |m| < 2 ^ p ∧ lo ≤ e ∧ e ≤ hi ∧ x = m * 2 ^ e then x else 0

example : RoundsFloat (crude 24 (-149) 104) ∧ RoundsDouble (crude 53 (-1074) 971) := by
  constructor <;>
  · intro m e hm h1 h2
    unfold crude
    rw [if_pos ⟨m, e, hm, h1, h2, rfl⟩]

end MTT.TinyRef
