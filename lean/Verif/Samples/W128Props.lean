import Verif.Samples.W128
import Verif.Util.Props

/-!
# C46: `w128_t` behaves as a 128-bit integer
-/

namespace MTT.W128

open Util

/-! ### Bits of the parts -/

theorem u_bit (x : W128) (i j : ℕ) : (u x i).getLsbD j = (decide (j < 32) && x.getLsbD (32 * i + j)) := by
  unfold u; rw [BitVec.getLsbD_extractLsb']

theorem u64_bit (x : W128) (i j : ℕ) : (u64 x i).getLsbD j = (decide (j < 64) && x.getLsbD (64 * i + j)) := by
  unfold u64; rw [BitVec.getLsbD_extractLsb']

theorem mk64_bit (a b : BitVec 64) (i : ℕ) :
    (mk64 a b).getLsbD i = if i < 64 then a.getLsbD i else b.getLsbD (i - 64) := by
  unfold mk64; rw [BitVec.getLsbD_append]

theorem mk32_bit (a b c d : BitVec 32) (i : ℕ) :
    (mk32 a b c d).getLsbD i = if i < 32 then a.getLsbD i else if i < 64 then b.getLsbD (i - 32)
      else if i < 96 then c.getLsbD (i - 64) else d.getLsbD (i - 96) := by
  unfold mk32
  rw [BitVec.getLsbD_append, BitVec.getLsbD_append, BitVec.getLsbD_append]
  by_cases h1 : i < 32
  · rw [if_pos (by omega), if_pos h1, if_pos h1]
  · by_cases h2 : i < 64
    · rw [if_pos (by omega), if_neg h1, if_neg h1, if_pos h2]
    · rw [if_neg (by omega), if_neg h1, if_neg h2]
      by_cases h3 : i < 96
      · rw [if_pos (by omega), if_pos h3]
      · rw [if_neg (by omega), if_neg h3]; congr 1

theorem mk64_eta (x : W128) : mk64 (u64 x 0) (u64 x 1) = x := by
  apply BitVec.eq_of_getLsbD_eq
  intro i hi
  rw [mk64_bit, u64_bit, u64_bit]
  by_cases h : i < 64
  · rw [if_pos h]; simp [h]
  · rw [if_neg h, decide_eq_true (by omega), Bool.true_and]; congr 1; omega

theorem u64_mk64 (a b : BitVec 64) : u64 (mk64 a b) 0 = a ∧ u64 (mk64 a b) 1 = b := by
  constructor
  · apply BitVec.eq_of_getLsbD_eq
    intro i hi
    rw [u64_bit, mk64_bit, if_pos (by omega), decide_eq_true hi, Bool.true_and]; congr 1; omega
  · apply BitVec.eq_of_getLsbD_eq
    intro i hi
    rw [u64_bit, mk64_bit, if_neg (by omega), decide_eq_true hi, Bool.true_and]; congr 1; omega

theorem mk64_zero : mk64 0 0 = 0 := by decide

theorem mk64_inj {a b c d : BitVec 64} (h : mk64 a b = mk64 c d) : a = c ∧ b = d :=
  ⟨by rw [← (u64_mk64 a b).1, h, (u64_mk64 c d).1], by rw [← (u64_mk64 a b).2, h, (u64_mk64 c d).2]⟩

theorem shr64_some (x : BitVec 64) {k : ℕ} (h : k < 64) : shr64 x k = some (x >>> k) := by
  unfold shr64; rw [if_pos (by omega), Int.toNat_natCast]

theorem shl64_some (x : BitVec 64) {k : ℕ} (h : k < 64) : shl64 x k = some (x <<< k) := by
  unfold shl64; rw [if_pos (by omega), Int.toNat_natCast]

theorem shr64_none (x : BitVec 64) {k : ℤ} (h : ¬ (0 ≤ k ∧ k < 64)) : shr64 x k = none := by
  unfold shr64; rw [if_neg h]

theorem shl64_none (x : BitVec 64) {k : ℤ} (h : ¬ (0 ≤ k ∧ k < 64)) : shl64 x k = none := by
  unfold shl64; rw [if_neg h]

/-! ### Bitwise operations -/

/-- **C46.**  The operators without carries are those on 128-bit words. -/
theorem bitwise_correct (x y : W128) : and x y = x &&& y ∧ andMask x y = x &&& y ∧ xor x y = x ^^^ y ∧
    xorEq x y = x ^^^ y ∧ orEq x y = x ||| y ∧ not x = ~~~ x ∧ (isZero x = true ↔ x = 0) ∧
    (beq x y = true ↔ x = y) := by
  have h1 : and x y = x &&& y := by
    apply BitVec.eq_of_getLsbD_eq
    intro i hi
    unfold and
    rw [mk64_bit, BitVec.getLsbD_and, BitVec.getLsbD_and, BitVec.getLsbD_and, ← mk64_eta x, ← mk64_eta y,
      mk64_bit, mk64_bit, (u64_mk64 _ _).1, (u64_mk64 _ _).2, (u64_mk64 _ _).1, (u64_mk64 _ _).2]
    split <;> rfl
  have h3 : xor x y = x ^^^ y := by
    apply BitVec.eq_of_getLsbD_eq
    intro i hi
    unfold xor
    rw [mk64_bit, BitVec.getLsbD_xor, BitVec.getLsbD_xor, BitVec.getLsbD_xor, ← mk64_eta x, ← mk64_eta y,
      mk64_bit, mk64_bit, (u64_mk64 _ _).1, (u64_mk64 _ _).2, (u64_mk64 _ _).1, (u64_mk64 _ _).2]
    split <;> rfl
  have h5 : orEq x y = x ||| y := by
    apply BitVec.eq_of_getLsbD_eq
    intro i hi
    unfold orEq
    rw [mk64_bit, BitVec.getLsbD_or, BitVec.getLsbD_or, BitVec.getLsbD_or, ← mk64_eta x, ← mk64_eta y,
      mk64_bit, mk64_bit, (u64_mk64 _ _).1, (u64_mk64 _ _).2, (u64_mk64 _ _).1, (u64_mk64 _ _).2]
    split <;> rfl
  have h6 : not x = ~~~ x := by
    apply BitVec.eq_of_getLsbD_eq
    intro i hi
    unfold not
    rw [mk64_bit, BitVec.getLsbD_not, BitVec.getLsbD_not, BitVec.getLsbD_not, ← mk64_eta x, mk64_bit,
      (u64_mk64 _ _).1, (u64_mk64 _ _).2]
    by_cases h : i < 64
    · simp [h, hi]
    · have : i - 64 < 64 := by omega
      simp [h, hi, this]
  refine ⟨h1, h1, h3, h3, h5, h6, ?_, ?_⟩
  · unfold isZero
    rw [Bool.and_eq_true, beq_iff_eq, beq_iff_eq]
    constructor
    · rintro ⟨a, b⟩
      rw [← mk64_eta x, a, b, mk64_zero]
    · rintro rfl
      decide
  · unfold beq
    rw [Bool.and_eq_true, beq_iff_eq, beq_iff_eq]
    constructor
    · rintro ⟨a, b⟩
      rw [← mk64_eta x, a, b, mk64_eta]
    · rintro rfl
      exact ⟨rfl, rfl⟩

theorem getOne_correct : getOne = 1 := by decide

theorem convert_correct (x : BitVec 64) (y : BitVec 32) :
    convert64 x = x.setWidth 128 ∧ convert32 y = y.setWidth 128 := by
  have h : ∀ z : BitVec 64, mk64 z 0 = z.setWidth 128 := by
    intro z
    apply BitVec.eq_of_getLsbD_eq
    intro i hi
    rw [mk64_bit, BitVec.getLsbD_setWidth]
    by_cases h : i < 64
    · rw [if_pos h]; simp [hi]
    · rw [if_neg h, BitVec.getLsbD_of_ge z i (by omega)]; simp
  refine ⟨h x, (h _).trans ?_⟩
  apply BitVec.eq_of_getLsbD_eq
  intro i hi
  rw [BitVec.getLsbD_setWidth, BitVec.getLsbD_setWidth, BitVec.getLsbD_setWidth]
  by_cases h : i < 64
  · simp [hi, h]
  · rw [BitVec.getLsbD_of_ge y i (by omega)]; simp

/-! ### Shifts -/

/-- **C46.**  `>>` is the logical shift of 128-bit words for the amounts 0 to 127 and undefined otherwise. -/
theorem shr_correct (x : W128) (s : ℤ) :
    (∀ k : ℕ, s = k → k < 128 → shr x s = some (x >>> k)) ∧ (¬ (0 ≤ s ∧ s < 128) → shr x s = none) := by
  constructor
  · rintro k rfl hk
    unfold shr
    by_cases h0 : k = 0
    · subst h0; simp
    by_cases h64 : k = 64
    · subst h64
      rw [if_neg (by omega), if_pos (by norm_num)]
      refine congrArg some ?_
      apply BitVec.eq_of_getLsbD_eq
      intro i hi
      rw [mk64_bit, u64_bit, BitVec.getLsbD_ushiftRight]
      by_cases h : i < 64
      · rw [if_pos h]; simp [h]
      · rw [if_neg h, BitVec.getLsbD_of_ge x _ (by omega)]; simp
    rw [if_neg (by omega), if_neg (by omega)]
    by_cases h : k ≥ 64
    · rw [if_pos (by omega), show (k : ℤ) - 64 = ((k - 64 : ℕ) : ℤ) by omega, shr64_some _ (by omega), Option.map_some]
      refine congrArg some ?_
      apply BitVec.eq_of_getLsbD_eq
      intro i hi
      rw [mk64_bit, BitVec.getLsbD_ushiftRight, u64_bit, BitVec.getLsbD_ushiftRight]
      by_cases h1 : i < 64
      · rw [if_pos h1]
        by_cases h2 : k - 64 + i < 64
        · rw [decide_eq_true h2, Bool.true_and]; congr 1; omega
        · rw [decide_eq_false h2, BitVec.getLsbD_of_ge x (k + i) (by omega)]; rfl
      · rw [if_neg h1, BitVec.getLsbD_of_ge x _ (by omega)]; simp
    · rw [if_neg (by omega), show (64 : ℤ) - k = ((64 - k : ℕ) : ℤ) by omega, shl64_some _ (by omega),
        shr64_some _ (by omega), shr64_some _ (by omega)]
      dsimp only
      refine congrArg some ?_
      apply BitVec.eq_of_getLsbD_eq
      intro i hi
      rw [mk64_bit, BitVec.getLsbD_or, BitVec.getLsbD_shiftLeft, BitVec.getLsbD_ushiftRight, u64_bit, u64_bit,
        BitVec.getLsbD_ushiftRight, u64_bit, BitVec.getLsbD_ushiftRight]
      by_cases h1 : i < 64
      · rw [if_pos h1]
        by_cases h2 : k + i < 64
        · have e : 64 * 0 + (k + i) = k + i := by omega
          have h3 : i < 64 - k := by omega
          simp [h2, h3]
        · have h3 : ¬ i < 64 - k := by omega
          have h4 : i - (64 - k) < 64 := by omega
          have e : 64 * 1 + (i - (64 - k)) = k + i := by omega
          simp [h1, h2, h3, h4, e]
      · rw [if_neg h1]
        by_cases h2 : k + (i - 64) < 64
        · rw [decide_eq_true h2, Bool.true_and]; congr 1; omega
        · rw [decide_eq_false h2, BitVec.getLsbD_of_ge x (k + i) (by omega)]; rfl
  · intro h
    unfold shr
    rw [if_neg (by omega), if_neg (by omega)]
    by_cases h1 : s ≥ 64
    · rw [if_pos h1, shr64_none _ (by omega)]; rfl
    · rw [if_neg h1, shl64_none _ (by omega)]

/-- **C46.**  `<<` is the shift of 128-bit words for the amounts 0 to 127 and undefined otherwise. -/
theorem shl_correct (x : W128) (s : ℤ) :
    (∀ k : ℕ, s = k → k < 128 → shl x s = some (x <<< k)) ∧ (¬ (0 ≤ s ∧ s < 128) → shl x s = none) := by
  constructor
  · rintro k rfl hk
    unfold shl
    by_cases h0 : k = 0
    · subst h0; simp
    by_cases h64 : k = 64
    · subst h64
      rw [if_neg (by omega), if_pos (by norm_num)]
      refine congrArg some ?_
      apply BitVec.eq_of_getLsbD_eq
      intro i hi
      rw [mk64_bit, u64_bit, BitVec.getLsbD_shiftLeft]
      by_cases h : i < 64
      · rw [if_pos h]; simp [h]
      · have : i - 64 < 64 := by omega
        rw [if_neg h]; simp [h, hi, this]
    rw [if_neg (by omega), if_neg (by omega)]
    by_cases h : k > 64
    · rw [if_pos (by omega), show (k : ℤ) - 64 = ((k - 64 : ℕ) : ℤ) by omega, shl64_some _ (by omega), Option.map_some]
      refine congrArg some ?_
      apply BitVec.eq_of_getLsbD_eq
      intro i hi
      rw [mk64_bit, BitVec.getLsbD_shiftLeft, u64_bit, BitVec.getLsbD_shiftLeft]
      by_cases h1 : i < 64
      · have : i < k := by omega
        rw [if_pos h1]; simp [this]
      · rw [if_neg h1]
        by_cases h2 : i < k
        · have : i - 64 < k - 64 := by omega
          simp [h2, this]
        · have h3 : ¬ i - 64 < k - 64 := by omega
          have h4 : i - 64 < 64 := by omega
          have h5 : i - 64 - (k - 64) < 64 := by omega
          have e : i - 64 - (k - 64) = i - k := by omega
          have h6 : i - k < 64 := by omega
          simp [h2, h3, h4, hi, e, h6]
    · rw [if_neg (by omega), show (64 : ℤ) - k = ((64 - k : ℕ) : ℤ) by omega, shr64_some _ (by omega),
        shl64_some _ (by omega), shl64_some _ (by omega)]
      dsimp only
      refine congrArg some ?_
      apply BitVec.eq_of_getLsbD_eq
      intro i hi
      rw [mk64_bit, BitVec.getLsbD_or, BitVec.getLsbD_shiftLeft, BitVec.getLsbD_ushiftRight, u64_bit, u64_bit,
        BitVec.getLsbD_shiftLeft, u64_bit, BitVec.getLsbD_shiftLeft]
      by_cases h1 : i < 64
      · rw [if_pos h1]
        by_cases h2 : i < k
        · simp [h2]
        · have : i - k < 64 := by omega
          simp [h1, h2, hi, this]
      · rw [if_neg h1]
        have h2 : ¬ i < k := by omega
        by_cases h3 : i - 64 < k
        · have h4 : 64 - k + (i - 64) < 64 := by omega
          have e : 64 - k + (i - 64) = i - k := by omega
          simp [h2, h3, e, hi]
          omega
        · have h4 : ¬ 64 - k + (i - 64) < 64 := by omega
          have h5 : i - 64 < 64 := by omega
          have h6 : i - 64 - k < 64 := by omega
          have e : 64 + (i - 64 - k) = i - k := by omega
          simp [h2, h3, h4, h5, h6, e, hi]
  · intro h
    unfold shl
    rw [if_neg (by omega), if_neg (by omega)]
    by_cases h1 : s > 64
    · rw [if_pos h1, shl64_none _ (by omega)]; rfl
    · rw [if_neg h1, shr64_none _ (by omega)]

/-! ### Masks, bit access -/

/-- **C46.**  `make_msb_mask(n)` has exactly the `n` leading bits set for `n` from 0 to 128 and is undefined
otherwise. -/
theorem makeMsbMask_correct (n : ℤ) :
    (∀ k : ℕ, n = k → k ≤ 128 → makeMsbMask n = some ((BitVec.allOnes 128) <<< (128 - k))) ∧
    (¬ (0 ≤ n ∧ n ≤ 128) → makeMsbMask n = none) := by
  have hall : ∀ i, i < 64 → (0xffffffffffffffff : BitVec 64).getLsbD i = true := by decide
  constructor
  · rintro k rfl hk
    unfold makeMsbMask
    by_cases h128 : k = 128
    · subst h128
      rw [if_pos (by norm_num)]
      decide
    rw [if_neg (by omega)]
    by_cases h64 : k < 64
    · rw [if_pos (by omega), shr64_some _ h64, Option.map_some]
      refine congrArg some ?_
      apply BitVec.eq_of_getLsbD_eq
      intro i hi
      rw [mk64_bit, BitVec.getLsbD_not, BitVec.getLsbD_ushiftRight, BitVec.getLsbD_not, BitVec.getLsbD_shiftLeft,
        BitVec.getLsbD_allOnes]
      by_cases h1 : i < 64
      · have : i < 128 - k := by omega
        rw [if_pos h1]; simp [this]
      · rw [if_neg h1]
        have h2 : i - 64 < 64 := by omega
        by_cases h3 : i < 128 - k
        · have : k + (i - 64) < 64 := by omega
          simp [h2, h3, this]
        · have : ¬ k + (i - 64) < 64 := by omega
          simp [h2, h3, this, hi]
          omega
    · rw [if_neg (by omega), show (k : ℤ) - 64 = ((k - 64 : ℕ) : ℤ) by omega, shr64_some _ (by omega),
        Option.map_some]
      refine congrArg some ?_
      apply BitVec.eq_of_getLsbD_eq
      intro i hi
      rw [mk64_bit, BitVec.getLsbD_not, BitVec.getLsbD_ushiftRight, BitVec.getLsbD_not, BitVec.getLsbD_shiftLeft,
        BitVec.getLsbD_allOnes]
      by_cases h1 : i < 64
      · rw [if_pos h1]
        by_cases h3 : i < 128 - k
        · have : k - 64 + i < 64 := by omega
          simp [h1, h3, this]
        · have : ¬ k - 64 + i < 64 := by omega
          simp [h1, h3, this, hi]
          omega
      · have h3 : ¬ i < 128 - k := by omega
        rw [if_neg h1, hall _ (by omega)]
        simp [h3, hi]
        omega
  · intro h
    unfold makeMsbMask
    rw [if_neg (by omega)]
    by_cases h1 : n < 64
    · rw [if_pos h1, shr64_none _ (by omega)]; rfl
    · rw [if_neg h1, shr64_none _ (by omega)]; rfl

theorem one_bit {w : ℕ} (hw : 0 < w) (i : ℕ) : (1 : BitVec w).getLsbD i = decide (i = 0) := by
  show (1#w).getLsbD i = _
  rw [BitVec.getLsbD_one]; simp [hw]

theorem and_one (x : BitVec 64) : x &&& 1 = if x.getLsbD 0 then 1 else 0 := by
  apply BitVec.eq_of_getLsbD_eq
  intro i hi
  rw [BitVec.getLsbD_and, one_bit (by omega)]
  by_cases h : i = 0
  · subst h
    cases x.getLsbD 0 <;> simp
  · cases x.getLsbD 0 <;> simp [h]

/-- **C46.**  `getBitOfPos` delivers bit `pos` (from the least significant one) for positions 0 to 127 and is
undefined otherwise. -/
theorem getBitOfPos_correct (x : W128) (pos : ℤ) :
    (∀ k : ℕ, pos = k → k < 128 → getBitOfPos x pos = some (if x.getLsbD k then 1 else 0)) ∧
    (¬ (0 ≤ pos ∧ pos < 128) → getBitOfPos x pos = none) := by
  constructor
  · rintro k rfl hk
    unfold getBitOfPos
    by_cases h0 : k = 0
    · subst h0
      rw [if_pos (by norm_num), and_one, u64_bit]; rfl
    rw [if_neg (by omega)]
    by_cases h1 : k < 64
    · rw [if_pos (by omega), shr64_some _ h1, Option.map_some, and_one, BitVec.getLsbD_ushiftRight, u64_bit,
        decide_eq_true (by omega : k + 0 < 64), Bool.true_and]
      simp
    rw [if_neg (by omega)]
    by_cases h2 : k = 64
    · subst h2
      rw [if_pos (by norm_num), and_one, u64_bit]; rfl
    rw [if_neg (by omega), show (k : ℤ) - 64 = ((k - 64 : ℕ) : ℤ) by omega, shr64_some _ (by omega),
      Option.map_some, and_one, BitVec.getLsbD_ushiftRight, u64_bit,
      decide_eq_true (by omega : k - 64 + 0 < 64), Bool.true_and,
      show 64 * 1 + (k - 64 + 0) = k by omega]
  · intro h
    unfold getBitOfPos
    rw [if_neg (by omega)]
    by_cases h1 : pos < 64
    · rw [if_pos h1, shr64_none _ (by omega)]; rfl
    · rw [if_neg h1, if_neg (by omega), shr64_none _ (by omega)]; rfl

theorem setBit64 (x : BitVec 64) (b : BitVec 32) {k : ℕ} (hk : k < 64) (i : ℕ) (hi : i < 64) :
    ((x &&& ~~~ ((1 : BitVec 64) <<< k)) ||| ((b &&& 1).setWidth 64 <<< k)).getLsbD i =
      if i = k then b.getLsbD 0 else x.getLsbD i := by
  rw [BitVec.getLsbD_or, BitVec.getLsbD_and, BitVec.getLsbD_not, BitVec.getLsbD_shiftLeft,
    BitVec.getLsbD_shiftLeft, BitVec.getLsbD_setWidth, BitVec.getLsbD_and, one_bit (by omega), one_bit (by omega)]
  by_cases h1 : i = k
  · subst h1
    simp [hi]
  · rw [if_neg h1]
    by_cases h2 : i < k
    · simp [hi, h2]
    · have h3 : i - k ≠ 0 := by omega
      simp [hi, h2, h3]

/-- **C46.**  `setBitOfPos` sets bit `pos` to the lowest bit of `b` and changes no other bit. -/
theorem setBitOfPos_correct (x : W128) (pos : ℤ) (b : BitVec 32) :
    (∀ k : ℕ, pos = k → k < 128 → ∃ y, setBitOfPos x pos b = some y ∧
      ∀ i, i < 128 → y.getLsbD i = if i = k then b.getLsbD 0 else x.getLsbD i) ∧
    (¬ (0 ≤ pos ∧ pos < 128) → setBitOfPos x pos b = none) := by
  have low : ∀ k, k < 64 → ∀ i, i < 128 →
      (mk64 ((u64 x 0 &&& ~~~ ((1 : BitVec 64) <<< k)) ||| ((b &&& 1).setWidth 64 <<< k)) (u64 x 1)).getLsbD i =
        if i = k then b.getLsbD 0 else x.getLsbD i := by
    intro k hk i hi
    rw [mk64_bit]
    by_cases h : i < 64
    · rw [if_pos h, setBit64 _ _ hk _ h, u64_bit, decide_eq_true h, Bool.true_and, Nat.mul_zero, Nat.zero_add]
    · rw [if_neg h, u64_bit, decide_eq_true (by omega), Bool.true_and, if_neg (by omega),
        show 64 * 1 + (i - 64) = i by omega]
  have high : ∀ k, k < 64 → ∀ i, i < 128 →
      (mk64 (u64 x 0) ((u64 x 1 &&& ~~~ ((1 : BitVec 64) <<< k)) ||| ((b &&& 1).setWidth 64 <<< k))).getLsbD i =
        if i = k + 64 then b.getLsbD 0 else x.getLsbD i := by
    intro k hk i hi
    rw [mk64_bit]
    by_cases h : i < 64
    · rw [if_pos h, u64_bit, decide_eq_true h, Bool.true_and, if_neg (by omega), Nat.mul_zero, Nat.zero_add]
    · rw [if_neg h, setBit64 _ _ hk _ (by omega), u64_bit, decide_eq_true (by omega), Bool.true_and,
        show 64 * 1 + (i - 64) = i by omega]
      by_cases h1 : i = k + 64
      · rw [if_pos h1, if_pos (by omega)]
      · rw [if_neg h1, if_neg (by omega)]
  have z1 : (1 : BitVec 64) <<< 0 = 1 := by decide
  have z2 : ∀ y : BitVec 64, y <<< 0 = y := fun y => BitVec.shiftLeft_zero y
  constructor
  · rintro k rfl hk
    unfold setBitOfPos
    by_cases h0 : k = 0
    · subst h0
      have := low 0 (by omega)
      rw [z1, z2] at this
      exact ⟨_, if_pos (by norm_num), this⟩
    dsimp only
    rw [if_neg (by omega)]
    by_cases h1 : k < 64
    · rw [if_pos (by omega), shl64_some _ h1, shl64_some _ h1]
      exact ⟨_, rfl, low k h1⟩
    rw [if_neg (by omega)]
    by_cases h2 : k = 64
    · subst h2
      have := high 0 (by omega)
      rw [z1, z2] at this
      exact ⟨_, if_pos (by norm_num), this⟩
    rw [if_neg (by omega), show (k : ℤ) - 64 = ((k - 64 : ℕ) : ℤ) by omega, shl64_some _ (by omega),
      shl64_some _ (by omega)]
    refine ⟨_, rfl, ?_⟩
    have := high (k - 64) (by omega)
    rw [show k - 64 + 64 = k by omega] at this
    exact this
  · intro h
    unfold setBitOfPos
    dsimp only
    rw [if_neg (by omega)]
    by_cases h1 : pos < 64
    · rw [if_pos h1, shl64_none _ (by omega)]
    · rw [if_neg h1, if_neg (by omega), shl64_none _ (by omega)]

/-! ### `calc_1pos`, `reverse_bit` -/

theorem msb_bit (x : W128) (i : ℕ) : x.getMsbD i =
    if i < 64 then (u64 x 1).getMsbD i else (u64 x 0).getMsbD (i - 64) := by
  rw [BitVec.getMsbD_eq_getLsbD, BitVec.getMsbD_eq_getLsbD, BitVec.getMsbD_eq_getLsbD, u64_bit, u64_bit]
  by_cases h : i < 64
  · rw [if_pos h, decide_eq_true (by omega : i < 128), decide_eq_true h, decide_eq_true (by omega : 64 - 1 - i < 64),
      show 64 * 1 + (64 - 1 - i) = 128 - 1 - i by omega]
    rfl
  · rw [if_neg h]
    by_cases h2 : i < 128
    · rw [decide_eq_true h2, decide_eq_true (by omega : i - 64 < 64),
        decide_eq_true (by omega : 64 - 1 - (i - 64) < 64),
        show 64 * 0 + (64 - 1 - (i - 64)) = 128 - 1 - i by omega]
      rfl
    · rw [decide_eq_false h2, decide_eq_false (by omega : ¬ i - 64 < 64)]; rfl

theorem low1_eq (x : BitVec 64) (h0 : x ≠ 0) :
    (63 : ℤ) - Util.countBit64 ((x &&& -x) - 1) = calc1posWrap64 x := by
  unfold calc1posWrap64
  rw [if_neg h0]
  rfl

/-- **C46.**  `calc_1pos` delivers -1 for zero and otherwise the position of the last one, counted from the most
significant bit. -/
theorem calc1posWrap_correct (x : W128) :
    (x = 0 → calc1posWrap x = -1) ∧ (x ≠ 0 → IsLastOne x (calc1posWrap x)) := by
  constructor
  · rintro rfl; decide
  · intro hx
    have hz : ¬ isZero x = true := fun h => hx ((bitwise_correct x x).2.2.2.2.2.2.1.1 h)
    unfold calc1posWrap
    rw [if_neg hz]
    by_cases h0 : u64 x 0 = 0
    · have h1 : u64 x 1 ≠ 0 := fun h1 => hx (by rw [← mk64_eta x, h0, h1, mk64_zero])
      rw [if_pos h0, low1_eq _ h1]
      obtain ⟨i, e, hi, a, b⟩ := (calc1posWrap64_correct (u64 x 1)).2 h1
      refine ⟨i, e, by omega, ?_, fun j hj => ?_⟩
      · rw [msb_bit, if_pos hi]; exact a
      · rw [msb_bit]
        split
        · exact b j hj
        · rw [h0]; simp
    · rw [if_neg h0, low1_eq _ h0]
      obtain ⟨i, e, hi, a, b⟩ := (calc1posWrap64_correct (u64 x 0)).2 h0
      refine ⟨i + 64, by rw [e]; push_cast; ring, by omega, ?_, fun j hj => ?_⟩
      · rw [msb_bit, if_neg (by omega), show i + 64 - 64 = i by omega]; exact a
      · rw [msb_bit, if_neg (by omega)]; exact b _ (by omega)

/-- **C46 (exact).**  `calc_1pos` as written is undefined exactly if the half it looks at is the most negative
64-bit integer, and otherwise as above. -/
theorem calc1pos_correct (x : W128) :
    (calc1pos x = none ↔ u64 x 0 = 0x8000000000000000 ∨ (u64 x 0 = 0 ∧ u64 x 1 = 0x8000000000000000)) ∧
    ∀ r, calc1pos x = some r → r = calc1posWrap x := by
  unfold calc1pos calc1posWrap low1
  by_cases hz : isZero x = true
  · have : x = 0 := (bitwise_correct x x).2.2.2.2.2.2.1.1 hz
    rw [if_pos hz, if_pos hz]
    refine ⟨⟨fun h => by simp at h, ?_⟩, fun r h => (Option.some.inj h).symm⟩
    subst this
    intro h
    exact absurd h (by decide)
  · rw [if_neg hz, if_neg hz]
    by_cases h0 : u64 x 0 = 0
    · rw [if_pos h0, if_pos h0]
      have hn : ¬ u64 x 0 = 0x8000000000000000 := by rw [h0]; decide
      by_cases h1 : u64 x 1 = 0x8000000000000000
      · rw [if_pos h1]; exact ⟨⟨fun _ => Or.inr ⟨h0, h1⟩, fun _ => rfl⟩, fun r h => by cases h⟩
      · rw [if_neg h1]
        exact ⟨⟨fun h => by simp at h, fun h => by rcases h with h | h; exacts [absurd h hn, absurd h.2 h1]⟩,
          fun r h => (Option.some.inj h).symm⟩
    · rw [if_neg h0, if_neg h0]
      by_cases h1 : u64 x 0 = 0x8000000000000000
      · rw [if_pos h1]; exact ⟨⟨fun _ => Or.inl h1, fun _ => rfl⟩, fun r h => by cases h⟩
      · rw [if_neg h1, Option.map_some]
        exact ⟨⟨fun h => by simp at h, fun h => by rcases h with h | h; exacts [absurd h h1, absurd h.1 h0]⟩,
          fun r h => (Option.some.inj h).symm⟩

theorem isCalc1pos_128 : PIS.IsCalc1pos calc1posWrap :=
  isCalc1pos_of fun x hx => (calc1posWrap_correct x).2 hx

/-- **C46.**  `reverse_bit` reverses the 128 bits. -/
theorem reverseBit_correct (x : W128) : reverseBit x = x.reverse ∧ reverseBit (reverseBit x) = x := by
  have h : ∀ x : W128, reverseBit x = x.reverse := by
    intro x
    unfold reverseBit
    rw [(reverse_bit_correct.2 _).1, (reverse_bit_correct.2 _).1]
    apply BitVec.eq_of_getLsbD_eq
    intro i hi
    rw [mk64_bit, BitVec.getLsbD_reverse, BitVec.getLsbD_reverse, BitVec.getLsbD_reverse, msb_bit]
  refine ⟨h x, ?_⟩
  rw [h, h, BitVec.reverse_reverse_eq]

example : shr 0x123456789abcdef0fedcba9876543210 68 = some 0x0123456789abcdef ∧
    shl 0x123456789abcdef0fedcba9876543210 8 = some 0x3456789abcdef0fedcba987654321000 ∧
    makeMsbMask 70 = some 0xfffffffffffffffffc00000000000000 ∧ calc1posWrap 0x10000000000000000000000 = 39 := by
  decide +kernel

end MTT.W128
