import Verif.Util.Lemmas
import Mathlib.Algebra.Order.BigOperators.Group.Finset
import Mathlib.Algebra.BigOperators.Ring.Finset

/-!
# Helper lemmas for `Verif.Util`, second part
-/

namespace MTT.Util

open Finset

/-! ## Lowest one bit -/

theorem exists_lowest {w : ℕ} {x : BitVec w} (hx : x ≠ 0) :
    ∃ c < w, x.getLsbD c = true ∧ ∀ j < c, x.getLsbD j = false := by
  have : ∃ i, x.getLsbD i = true := by
    by_contra h
    push Not at h
    apply hx
    apply BitVec.eq_of_getLsbD_eq
    intro i _
    simpa using h i
  classical
  refine ⟨Nat.find this, ?_, Nat.find_spec this, fun j hj => ?_⟩
  · exact BitVec.lt_of_getLsbD (Nat.find_spec this)
  · simpa using Nat.find_min this hj

theorem and_neg_self {w : ℕ} {x : BitVec w} {c : ℕ} (hc : c < w) (h1 : x.getLsbD c = true)
    (h2 : ∀ j < c, x.getLsbD j = false) : x &&& -x = BitVec.twoPow w c := by
  apply BitVec.eq_of_getLsbD_eq
  intro i hi
  rw [BitVec.getLsbD_and, BitVec.getLsbD_neg, BitVec.getLsbD_twoPow]
  rcases lt_trichotomy i c with h | h | h
  · rw [h2 i h]
    simp; omega
  · subst h
    have : ¬ ∃ j < i, x.getLsbD j = true := by
      rintro ⟨j, hj, h⟩; rw [h2 j hj] at h; exact absurd h (by decide)
    simp [h1, this, hi]
  · have : ∃ j < i, x.getLsbD j = true := ⟨c, h, h1⟩
    have hne : ¬ c = i := by omega
    simp [this, hi, hne]

theorem twoPow_sub_one_getLsbD {w c : ℕ} (hc : c < w) (i : ℕ) :
    (BitVec.twoPow w c - 1#w).getLsbD i = decide (i < c) := by
  have : (BitVec.twoPow w c - 1#w).toNat = 2 ^ c - 1 := by
    have h1 : 1 < 2 ^ w := Nat.one_lt_two_pow (by omega)
    have h2 : (1#w).toNat = 1 := by rw [BitVec.toNat_ofNat, Nat.mod_eq_of_lt h1]
    have h3 : (BitVec.twoPow w c).toNat = 2 ^ c := by
      rw [BitVec.toNat_twoPow, Nat.mod_eq_of_lt (Nat.pow_lt_pow_right (by omega) hc)]
    rw [BitVec.toNat_sub_of_le, h2, h3]
    rw [BitVec.le_def, h2, h3]; exact Nat.one_le_two_pow
  rw [BitVec.getLsbD, this, Nat.testBit_two_pow_sub_one]

theorem popcount_twoPow_sub_one {w c : ℕ} (hc : c < w) : popcount (BitVec.twoPow w c - 1#w) = c := by
  unfold popcount
  have : ∀ i ∈ range w, ((BitVec.twoPow w c - 1#w).getLsbD i).toNat = if i < c then 1 else 0 := by
    intro i _
    rw [twoPow_sub_one_getLsbD hc]
    by_cases h : i < c <;> simp [h]
  rw [sum_congr rfl this, sum_ite, sum_const_zero, add_zero, sum_const]
  have : (range w).filter (fun i => i < c) = range c := by
    ext i; simp; omega
  rw [this, card_range]; simp

/-- Position of the last one bit, counted from the most significant bit. -/
theorem low_of_lowest {w : ℕ} {x : BitVec w} {c : ℕ} (hc : c < w) (h1 : x.getLsbD c = true)
    (h2 : ∀ j < c, x.getLsbD j = false) :
    x.getMsbD (w - 1 - c) = true ∧ ∀ j, w - 1 - c < j → x.getMsbD j = false := by
  constructor
  · rw [BitVec.getMsbD_eq_getLsbD]
    have : w - 1 - (w - 1 - c) = c := by omega
    rw [this, h1]
    simp; omega
  · intro j hj
    rw [BitVec.getMsbD_eq_getLsbD]
    by_cases h : j < w
    · rw [h2 _ (by omega)]; simp
    · simp [h]

/-! ## Bit reversal -/

/-- What a mask must satisfy for one exchange step of the reversal with distance `s`. -/
def SwapMask {w : ℕ} (m : BitVec w) (s : ℕ) : Prop :=
  ∀ i < w, if m.getLsbD i then i ^^^ s = i + s ∧ i + s < w ∧ (i < s ∨ m.getLsbD (i - s) = false)
    else s ≤ i ∧ i ^^^ s = i - s ∧ m.getLsbD (i - s) = true

instance {w : ℕ} (m : BitVec w) (s : ℕ) : Decidable (SwapMask m s) := by
  unfold SwapMask; infer_instance

theorem SwapMask.lt {w : ℕ} {m : BitVec w} {s : ℕ} (h : SwapMask m s) {i : ℕ} (hi : i < w) :
    i ^^^ s < w := by
  have := h i hi
  split at this <;> omega

/-- One exchange step of the reversal. -/
theorem swap_step {w : ℕ} {m : BitVec w} {s : ℕ} (h : SwapMask m s) (x : BitVec w) (i : ℕ)
    (hi : i < w) :
    (((x >>> s) &&& m) ||| ((x &&& m) <<< s)).getLsbD i = x.getLsbD (i ^^^ s) := by
  have := h i hi
  rw [BitVec.getLsbD_or, BitVec.getLsbD_and, BitVec.getLsbD_ushiftRight, BitVec.getLsbD_shiftLeft,
    BitVec.getLsbD_and]
  split at this
  · rename_i hm
    obtain ⟨h1, _, h2⟩ := this
    rw [h1, hm, add_comm s i]
    rcases h2 with h2 | h2
    · simp [h2]
    · simp [h2]
  · rename_i hm
    obtain ⟨h1, h2, h3⟩ := this
    have hm' : m.getLsbD i = false := by simpa using hm
    rw [h2, h3, hm']
    have : ¬ i < s := by omega
    simp [hi, this]

theorem swap_last {w s : ℕ} (hw : w = s + s) (x : BitVec w) (i : ℕ) (hi : i < w) :
    ((x >>> s) ||| (x <<< s)).getLsbD i = x.getLsbD (if i < s then i + s else i - s) := by
  rw [BitVec.getLsbD_or, BitVec.getLsbD_ushiftRight, BitVec.getLsbD_shiftLeft]
  split
  · rename_i h; simp [h, hi, add_comm]
  · rename_i h
    rw [BitVec.getLsbD_of_ge x (s + i) (by omega)]
    simp [h, hi]

theorem reverseBit32_spec (x : BitVec 32) (i : ℕ) (hi : i < 32) :
    (reverseBit32 x).getLsbD i = x.getLsbD (31 - i) := by
  unfold reverseBit32
  extract_lets y1 x1 y2 x2 y4 x4 y8 x8
  have m1 : SwapMask 0x55555555#32 1 := by decide +kernel
  have m2 : SwapMask 0x33333333#32 2 := by decide +kernel
  have m4 : SwapMask 0x0f0f0f0f#32 4 := by decide +kernel
  have m8 : SwapMask 0x00ff00ff#32 8 := by decide +kernel
  have hj : (if i < 16 then i + 16 else i - 16) < 32 := by split <;> omega
  rw [swap_last (w := 32) (s := 16) rfl _ i hi, show x8.getLsbD _ = _ from swap_step m8 x4 _ hj,
    show x4.getLsbD _ = _ from swap_step m4 x2 _ (m8.lt hj),
    show x2.getLsbD _ = _ from swap_step m2 x1 _ (m4.lt (m8.lt hj)),
    show x1.getLsbD _ = _ from swap_step m1 x _ (m2.lt (m4.lt (m8.lt hj)))]
  congr 1
  have : ∀ i < 32, ((((if i < 16 then i + 16 else i - 16) ^^^ 8) ^^^ 4) ^^^ 2) ^^^ 1 = 31 - i := by
    decide +kernel
  exact this i hi

theorem reverseBit64_spec (x : BitVec 64) (i : ℕ) (hi : i < 64) :
    (reverseBit64 x).getLsbD i = x.getLsbD (63 - i) := by
  unfold reverseBit64
  extract_lets y1 x1 y2 x2 y4 x4 y8 x8 y16 x16
  have m1 : SwapMask 0x5555555555555555#64 1 := by decide +kernel
  have m2 : SwapMask 0x3333333333333333#64 2 := by decide +kernel
  have m4 : SwapMask 0x0f0f0f0f0f0f0f0f#64 4 := by decide +kernel
  have m8 : SwapMask 0x00ff00ff00ff00ff#64 8 := by decide +kernel
  have m16 : SwapMask 0x0000ffff0000ffff#64 16 := by decide +kernel
  have hj : (if i < 32 then i + 32 else i - 32) < 64 := by split <;> omega
  rw [swap_last (w := 64) (s := 32) rfl _ i hi, show x16.getLsbD _ = _ from swap_step m16 x8 _ hj,
    show x8.getLsbD _ = _ from swap_step m8 x4 _ (m16.lt hj),
    show x4.getLsbD _ = _ from swap_step m4 x2 _ (m8.lt (m16.lt hj)),
    show x2.getLsbD _ = _ from swap_step m2 x1 _ (m4.lt (m8.lt (m16.lt hj))),
    show x1.getLsbD _ = _ from swap_step m1 x _ (m2.lt (m4.lt (m8.lt (m16.lt hj))))]
  congr 1
  have : ∀ i < 64, (((((if i < 32 then i + 32 else i - 32) ^^^ 16) ^^^ 8) ^^^ 4) ^^^ 2) ^^^ 1 = 63 - i := by
    decide +kernel
  exact this i hi

/-! ## `fill_table` -/

/-- Exclusive or of `src k` over the positions `k` of the one bits of `i` from `k` on. -/
theorem fillLoop_spec {w : ℕ} (src : ℕ → BitVec w) (i : ℕ) (fuel : ℕ) :
    ∀ k acc, i < 2 ^ (k + fuel) →
      fillLoop src i fuel (2 ^ k) k acc =
        (List.range' k fuel).foldl (fun a k => if i.testBit k then a ^^^ src k else a) acc := by
  induction fuel with
  | zero => intro k acc _; rfl
  | succ fuel ih =>
    intro k acc hi
    rw [fillLoop, List.range'_succ, List.foldl_cons]
    have hb : (i &&& 2 ^ k ≠ 0) ↔ i.testBit k = true := by
      rw [Nat.and_two_pow]
      cases i.testBit k <;> simp
    split
    · rw [show (2 ^ k) <<< 1 = 2 ^ (k + 1) by rw [Nat.shiftLeft_eq]; ring,
        ih (k + 1) _ (by rw [show k + 1 + fuel = k + (fuel + 1) by ring]; exact hi)]
      congr 1
      by_cases h : i.testBit k = true
      · rw [if_pos (hb.2 h), if_pos h]
      · rw [if_neg (fun h' => h (hb.1 h')), if_neg h]
    · rename_i hlt
      have hz : ∀ j, k ≤ j → i.testBit j = false := by
        intro j hj
        apply Nat.testBit_lt_two_pow
        exact lt_of_lt_of_le (by omega) (Nat.pow_le_pow_right (by omega) hj)
      rw [hz k le_rfl]
      simp only [Bool.false_eq_true, if_false]
      have : ∀ (l : List ℕ) (a : BitVec w), (∀ j ∈ l, k ≤ j) →
          l.foldl (fun a k => if i.testBit k then a ^^^ src k else a) a = a := by
        intro l
        induction l with
        | nil => intro a _; rfl
        | cons j l ih2 =>
          intro a hl
          rw [List.foldl_cons, hz j (hl j (by simp))]
          simp only [Bool.false_eq_true, if_false]
          exact ih2 a (fun j hj => hl j (by simp [hj]))
      rw [this]
      intro j hj
      rw [List.mem_range'_1] at hj; omega

theorem fillOuter_spec {w : ℕ} (src : ℕ → BitVec w) (n : ℕ) :
    ∀ i (dist : ℕ → BitVec w) x, fillOuter src n i dist x =
      if i ≤ x ∧ x < i + n then fillLoop src x 31 1 0 (dist x) else dist x := by
  induction n with
  | zero => intro i dist x; rw [fillOuter, if_neg (by omega)]
  | succ n ih =>
    intro i dist x
    rw [fillOuter, ih]
    by_cases hx : x = i
    · subst hx
      rw [if_neg (by omega), if_pos rfl, if_pos (by omega)]
    · rw [if_neg hx]
      by_cases h : i ≤ x ∧ x < i + (n + 1)
      · rw [if_pos h, if_pos (by omega)]
      · rw [if_neg h, if_neg (by omega)]

end MTT.Util
