import Verif.Util.Model
import Mathlib.Algebra.BigOperators.Intervals
import Mathlib.Data.Nat.Bitwise
import Mathlib.Tactic.Ring
import Mathlib.Tactic.Linarith
import Mathlib.Tactic.IntervalCases

/-!
# Helper lemmas for `Verif.Util`
-/

namespace MTT.Util

open Finset

/-- Number of one bits of a word (specification). -/
def popcount {w : ℕ} (x : BitVec w) : ℕ := ∑ i ∈ range w, (x.getLsbD i).toNat

/-! ## Fields of a number -/

/-- `∑_{i<n} d i * B^i`. -/
def fld (B : ℕ) : ℕ → (ℕ → ℕ) → ℕ
  | 0, _ => 0
  | n + 1, d => d 0 + B * fld B n (fun i => d (i + 1))

theorem and_split {b x y p q : ℕ} (hx : x < 2 ^ b) (hy : y < 2 ^ b) :
    (x + 2 ^ b * p) &&& (y + 2 ^ b * q) = (x &&& y) + 2 ^ b * (p &&& q) := by
  apply Nat.eq_of_testBit_eq
  intro i
  have hxy : x &&& y < 2 ^ b := Nat.and_lt_two_pow _ hy
  rw [Nat.testBit_and, add_comm x, add_comm y, add_comm (x &&& y),
    Nat.testBit_two_pow_mul_add _ hx, Nat.testBit_two_pow_mul_add _ hy, Nat.testBit_two_pow_mul_add _ hxy]
  split
  · rw [Nat.testBit_and]
  · rw [Nat.testBit_and]

/-- Masking all fields after a shift inside the fields. -/
theorem fld_shift_and {b s m : ℕ} (hs : s ≤ b) (hm : m < 2 ^ (b - s)) (n : ℕ) (d : ℕ → ℕ)
    (hd : ∀ i, d i < 2 ^ b) :
    (fld (2 ^ b) n d >>> s) &&& fld (2 ^ b) n (fun _ => m)
      = fld (2 ^ b) n (fun i => (d i >>> s) &&& m) := by
  induction n generalizing d with
  | zero => simp [fld]
  | succ n ih =>
    rw [fld, fld, fld, ← ih (fun i => d (i + 1)) (fun i => hd _)]
    have hpow : 2 ^ b = 2 ^ s * 2 ^ (b - s) := by rw [← pow_add]; congr 1; omega
    generalize fld (2 ^ b) n (fun i => d (i + 1)) = X
    generalize fld (2 ^ b) n (fun _ => m) = Y
    apply Nat.eq_of_testBit_eq
    intro i
    have hm' : m < 2 ^ b := lt_of_lt_of_le hm (Nat.pow_le_pow_right (by omega) (by omega))
    have hand : (d 0 >>> s) &&& m < 2 ^ b := Nat.and_lt_two_pow _ hm'
    rw [Nat.testBit_and, Nat.testBit_shiftRight, add_comm (d 0), add_comm m,
      add_comm ((d 0 >>> s) &&& m), Nat.testBit_two_pow_mul_add _ (hd 0),
      Nat.testBit_two_pow_mul_add _ hm', Nat.testBit_two_pow_mul_add _ hand]
    simp only [Nat.testBit_and, Nat.testBit_shiftRight]
    by_cases h1 : i < b
    · rw [if_pos h1, if_pos h1]
      by_cases h2 : s + i < b
      · rw [if_pos h2]
      · have : m.testBit i = false := by
          apply Nat.testBit_lt_two_pow
          exact lt_of_lt_of_le hm (Nat.pow_le_pow_right (by omega) (by omega))
        rw [this, Bool.and_false, Bool.and_false]
    · rw [if_neg h1, if_neg h1, if_neg (by omega)]
      congr 2; omega

theorem fld_sub (B n : ℕ) (d e : ℕ → ℕ) (h : ∀ i, e i ≤ d i) :
    fld B n d - fld B n e = fld B n (fun i => d i - e i) ∧ fld B n e ≤ fld B n d := by
  induction n generalizing d e with
  | zero => simp [fld]
  | succ n ih =>
    rw [fld, fld, fld]
    obtain ⟨h1, h2⟩ := ih (fun i => d (i + 1)) (fun i => e (i + 1)) (fun i => h _)
    rw [← h1, Nat.mul_sub]
    have := Nat.mul_le_mul_left B h2
    have := h 0
    omega

theorem fld_add (B n : ℕ) (d e : ℕ → ℕ) :
    fld B n d + fld B n e = fld B n (fun i => d i + e i) := by
  induction n generalizing d e with
  | zero => simp [fld]
  | succ n ih => rw [fld, fld, fld, ← ih]; ring

theorem fld_lt {B : ℕ} (n : ℕ) (d : ℕ → ℕ) (h : ∀ i, d i < B) : fld B n d < B ^ n := by
  induction n generalizing d with
  | zero => simp [fld]
  | succ n ih =>
    rw [fld, pow_succ]
    have h1 := ih (fun i => d (i + 1)) (fun i => h _)
    have h2 := h 0
    have h3 : B * (fld B n (fun i => d (i + 1)) + 1) ≤ B * B ^ n := Nat.mul_le_mul_left B h1
    rw [mul_add, mul_one] at h3
    rw [mul_comm (B ^ n)]
    omega

theorem fld_regroup (B n : ℕ) (d : ℕ → ℕ) :
    fld B (2 * n) d = fld (B ^ 2) n (fun i => d (2 * i) + B * d (2 * i + 1)) := by
  induction n generalizing d with
  | zero => simp [fld]
  | succ n ih =>
    rw [show 2 * (n + 1) = 2 * n + 1 + 1 by ring, fld, fld, fld, ih]
    have : (fun i => d (2 * i + 1 + 1) + B * d (2 * i + 1 + 1 + 1)) =
        fun i => d (2 * (i + 1)) + B * d (2 * (i + 1) + 1) := by
      funext i; congr 1
    rw [this]; ring_nf

theorem testBit_div (x i : ℕ) : (x.testBit i).toNat = x / 2 ^ i % 2 := by
  rw [Nat.testBit_eq_decide_div_mod_eq]
  rcases Nat.mod_two_eq_zero_or_one (x / 2 ^ i) with h | h <;> simp [h]

theorem nat_eq_fld (n x : ℕ) (h : x < 2 ^ n) : x = fld 2 n (fun i => (x.testBit i).toNat) := by
  induction n generalizing x with
  | zero => simp at h; simp [fld, h]
  | succ n ih =>
    rw [fld]
    have h1 := ih (x / 2) (by rw [pow_succ] at h; omega)
    have h2 : (fun i => (x.testBit (i + 1)).toNat) = fun i => ((x / 2).testBit i).toNat := by
      funext i; rw [Nat.testBit_succ]
    rw [h2, ← h1, testBit_div]
    simp only [pow_zero, Nat.div_one]
    omega

theorem popcount_eq {w n : ℕ} (hw : w = 2 * (2 * n)) (x : BitVec w) :
    popcount x = ∑ i ∈ range n, ((x.getLsbD (4 * i)).toNat + (x.getLsbD (4 * i + 1)).toNat
      + ((x.getLsbD (4 * i + 2)).toNat + (x.getLsbD (4 * i + 3)).toNat)) := by
  unfold popcount
  have : ∀ n, ∑ i ∈ range (4 * n), (x.getLsbD i).toNat = ∑ i ∈ range n,
      ((x.getLsbD (4 * i)).toNat + (x.getLsbD (4 * i + 1)).toNat
      + ((x.getLsbD (4 * i + 2)).toNat + (x.getLsbD (4 * i + 3)).toNat)) := by
    intro n
    induction n with
    | zero => simp
    | succ n ih =>
      rw [show 4 * (n + 1) = 4 * n + 1 + 1 + 1 + 1 by ring, sum_range_succ, sum_range_succ,
        sum_range_succ, sum_range_succ, ih, sum_range_succ]
      ring_nf
  rw [← this n]
  apply sum_congr _ (fun _ _ => rfl)
  congr 1; omega

/-- First three steps of the bit count: after them the word consists of 4-bit fields, each holding
the number of ones of the corresponding field of `x`. -/
theorem swar_nat (n x : ℕ) (hx : x < 2 ^ (2 * (2 * n))) :
    let x1 := x - ((x >>> 1) &&& fld 4 (2 * n) (fun _ => 1))
    let x2 := ((x1 >>> 2) &&& fld 16 n (fun _ => 3)) + (x1 &&& fld 16 n (fun _ => 3))
    ((x >>> 1) &&& fld 4 (2 * n) (fun _ => 1)) ≤ x ∧
    x2 = fld 16 n (fun i => (x.testBit (4 * i)).toNat + (x.testBit (4 * i + 1)).toNat
      + ((x.testBit (4 * i + 2)).toNat + (x.testBit (4 * i + 3)).toNat)) := by
  intro x1 x2
  set b : ℕ → ℕ := fun i => (x.testBit i).toNat with hb
  have hb1 : ∀ i, b i ≤ 1 := fun i => Bool.toNat_le _
  have e0 : x = fld 4 (2 * n) (fun i => b (2 * i) + 2 * b (2 * i + 1)) := by
    conv_lhs => rw [nat_eq_fld _ x hx, fld_regroup]
    rfl
  have e1 : ((x >>> 1) &&& fld 4 (2 * n) (fun _ => 1)) = fld 4 (2 * n) (fun i => b (2 * i + 1)) := by
    conv_lhs => rw [e0]
    have := fld_shift_and (b := 2) (s := 1) (m := 1) (by omega) (by norm_num) (2 * n)
      (fun i => b (2 * i) + 2 * b (2 * i + 1)) (by
        intro i; have := hb1 (2 * i); have := hb1 (2 * i + 1); omega)
    rw [show (2 : ℕ) ^ 2 = 4 by rfl] at this
    rw [this]
    congr 1; funext i
    have := hb1 (2 * i); have := hb1 (2 * i + 1)
    generalize b (2 * i) = p at *
    generalize b (2 * i + 1) = q at *
    interval_cases p <;> interval_cases q <;> rfl
  have e2 := fld_sub 4 (2 * n) (fun i => b (2 * i) + 2 * b (2 * i + 1)) (fun i => b (2 * i + 1))
    (by intro i; omega)
  refine ⟨by rw [e1]; conv_rhs => rw [e0]
             exact e2.2, ?_⟩
  have e3 : x1 = fld 16 n (fun i => (b (4 * i) + b (4 * i + 1)) + 4 * (b (4 * i + 2) + b (4 * i + 3))) := by
    show x - ((x >>> 1) &&& fld 4 (2 * n) (fun _ => 1)) = _
    rw [e1]
    conv_lhs => rw [e0]
    rw [e2.1, fld_regroup]
    show fld 16 n _ = _
    congr 1; funext i
    rw [show 2 * (2 * i) = 4 * i by ring, show 2 * (2 * i + 1) = 4 * i + 2 by ring,
      show 4 * i + 2 + 1 = 4 * i + 3 by ring]
    omega
  have hd : ∀ i, (fun i => (b (4 * i) + b (4 * i + 1)) + 4 * (b (4 * i + 2) + b (4 * i + 3))) i < 2 ^ 4 := by
    intro i
    have := hb1 (4 * i); have := hb1 (4 * i + 1); have := hb1 (4 * i + 2); have := hb1 (4 * i + 3)
    beta_reduce; omega
  have e4 := fld_shift_and (b := 4) (s := 2) (m := 3) (by omega) (by norm_num) n _ hd
  have e5 := fld_shift_and (b := 4) (s := 0) (m := 3) (by omega) (by norm_num) n _ hd
  rw [show (2 : ℕ) ^ 4 = 16 by rfl] at e4 e5
  rw [Nat.shiftRight_zero] at e5
  show ((x1 >>> 2) &&& fld 16 n (fun _ => 3)) + (x1 &&& fld 16 n (fun _ => 3)) = _
  rw [e3, e4, e5, fld_add]
  congr 1; funext i
  have h1 := hb1 (4 * i); have h2 := hb1 (4 * i + 1)
  have h3 := hb1 (4 * i + 2); have h4 := hb1 (4 * i + 3)
  show _ = b (4 * i) + b (4 * i + 1) + (b (4 * i + 2) + b (4 * i + 3))
  generalize b (4 * i) = p at *
  generalize b (4 * i + 1) = q at *
  generalize b (4 * i + 2) = r at *
  generalize b (4 * i + 3) = s at *
  interval_cases p <;> interval_cases q <;> interval_cases r <;> interval_cases s <;> rfl

theorem fld_top (B n : ℕ) (d : ℕ → ℕ) : fld B (n + 1) d = fld B n d + d n * B ^ n := by
  induction n generalizing d with
  | zero => simp [fld]
  | succ n ih =>
    rw [fld, ih, fld]; ring

theorem fld_div {B : ℕ} (n : ℕ) (d : ℕ → ℕ) (hd : ∀ i, d i < B) (h0 : d n = 0) :
    fld B n d / B = fld B n (fun i => d (i + 1)) := by
  have hB : 0 < B := lt_of_le_of_lt (Nat.zero_le _) (hd 0)
  cases n with
  | zero => simp [fld]
  | succ n =>
    rw [fld_top B n (fun i => d (i + 1)), h0, zero_mul, add_zero, fld, Nat.add_mul_div_left _ _ hB,
      Nat.div_eq_of_lt (hd 0), zero_add]

/-- Number of ones in the `i`-th byte. -/
def byteOnes (x i : ℕ) : ℕ :=
  (x.testBit (8 * i)).toNat + (x.testBit (8 * i + 1)).toNat
    + ((x.testBit (8 * i + 2)).toNat + (x.testBit (8 * i + 3)).toNat)
    + ((x.testBit (8 * i + 4)).toNat + (x.testBit (8 * i + 5)).toNat
    + ((x.testBit (8 * i + 6)).toNat + (x.testBit (8 * i + 7)).toNat))

theorem byteOnes_le (x i : ℕ) : byteOnes x i ≤ 8 := by
  have h : ∀ i, (x.testBit i).toNat ≤ 1 := fun i => Bool.toNat_le _
  have := h (8 * i); have := h (8 * i + 1); have := h (8 * i + 2); have := h (8 * i + 3)
  have := h (8 * i + 4); have := h (8 * i + 5); have := h (8 * i + 6); have := h (8 * i + 7)
  unfold byteOnes; omega

/-- After the third step the word consists of bytes holding the counts of the bytes of `x`. -/
theorem swar_bytes (k x : ℕ) (hx : x < 2 ^ (8 * k)) :
    let x1 := x - ((x >>> 1) &&& fld 4 (4 * k) (fun _ => 1))
    let x2 := ((x1 >>> 2) &&& fld 16 (2 * k) (fun _ => 3)) + (x1 &&& fld 16 (2 * k) (fun _ => 3))
    let x3 := ((x2 >>> 4) + x2) &&& fld 256 k (fun _ => 15)
    ((x >>> 1) &&& fld 4 (4 * k) (fun _ => 1)) ≤ x ∧ x2 < 2 ^ (8 * k) ∧
    ((x2 >>> 4) + x2) < 2 ^ (8 * k) ∧ x3 = fld 256 k (byteOnes x) := by
  intro x1 x2 x3
  have hx' : x < 2 ^ (2 * (2 * (2 * k))) := by rw [show 2 * (2 * (2 * k)) = 8 * k by ring]; exact hx
  obtain ⟨h1, h2⟩ := swar_nat (2 * k) x hx'
  rw [show 2 * (2 * k) = 4 * k by ring] at h1 h2
  set d : ℕ → ℕ := fun i => (x.testBit (4 * i)).toNat + (x.testBit (4 * i + 1)).toNat
      + ((x.testBit (4 * i + 2)).toNat + (x.testBit (4 * i + 3)).toNat) with hd
  have hd4 : ∀ i, d i ≤ 4 := by
    intro i
    have := Bool.toNat_le (x.testBit (4 * i)); have := Bool.toNat_le (x.testBit (4 * i + 1))
    have := Bool.toNat_le (x.testBit (4 * i + 2)); have := Bool.toNat_le (x.testBit (4 * i + 3))
    simp only [hd]; omega
  have h2' : x2 = fld 16 (2 * k) d := h2
  have hz : ∀ j, 8 * k ≤ j → x.testBit j = false := by
    intro j hj
    exact Nat.testBit_lt_two_pow (lt_of_lt_of_le hx (Nat.pow_le_pow_right (by omega) hj))
  have hd0 : d (2 * k) = 0 := by
    simp only [hd]
    rw [hz _ (by omega), hz _ (by omega), hz _ (by omega), hz _ (by omega)]; rfl
  have hdiv : x2 >>> 4 = fld 16 (2 * k) (fun i => d (i + 1)) := by
    rw [Nat.shiftRight_eq_div_pow, h2']
    exact fld_div (2 * k) d (fun i => by have := hd4 i; omega) hd0
  have hpow : (16 : ℕ) ^ (2 * k) = 2 ^ (8 * k) := by
    rw [show (16 : ℕ) = 2 ^ 4 by rfl, ← pow_mul]; congr 1; ring
  have hsum : (x2 >>> 4) + x2 = fld 16 (2 * k) (fun i => d (i + 1) + d i) := by
    rw [hdiv, h2', fld_add]
  refine ⟨h1, ?_, ?_, ?_⟩
  · rw [h2', ← hpow]; exact fld_lt _ _ (fun i => by have := hd4 i; omega)
  · rw [hsum, ← hpow]
    exact fld_lt _ _ (fun i => by have := hd4 i; have := hd4 (i + 1); omega)
  · show ((x2 >>> 4) + x2) &&& fld 256 k (fun _ => 15) = _
    rw [hsum, fld_regroup]
    have := fld_shift_and (b := 8) (s := 0) (m := 15) (by omega) (by norm_num) k
      (fun i => d (2 * i + 1) + d (2 * i) + 16 * (d (2 * i + 1 + 1) + d (2 * i + 1))) (by
        intro i
        have := hd4 (2 * i); have := hd4 (2 * i + 1); have := hd4 (2 * i + 1 + 1)
        omega)
    rw [show (2 : ℕ) ^ 8 = 256 by rfl, Nat.shiftRight_zero] at this
    rw [show (16 : ℕ) ^ 2 = 256 by rfl, this]
    congr 1; funext i
    rw [Nat.shiftRight_zero, Nat.and_two_pow_sub_one_eq_mod _ 4]
    have := hd4 (2 * i); have := hd4 (2 * i + 1)
    have e : byteOnes x i = d (2 * i) + d (2 * i + 1) := by
      unfold byteOnes
      simp only [hd]
      rw [show 4 * (2 * i) = 8 * i by ring, show 4 * (2 * i + 1) = 8 * i + 4 by ring]
    rw [e]; omega

/-! ## The three widths -/

theorem popcount_bytes {w k : ℕ} (hw : w = 8 * k) (x : BitVec w) :
    popcount x = ∑ i ∈ range k, byteOnes x.toNat i := by
  unfold popcount
  have : ∀ k, ∑ i ∈ range (8 * k), (x.getLsbD i).toNat = ∑ i ∈ range k, byteOnes x.toNat i := by
    intro n
    induction n with
    | zero => simp
    | succ n ih =>
      rw [show 8 * (n + 1) = 8 * n + 1 + 1 + 1 + 1 + 1 + 1 + 1 + 1 by ring, sum_range_succ, sum_range_succ,
        sum_range_succ, sum_range_succ, sum_range_succ, sum_range_succ,
        sum_range_succ, sum_range_succ, ih, sum_range_succ]
      unfold byteOnes BitVec.getLsbD
      ring_nf
  rw [← this k]
  apply sum_congr _ (fun _ _ => rfl)
  rw [hw]

theorem fold32 {y a b c d : ℕ} (ha : a ≤ 8) (hb : b ≤ 8) (hc : c ≤ 8) (hd : d ≤ 8)
    (hy : y = a + 256 * (b + 256 * (c + 256 * (d + 256 * 0)))) :
    ((y + y / 2 ^ 8) % 2 ^ 32 + (y + y / 2 ^ 8) % 2 ^ 32 / 2 ^ 16) % 2 ^ 32 % 2 ^ 6 = a + b + c + d := by
  have h1 : y / 2 ^ 8 = b + 256 * c + 65536 * d := by omega
  rw [h1]
  have h2 : (y + (b + 256 * c + 65536 * d)) % 2 ^ 32
      = (a + b) + 256 * (b + c) + 65536 * (c + d) + 16777216 * d := by omega
  rw [h2]
  have h3 : ((a + b) + 256 * (b + c) + 65536 * (c + d) + 16777216 * d) / 2 ^ 16 = (c + d) + 256 * d := by omega
  rw [h3]
  have h4 : ((a + b) + 256 * (b + c) + 65536 * (c + d) + 16777216 * d + ((c + d) + 256 * d)) % 2 ^ 32
      = (a + b + c + d) + 256 * (b + c + d) + 65536 * (c + d) + 16777216 * d := by omega
  rw [h4]
  omega

theorem divB {B x q : ℕ} (hx : x < B) : (x + B * q) / B = q := by
  rw [Nat.add_mul_div_left _ _ (by omega), Nat.div_eq_of_lt hx, zero_add]

theorem fold64 {y a b c d e f g h : ℕ} (ha : a ≤ 8) (hb : b ≤ 8) (hc : c ≤ 8) (hd : d ≤ 8)
    (he : e ≤ 8) (hf : f ≤ 8) (hg : g ≤ 8) (hh : h ≤ 8)
    (hy : y = a + 256 * (b + 256 * (c + 256 * (d + 256 * (e + 256 * (f + 256 * (g + 256 * (h + 256 * 0)))))))) :
    (((y + y / 2 ^ 8) % 2 ^ 64 + (y + y / 2 ^ 8) % 2 ^ 64 / 2 ^ 16) % 2 ^ 64 +
      ((y + y / 2 ^ 8) % 2 ^ 64 + (y + y / 2 ^ 8) % 2 ^ 64 / 2 ^ 16) % 2 ^ 64 / 2 ^ 32) % 2 ^ 64 % 2 ^ 7
      = a + b + c + d + e + f + g + h := by
  rw [show (2 : ℕ) ^ 8 = 256 by norm_num, show (2 : ℕ) ^ 16 = 65536 by norm_num,
    show (2 : ℕ) ^ 32 = 4294967296 by norm_num, show (2 : ℕ) ^ 64 = 18446744073709551616 by norm_num,
    show (2 : ℕ) ^ 7 = 128 by norm_num]
  have h1 : y / 256 = b + 256 * (c + 256 * (d + 256 * (e + 256 * (f + 256 * (g + 256 * h))))) := by
    rw [hy, divB (by linarith)]
    ring
  rw [h1]
  have h2 : (y + (b + 256 * (c + 256 * (d + 256 * (e + 256 * (f + 256 * (g + 256 * h))))))) % 18446744073709551616
      = ((a + b) + 256 * (b + c)) + 65536 * ((c + d) + 256 * (d + e) + 65536 * ((e + f) + 256 * (f + g)
        + 65536 * ((g + h) + 256 * h))) := by
    rw [Nat.mod_eq_of_lt (by linarith), hy]; ring
  rw [h2, divB (by linarith)]
  have h4 : ((a + b) + 256 * (b + c) + 65536 * ((c + d) + 256 * (d + e) + 65536 * ((e + f) + 256 * (f + g)
        + 65536 * ((g + h) + 256 * h))) + ((c + d) + 256 * (d + e) + 65536 * ((e + f) + 256 * (f + g)
        + 65536 * ((g + h) + 256 * h)))) % 18446744073709551616
      = ((a + b + c + d) + 256 * (b + c + d + e) + 65536 * ((c + d + e + f) + 256 * (d + e + f + g)))
        + 4294967296 * ((e + f + g + h) + 256 * (f + g + h) + 65536 * ((g + h) + 256 * h)) := by
    rw [Nat.mod_eq_of_lt (by linarith)]; ring
  rw [h4, divB (by linarith), Nat.mod_mod_of_dvd _ (by norm_num : 128 ∣ 18446744073709551616)]
  have h6 : ((a + b + c + d) + 256 * (b + c + d + e) + 65536 * ((c + d + e + f) + 256 * (d + e + f + g)))
        + 4294967296 * ((e + f + g + h) + 256 * (f + g + h) + 65536 * ((g + h) + 256 * h))
        + ((e + f + g + h) + 256 * (f + g + h) + 65536 * ((g + h) + 256 * h))
      = (a + b + c + d + e + f + g + h) + 128 * (2 * (b + c + d + e) + 512 * ((c + d + e + f) + 256 * (d + e + f + g))
        + 33554432 * ((e + f + g + h) + 256 * (f + g + h) + 65536 * ((g + h) + 256 * h))
        + (2 * (f + g + h) + 512 * ((g + h) + 256 * h))) := by ring
  rw [h6, Nat.add_mul_mod_self_left, Nat.mod_eq_of_lt (by linarith)]

theorem countBit16_eq (x : BitVec 16) : countBit16 x = popcount x := by
  obtain ⟨h1, h2, h3, h4⟩ := swar_bytes 2 x.toNat x.isLt
  simp only [] at h2 h3 h4
  rw [show fld 4 (4 * 2) (fun _ => 1) = 0x5555 by rfl] at h1 h2 h3 h4
  rw [show fld 16 (2 * 2) (fun _ => 3) = 0x3333 by rfl] at h2 h3 h4
  rw [show fld 256 2 (fun _ => 15) = 0x0f0f by rfl] at h4
  rw [popcount_bytes (k := 2) rfl]
  simp only [sum_range_succ, sum_range_zero, fld] at h4 ⊢
  have b0 := byteOnes_le x.toNat 0
  have b1 := byteOnes_le x.toNat 1
  unfold countBit16
  set X1 := x - ((x >>> 1) &&& 0x5555#16) with hX1
  have e1 : X1.toNat = x.toNat - (x.toNat >>> 1 &&& 0x5555) := by
    rw [hX1, BitVec.toNat_sub_of_le]
    · simp
    · rw [BitVec.le_def]; simpa using h1
  rw [← e1] at h2 h3 h4
  set X2 := ((X1 >>> 2) &&& 0x3333#16) + (X1 &&& 0x3333#16) with hX2
  have e2 : X2.toNat = (X1.toNat >>> 2 &&& 0x3333) + (X1.toNat &&& 0x3333) := by
    rw [hX2, BitVec.toNat_add, Nat.mod_eq_of_lt]
    · simp
    · simpa using h2
  rw [← e2] at h3 h4
  set X3 := ((X2 >>> 4) + X2) &&& 0x0f0f#16 with hX3
  have e3 : X3.toNat = (X2.toNat >>> 4 + X2.toNat) &&& 0x0f0f := by
    rw [hX3, BitVec.toNat_and, BitVec.toNat_add, Nat.mod_eq_of_lt]
    · simp
    · simpa using h3
  rw [← e3] at h4
  show ((X3 + (X3 >>> 8)) &&& 0x1f#16).toNat = _
  clear_value X3
  clear h1 h2 h3 e1 e2 e3 hX3
  simp only [BitVec.toNat_and, BitVec.toNat_add, BitVec.toNat_ushiftRight, Nat.shiftRight_eq_div_pow, h4,
    BitVec.toNat_ofNat]
  rw [show (31 % 2 ^ 16) = 2 ^ 5 - 1 by rfl, Nat.and_two_pow_sub_one_eq_mod _ 5]
  simp only [zero_add] at *
  omega

theorem countBit32_eq (x : BitVec 32) : countBit32 x = popcount x := by
  obtain ⟨h1, h2, h3, h4⟩ := swar_bytes 4 x.toNat x.isLt
  simp only [] at h2 h3 h4
  rw [show fld 4 (4 * 4) (fun _ => 1) = 0x55555555 by rfl] at h1 h2 h3 h4
  rw [show fld 16 (2 * 4) (fun _ => 3) = 0x33333333 by rfl] at h2 h3 h4
  rw [show fld 256 4 (fun _ => 15) = 0x0f0f0f0f by rfl] at h4
  rw [popcount_bytes (k := 4) rfl]
  simp only [sum_range_succ, sum_range_zero, fld] at h4 ⊢
  have b0 := byteOnes_le x.toNat 0
  have b1 := byteOnes_le x.toNat 1
  have b2 := byteOnes_le x.toNat 2
  have b3 := byteOnes_le x.toNat 3
  unfold countBit32
  set X1 := x - ((x >>> 1) &&& 0x55555555#32) with hX1
  have e1 : X1.toNat = x.toNat - (x.toNat >>> 1 &&& 0x55555555) := by
    rw [hX1, BitVec.toNat_sub_of_le]
    · simp
    · rw [BitVec.le_def]; simpa using h1
  rw [← e1] at h2 h3 h4
  set X2 := ((X1 >>> 2) &&& 0x33333333#32) + (X1 &&& 0x33333333#32) with hX2
  have e2 : X2.toNat = (X1.toNat >>> 2 &&& 0x33333333) + (X1.toNat &&& 0x33333333) := by
    rw [hX2, BitVec.toNat_add, Nat.mod_eq_of_lt]
    · simp
    · simpa using h2
  rw [← e2] at h3 h4
  set X3 := ((X2 >>> 4) + X2) &&& 0x0f0f0f0f#32 with hX3
  have e3 : X3.toNat = (X2.toNat >>> 4 + X2.toNat) &&& 0x0f0f0f0f := by
    rw [hX3, BitVec.toNat_and, BitVec.toNat_add, Nat.mod_eq_of_lt]
    · simp
    · simpa using h3
  rw [← e3] at h4
  show ((X3 + (X3 >>> 8) + ((X3 + (X3 >>> 8)) >>> 16)) &&& 0x3f#32).toNat = _
  clear_value X3
  clear h1 h2 h3 e1 e2 e3 hX3
  simp only [BitVec.toNat_and, BitVec.toNat_add, BitVec.toNat_ushiftRight, Nat.shiftRight_eq_div_pow, 
    BitVec.toNat_ofNat]
  rw [show (63 % 2 ^ 32) = 2 ^ 6 - 1 by rfl, Nat.and_two_pow_sub_one_eq_mod _ 6]
  simp only [zero_add, Nat.reduceAdd] at *
  exact fold32 b0 b1 b2 b3 h4

theorem countBit64_eq (x : BitVec 64) : countBit64 x = popcount x := by
  obtain ⟨h1, h2, h3, h4⟩ := swar_bytes 8 x.toNat x.isLt
  simp only [] at h2 h3 h4
  rw [show fld 4 (4 * 8) (fun _ => 1) = 0x5555555555555555 by rfl] at h1 h2 h3 h4
  rw [show fld 16 (2 * 8) (fun _ => 3) = 0x3333333333333333 by rfl] at h2 h3 h4
  rw [show fld 256 8 (fun _ => 15) = 0x0f0f0f0f0f0f0f0f by rfl] at h4
  rw [popcount_bytes (k := 8) rfl]
  simp only [sum_range_succ, sum_range_zero, fld] at h4 ⊢
  have b0 := byteOnes_le x.toNat 0
  have b1 := byteOnes_le x.toNat 1
  have b2 := byteOnes_le x.toNat 2
  have b3 := byteOnes_le x.toNat 3
  have b4 := byteOnes_le x.toNat 4
  have b5 := byteOnes_le x.toNat 5
  have b6 := byteOnes_le x.toNat 6
  have b7 := byteOnes_le x.toNat 7
  unfold countBit64
  set X1 := x - ((x >>> 1) &&& 0x5555555555555555#64) with hX1
  have e1 : X1.toNat = x.toNat - (x.toNat >>> 1 &&& 0x5555555555555555) := by
    rw [hX1, BitVec.toNat_sub_of_le]
    · simp
    · rw [BitVec.le_def]; simpa using h1
  rw [← e1] at h2 h3 h4
  set X2 := ((X1 >>> 2) &&& 0x3333333333333333#64) + (X1 &&& 0x3333333333333333#64) with hX2
  have e2 : X2.toNat = (X1.toNat >>> 2 &&& 0x3333333333333333) + (X1.toNat &&& 0x3333333333333333) := by
    rw [hX2, BitVec.toNat_add, Nat.mod_eq_of_lt]
    · simp
    · simpa using h2
  rw [← e2] at h3 h4
  set X3 := ((X2 >>> 4) + X2) &&& 0x0f0f0f0f0f0f0f0f#64 with hX3
  have e3 : X3.toNat = (X2.toNat >>> 4 + X2.toNat) &&& 0x0f0f0f0f0f0f0f0f := by
    rw [hX3, BitVec.toNat_and, BitVec.toNat_add, Nat.mod_eq_of_lt]
    · simp
    · simpa using h3
  rw [← e3] at h4
  show ((X3 + (X3 >>> 8) + ((X3 + (X3 >>> 8)) >>> 16) + ((X3 + (X3 >>> 8) + ((X3 + (X3 >>> 8)) >>> 16)) >>> 32))
    &&& 0x7f#64).toNat = _
  clear_value X3
  clear h1 h2 h3 e1 e2 e3 hX3
  simp only [BitVec.toNat_and, BitVec.toNat_add, BitVec.toNat_ushiftRight, Nat.shiftRight_eq_div_pow, 
    BitVec.toNat_ofNat]
  rw [show (127 % 2 ^ 64) = 2 ^ 7 - 1 by rfl, Nat.and_two_pow_sub_one_eq_mod _ 7]
  simp only [zero_add, Nat.reduceAdd] at *
  exact fold64 b0 b1 b2 b3 b4 b5 b6 b7 h4

end MTT.Util
