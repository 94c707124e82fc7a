import Verif.Util.Props
import Verif.MT.PeriodProps
import Mathlib.Data.Int.CardIntervalMod
import Mathlib.Data.Nat.Prime.Basic
import Mathlib.Data.Fin.Tuple.Basic

/-!
# C130: how the values of `get_range` are distributed

A range of `n` values from `start` on ends with `start + n - 1`; its values are `start + i` with `i < n`.
-/

namespace MTT.Util

theorem getRange_iff {n : ℕ} (hn : n ≤ 2147483647) (start : ℤ) {i : ℕ} (hi : i < n) (x : ℕ) :
    getRange x start (start + n - 1) = .value (start + i) ↔ x ≡ i [MOD n] := by
  unfold getRange
  rw [if_neg (by omega), if_neg (by omega), RangeResult.value.injEq, Nat.ModEq, Nat.mod_eq_of_lt hi,
    show (start + (n : ℤ) - 1 - start + 1).toNat = n by omega]
  omega

theorem card_words (w : ℕ) (P : ℕ → Prop) [DecidablePred P] : Nat.card {x : BitVec w // P x.toNat} = Nat.count P (2 ^ w) := by
  rw [Nat.count_eq_card_filter_range, ← Nat.subtype_card (p := fun k => k < 2 ^ w ∧ P k) _ (by simp)]
  exact Nat.card_congr ⟨fun x => ⟨x.1.toNat, x.1.isLt, x.2⟩, fun k => ⟨BitVec.ofNatLT k.1 k.2.1, by
    rw [BitVec.toNat_ofNatLT]; exact k.2.2⟩, fun x => by simp, fun k => by simp⟩

/-- **C130.**  Of the `2^w` words, `2^w / n` are taken to each of the `n` values of the range, and one more to the first
`2^w % n` values. -/
theorem get_range_count (w : ℕ) {n : ℕ} (hn : n ≤ 2147483647) (start : ℤ) {i : ℕ} (hi : i < n) :
    Nat.card {x : BitVec w // getRange x.toNat start (start + n - 1) = .value (start + i)} =
      2 ^ w / n + if i < 2 ^ w % n then 1 else 0 := by
  simp only [getRange_iff hn start hi]
  rw [card_words w (fun x => x ≡ i [MOD n]), Nat.count_modEq_card _ (by omega), Nat.mod_eq_of_lt hi]

/-- **C130.**  All values of the range have equally many words exactly if their number is a power of two that is at most `2^w`. -/
theorem get_range_uniform_iff (w : ℕ) {n : ℕ} (h1 : 1 ≤ n) (hn : n ≤ 2147483647) (start : ℤ) :
    (∀ i j, i < n → j < n →
      Nat.card {x : BitVec w // getRange x.toNat start (start + n - 1) = .value (start + (i : ℕ))} =
        Nat.card {x : BitVec w // getRange x.toNat start (start + n - 1) = .value (start + (j : ℕ))}) ↔
    ∃ j, j ≤ w ∧ n = 2 ^ j := by
  rw [← Nat.dvd_prime_pow Nat.prime_two]
  have hlt : 2 ^ w % n < n := Nat.mod_lt _ (by omega)
  constructor
  · intro h
    have := h 0 (n - 1) (by omega) (by omega)
    rw [get_range_count w hn start (by omega), get_range_count w hn start (by omega), if_neg (c := n - 1 < _) (by omega)] at this
    apply Nat.dvd_of_mod_eq_zero
    by_contra hne
    rw [if_pos (by omega)] at this
    omega
  · intro hd i j hi hj
    rw [get_range_count w hn start hi, get_range_count w hn start hj, Nat.mod_eq_zero_of_dvd hd]
    simp

/-! ### During a period of the Mersenne Twister -/

open Classical in
/-- From the distribution of `d`-tuples to that of single words. -/
theorem words_of_tuples {w d m p : ℕ} (hm : 1 ≤ m) {y : ℕ → BitVec w}
    (h1 : ∀ v : ℕ → BitVec w, (∃ j, j < d + 1 ∧ v j ≠ 0) → occurrences y p (d + 1) v = m)
    (h2 : ∀ v : ℕ → BitVec w, (∀ j, j < d + 1 → v j = 0) → occurrences y p (d + 1) v = m - 1) (P : BitVec w → Prop) :
    Nat.card {k : ℕ // k < p ∧ P (y k)} = m * 2 ^ (w * d) * Nat.card {a : BitVec w // P a} - if P 0 then 1 else 0 := by
  let eB : BitVec w ≃ Fin (2 ^ w) := ⟨fun x => x.toFin, BitVec.ofFin, fun _ => rfl, fun _ => rfl⟩
  let _ : Fintype (BitVec w) := Fintype.ofEquiv _ eB.symm
  have hB : Fintype.card (BitVec w) = 2 ^ w := by rw [Fintype.card_congr eB, Fintype.card_fin]
  let t : ℕ → Fin (d + 1) → BitVec w := fun k j => y (k + j)
  have ho : ∀ v : Fin (d + 1) → BitVec w, ((Finset.range p).filter (fun k => t k = v)).card = if v = 0 then m - 1 else m := by
    intro v
    have e : occurrences y p (d + 1) (fun j => if h : j < d + 1 then v ⟨j, h⟩ else 0) = ((Finset.range p).filter (fun k => t k = v)).card := by
      unfold occurrences
      refine Nat.subtype_card _ fun k => ?_
      rw [Finset.mem_filter, Finset.mem_range]
      refine and_congr_right fun _ => ⟨fun h j hj => ?_, fun h => funext fun j => ?_⟩
      · dsimp only; rw [dif_pos hj]; exact congrFun h ⟨j, hj⟩
      · have := h j.1 j.2
        dsimp only at this
        rw [dif_pos j.2] at this
        exact this
    rw [← e]
    by_cases hv : v = 0
    · rw [if_pos hv]
      refine h2 _ fun j hj => ?_
      rw [dif_pos hj, hv]; rfl
    · rw [if_neg hv]
      refine h1 _ ?_
      by_contra hc
      push Not at hc
      refine hv (funext fun j => ?_)
      have := hc j.1 j.2
      rwa [dif_pos j.2] at this
  have hc : Nat.card {k : ℕ // k < p ∧ P (y k)} = ((Finset.range p).filter (fun k => P (t k 0))).card :=
    Nat.subtype_card _ fun k => by
      rw [Finset.mem_filter, Finset.mem_range]; rfl
  have hT : (Finset.univ.filter (fun v : Fin (d + 1) → BitVec w => P (v 0))).card =
      2 ^ (w * d) * Nat.card {a : BitVec w // P a} := by
    rw [← Nat.subtype_card (p := fun v : Fin (d + 1) → BitVec w => P (v 0)) _ (by simp)]
    have : Nat.card {v : Fin (d + 1) → BitVec w // P (v 0)} = Nat.card ({a : BitVec w // P a} × (Fin d → BitVec w)) := by
      refine Nat.card_congr ⟨fun v => (⟨v.1 0, v.2⟩, Fin.tail v.1), fun q => ⟨Fin.cons q.1.1 q.2, by rw [Fin.cons_zero]; exact q.1.2⟩, ?_, ?_⟩
      · intro v; exact Subtype.ext (Fin.cons_self_tail v.1)
      · intro q; simp
    rw [this, Nat.card_prod, mul_comm]
    congr 1
    rw [Nat.card_eq_fintype_card, Fintype.card_fun, hB, Fintype.card_fin, ← pow_mul]
  have hmap : ∀ k ∈ (Finset.range p).filter (fun k => P (t k 0)), t k ∈ Finset.univ.filter (fun v : Fin (d + 1) → BitVec w => P (v 0)) := by
    intro k hk
    simpa using (Finset.mem_filter.1 hk).2
  rw [hc, Finset.card_eq_sum_card_fiberwise hmap]
  have hs : ∀ v ∈ Finset.univ.filter (fun v : Fin (d + 1) → BitVec w => P (v 0)),
      (((Finset.range p).filter (fun k => P (t k 0))).filter (fun k => t k = v)).card = if v = 0 then m - 1 else m := by
    intro v hv
    rw [← ho v]
    congr 1
    ext k
    simp only [Finset.mem_filter, Finset.mem_univ, true_and] at hv ⊢
    exact ⟨fun h => ⟨h.1.1, h.2⟩, fun h => ⟨⟨h.1, by rw [h.2]; exact hv⟩, h.2⟩⟩
  rw [Finset.sum_congr rfl hs]
  have hsum : ∀ F : Finset (Fin (d + 1) → BitVec w), (∑ v ∈ F, if v = 0 then m - 1 else m) = m * F.card - if 0 ∈ F then 1 else 0 := by
    intro F
    have : ∀ v ∈ F, (if v = 0 then m - 1 else m) + (if v = 0 then 1 else 0) = m := by
      intro v _; split <;> omega
    have h3 := Finset.sum_congr rfl this
    rw [Finset.sum_add_distrib, Finset.sum_const, smul_eq_mul, Finset.sum_ite_eq' F 0] at h3
    rw [mul_comm m, ← h3]
    omega
  rw [hsum, hT, mul_assoc]
  congr 1
  simp

/-- **C130.**  During any full period of `getUint32` after any legal seeding call of `MersenneTwister`, the value `start + i` of a range
of `n` comes from `get_range` in the proportion of its words, but for the single zero word that the period lacks. -/
theorem mt_range (s : MT.St 32) (o : MT.Op 32) (ho : o.IsSeed) (hv : o.Valid) :
    ∃ y : ℕ → BitVec 32, MT.Delivers MT.step32 s o .getNative (fun k => (y k).setWidth 64) ∧
      ∀ (K n : ℕ) (start : ℤ) (i : ℕ), n ≤ 2147483647 → i < n →
        Nat.card {k : ℕ // k < 2 ^ 19937 - 1 ∧ getRange (y (K + k)).toNat start (start + n - 1) = .value (start + i)} =
          2 ^ 19905 * (2 ^ 32 / n + if i < 2 ^ 32 % n then 1 else 0) - if i = 0 then 1 else 0 := by
  obtain ⟨y, hy, h⟩ := MT.mt19937_equidistributed s o ho hv
  refine ⟨y, hy, fun K n start i hn hi => ?_⟩
  generalize 2 ^ 19937 - 1 = p at h ⊢
  have hw := words_of_tuples (d := 622) (m := 2) (p := p) (by norm_num) (fun v => (h K v).1) (fun v => (h K v).2)
    (fun x => getRange x.toNat start (start + n - 1) = .value (start + i))
  have e : 2 * 2 ^ (32 * 622) = 2 ^ 19905 := by rw [← pow_succ', show 32 * 622 + 1 = 19905 by norm_num]
  have h0 : (getRange (0 : BitVec 32).toNat start (start + n - 1) = .value (start + i)) ↔ i = 0 := by
    rw [getRange_iff hn start hi, show (0 : BitVec 32).toNat = 0 from rfl, Nat.ModEq, Nat.zero_mod, Nat.mod_eq_of_lt hi, eq_comm]
  rw [hw, get_range_count 32 hn start hi, e]
  simp only [h0]

/-- **C130.**  The same for `getUint64` of `MersenneTwister64`. -/
theorem mt64_range (s : MT.St 64) (o : MT.Op 64) (ho : o.IsSeed) (hv : o.Valid) :
    ∃ y : ℕ → BitVec 64, MT.Delivers MT.step64 s o .getNative y ∧
      ∀ (K n : ℕ) (start : ℤ) (i : ℕ), n ≤ 2147483647 → i < n →
        Nat.card {k : ℕ // k < 2 ^ 19937 - 1 ∧ getRange (y (K + k)).toNat start (start + n - 1) = .value (start + i)} =
          2 ^ 19873 * (2 ^ 64 / n + if i < 2 ^ 64 % n then 1 else 0) - if i = 0 then 1 else 0 := by
  obtain ⟨y, hy, h⟩ := MT.mt19937_64_equidistributed s o ho hv
  refine ⟨y, hy, fun K n start i hn hi => ?_⟩
  generalize 2 ^ 19937 - 1 = p at h ⊢
  have hw := words_of_tuples (d := 310) (m := 2 ^ 33) (p := p) (by norm_num) (fun v => (h K v).1) (fun v => (h K v).2)
    (fun x => getRange x.toNat start (start + n - 1) = .value (start + i))
  have e : 2 ^ 33 * 2 ^ (64 * 310) = 2 ^ 19873 := by rw [← pow_add, show 33 + 64 * 310 = 19873 by norm_num]
  have h0 : (getRange (0 : BitVec 64).toNat start (start + n - 1) = .value (start + i)) ↔ i = 0 := by
    rw [getRange_iff hn start hi, show (0 : BitVec 64).toNat = 0 from rfl, Nat.ModEq, Nat.zero_mod, Nat.mod_eq_of_lt hi, eq_comm]
  rw [hw, get_range_count 64 hn start hi, e]
  simp only [h0]

/-- The range from 3 to 7: the value 3 has one word more than the value 4. -/
example : Nat.card {x : BitVec 32 // getRange x.toNat 3 7 = .value 3} = 858993460 ∧
    Nat.card {x : BitVec 32 // getRange x.toNat 3 7 = .value 4} = 858993459 :=
  ⟨get_range_count 32 (n := 5) (by norm_num) 3 (i := 0) (by norm_num),
    get_range_count 32 (n := 5) (by norm_num) 3 (i := 1) (by norm_num)⟩

/-- The seeding calls meet the hypotheses: with the seed 5489 the value 6 of the range from 1 to 6 comes as often as this in a period. -/
example : ∃ y : ℕ → BitVec 32, MT.Delivers MT.step32 ⟨fun _ => none, 0⟩ (.seed 5489) .getNative (fun k => (y k).setWidth 64) ∧
    Nat.card {k : ℕ // k < 2 ^ 19937 - 1 ∧ getRange (y (0 + k)).toNat 1 6 = .value 6} = 2 ^ 19905 * 715827882 := by
  obtain ⟨y, hy, h⟩ := mt_range ⟨fun _ => none, 0⟩ (.seed 5489) trivial trivial
  refine ⟨y, hy, ?_⟩
  have := h 0 6 1 5 (by norm_num) (by norm_num)
  rw [if_neg (by norm_num), if_neg (by norm_num), Nat.add_zero, Nat.sub_zero, show 2 ^ 32 / 6 = 715827882 by norm_num,
    show (1 : ℤ) + ((6 : ℕ) : ℤ) - 1 = 6 by norm_num, show (1 : ℤ) + ((5 : ℕ) : ℤ) = 6 by norm_num] at this
  exact this

end MTT.Util
