import Verif.Util.Lemmas2
import Verif.PIS.Correct

/-!
# C01 - C10: bit utilities (property theorems)
-/

namespace MTT.Util

open Finset

/-! ## C01: `count_bit` -/

/-- **C01.** For every word of 16, 32 and 64 bits, `count_bit` returns the number of its one bits. -/
theorem count_bit_correct :
    (∀ x : BitVec 16, countBit16 x = ((range 16).filter fun i => x.getLsbD i = true).card) ∧
    (∀ x : BitVec 32, countBit32 x = ((range 32).filter fun i => x.getLsbD i = true).card) ∧
    (∀ x : BitVec 64, countBit64 x = ((range 64).filter fun i => x.getLsbD i = true).card) := by
  have key : ∀ {w : ℕ} (x : BitVec w),
      popcount x = ((range w).filter fun i => x.getLsbD i = true).card := by
    intro w x
    unfold popcount
    rw [card_filter]
    apply sum_congr rfl
    intro i _
    cases x.getLsbD i <;> rfl
  exact ⟨fun x => by rw [countBit16_eq, key], fun x => by rw [countBit32_eq, key],
    fun x => by rw [countBit64_eq, key]⟩

example : countBit32 0xF0F01234#32 = 13 := by decide +kernel

/-! ## C02, C03: `calc_1pos` -/

/-- `r` is the answer `calc_1pos` documents for `x`: the distance of the last one bit of `x` from the
most significant bit. -/
def IsLastOne {w : ℕ} (x : BitVec w) (r : Int) : Prop :=
  ∃ i : ℕ, r = i ∧ i < w ∧ x.getMsbD i = true ∧ ∀ j, i < j → x.getMsbD j = false

/-- **C02** (16 bits): `calc_1pos` is correct on every word. -/
theorem calc1pos16_correct (x : BitVec 16) :
    (x = 0 → calc1pos16 x = some (-1)) ∧ (x ≠ 0 → ∃ r, calc1pos16 x = some r ∧ IsLastOne x r) := by
  constructor
  · rintro rfl; rfl
  · intro hx
    obtain ⟨c, hc, h1, h2⟩ := exists_lowest hx
    unfold calc1pos16
    rw [if_neg hx]
    refine ⟨_, rfl, 15 - c, ?_, by omega, low_of_lowest hc h1 h2⟩
    have hs : ∀ i < 16, (x.signExtend 32).getLsbD i = x.getLsbD i := by
      intro i hi
      rw [BitVec.getLsbD_signExtend]
      simp [hi]; omega
    have h3 : x.signExtend 32 &&& -x.signExtend 32 = BitVec.twoPow 32 c :=
      and_neg_self (by omega) (by rw [hs c hc, h1]) (fun j hj => by rw [hs j (by omega), h2 j hj])
    rw [h3]
    have h4 : (BitVec.twoPow 32 c - 1#32).setWidth 16 = BitVec.twoPow 16 c - 1#16 := by
      apply BitVec.eq_of_getLsbD_eq
      intro i hi
      rw [BitVec.getLsbD_setWidth, twoPow_sub_one_getLsbD (by omega), twoPow_sub_one_getLsbD hc]
      simp [hi]
    rw [h4, countBit16_eq, popcount_twoPow_sub_one hc]
    omega

theorem calc1posWrap32_correct (x : BitVec 32) :
    (x = 0 → calc1posWrap32 x = -1) ∧ (x ≠ 0 → IsLastOne x (calc1posWrap32 x)) := by
  constructor
  · rintro rfl; rfl
  · intro hx
    obtain ⟨c, hc, h1, h2⟩ := exists_lowest hx
    unfold calc1posWrap32
    rw [if_neg hx, and_neg_self hc h1 h2, countBit32_eq, popcount_twoPow_sub_one hc]
    exact ⟨31 - c, by omega, by omega, low_of_lowest hc h1 h2⟩

theorem calc1posWrap64_correct (x : BitVec 64) :
    (x = 0 → calc1posWrap64 x = -1) ∧ (x ≠ 0 → IsLastOne x (calc1posWrap64 x)) := by
  constructor
  · rintro rfl; rfl
  · intro hx
    obtain ⟨c, hc, h1, h2⟩ := exists_lowest hx
    unfold calc1posWrap64
    rw [if_neg hx, and_neg_self hc h1 h2, countBit64_eq, popcount_twoPow_sub_one hc]
    exact ⟨63 - c, by omega, by omega, low_of_lowest hc h1 h2⟩

/-- **C02** (32 bits): correct on every word except `0x80000000`, where the behaviour is undefined
(see `calc1pos32_undefined`). -/
theorem calc1pos32_correct (x : BitVec 32) :
    (x = 0 → calc1pos32 x = some (-1)) ∧
    (x ≠ 0 → x ≠ 0x80000000#32 → ∃ r, calc1pos32 x = some r ∧ IsLastOne x r) := by
  refine ⟨fun h => by rw [h]; rfl, fun h h' => ?_⟩
  refine ⟨calc1posWrap32 x, ?_, (calc1posWrap32_correct x).2 h⟩
  unfold calc1pos32 calc1posWrap32
  rw [if_neg h, if_neg h]
  exact if_neg h'

/-- **C02** (64 bits). -/
theorem calc1pos64_correct (x : BitVec 64) :
    (x = 0 → calc1pos64 x = some (-1)) ∧
    (x ≠ 0 → x ≠ 0x8000000000000000#64 → ∃ r, calc1pos64 x = some r ∧ IsLastOne x r) := by
  refine ⟨fun h => by rw [h]; rfl, fun h h' => ?_⟩
  refine ⟨calc1posWrap64 x, ?_, (calc1posWrap64_correct x).2 h⟩
  unfold calc1pos64 calc1posWrap64
  rw [if_neg h, if_neg h]
  exact if_neg h'

example : calc1pos32 0x00050000#32 = some 15 := by decide +kernel

/-- **C03.** The call is undefined on exactly one word of each of the two larger widths. -/
theorem calc1pos_undefined :
    (∀ x : BitVec 16, calc1pos16 x ≠ none) ∧
    (∀ x : BitVec 32, calc1pos32 x = none ↔ x = 0x80000000#32) ∧
    (∀ x : BitVec 64, calc1pos64 x = none ↔ x = 0x8000000000000000#64) := by
  refine ⟨fun x => ?_, fun x => ?_, fun x => ?_⟩
  · unfold calc1pos16; split <;> simp
  · unfold calc1pos32
    split
    · rename_i h; subst h; decide
    · split
      · rename_i h; simp only [true_iff]; exact h
      · rename_i h; simp only [reduceCtorEq, false_iff]; exact h
  · unfold calc1pos64
    split
    · rename_i h; subst h; decide
    · split
      · rename_i h; simp only [true_iff]; exact h
      · rename_i h; simp only [reduceCtorEq, false_iff]; exact h

theorem isCalc1pos_of {w : ℕ} {f : BitVec w → Int} (h : ∀ x, x ≠ 0 → IsLastOne x (f x)) :
    PIS.IsCalc1pos f := by
  intro u hu
  obtain ⟨i, h1, _, h2, h3⟩ := h u hu
  refine ⟨i, h1, ?_, fun j hj => ?_⟩
  · unfold PIS.bits; rw [h2]; rfl
  · unfold PIS.bits; rw [h3 j hj]; rfl

/-- With wrapping negation `calc_1pos` is what the equidistribution algorithms need. -/
theorem isCalc1pos_32 : PIS.IsCalc1pos calc1posWrap32 :=
  isCalc1pos_of fun x hx => (calc1posWrap32_correct x).2 hx

theorem isCalc1pos_64 : PIS.IsCalc1pos calc1posWrap64 :=
  isCalc1pos_of fun x hx => (calc1posWrap64_correct x).2 hx

/-! ## C04: `reverse_bit` -/

/-- **C04.** `reverse_bit` reverses the order of the bits, for every word; hence it is an involution. -/
theorem reverse_bit_correct :
    (∀ x : BitVec 32, reverseBit32 x = x.reverse ∧ reverseBit32 (reverseBit32 x) = x) ∧
    (∀ x : BitVec 64, reverseBit64 x = x.reverse ∧ reverseBit64 (reverseBit64 x) = x) := by
  constructor
  · intro x
    constructor
    · apply BitVec.eq_of_getLsbD_eq
      intro i hi
      rw [reverseBit32_spec x i hi, BitVec.getLsbD_reverse, BitVec.getMsbD_eq_getLsbD]
      simp [hi]
    · apply BitVec.eq_of_getLsbD_eq
      intro i hi
      rw [reverseBit32_spec _ i hi, reverseBit32_spec _ _ (by omega)]
      congr 1; omega
  · intro x
    constructor
    · apply BitVec.eq_of_getLsbD_eq
      intro i hi
      rw [reverseBit64_spec x i hi, BitVec.getLsbD_reverse, BitVec.getMsbD_eq_getLsbD]
      simp [hi]
    · apply BitVec.eq_of_getLsbD_eq
      intro i hi
      rw [reverseBit64_spec _ i hi, reverseBit64_spec _ _ (by omega)]
      congr 1; omega

example : reverseBit32 0x00000013#32 = 0xC8000000#32 := by decide +kernel

/-! ## C05: `floor2p` -/

/-- **C05.** For every `n ≥ 1` the recursion ends within `n` calls and returns the largest power of two
not exceeding `n`; for `n = 0` it never ends. -/
theorem floor2p_correct :
    (∀ n ≥ 1, ∀ fuel ≥ n, ∃ k, floor2p fuel n = some (2 ^ k) ∧ 2 ^ k ≤ n ∧ n < 2 ^ (k + 1)) ∧
    (∀ fuel, floor2p fuel 0 = none) := by
  constructor
  · intro n
    induction n using Nat.strong_induction_on with
    | _ n ih =>
      intro hn fuel hf
      obtain ⟨f, rfl⟩ : ∃ f, fuel = f + 1 := ⟨fuel - 1, by omega⟩
      rw [floor2p]
      by_cases h1 : n = 1
      · exact ⟨0, by rw [if_pos h1]; rfl, by omega, by omega⟩
      · rw [if_neg h1]
        obtain ⟨k, hk, h2, h3⟩ := ih (n / 2) (by omega) (by omega) f (by omega)
        refine ⟨k + 1, ?_, ?_, ?_⟩
        · rw [hk]; simp only []; rw [pow_succ]; congr 1; omega
        · rw [pow_succ]; omega
        · rw [pow_succ]; omega
  · intro fuel
    induction fuel with
    | zero => rfl
    | succ f ih => rw [floor2p, if_neg (by omega), ih]

example : floor2p 100 100 = some 64 := by decide +kernel

/-! ## C06: `get_range` -/

/-- **C06.** For `start ≤ end` with `end - start < 2^31-1` the result lies in the range, it is congruent
to the input modulo the size of the range (so every value of the range is obtained, from inputs
`0 .. end-start` one after the other). -/
theorem get_range_correct (start «end» : Int) (h : start ≤ «end») (h2 : «end» - start < 2147483647) :
    (∀ input, ∃ r, getRange input start «end» = .value r ∧ start ≤ r ∧ r ≤ «end» ∧
      («end» - start + 1) ∣ ((input : Int) - (r - start))) ∧
    (∀ r, start ≤ r → r ≤ «end» → getRange (r - start).toNat start «end» = .value r) := by
  constructor
  · intro input
    unfold getRange
    rw [if_neg (by omega), if_neg (by omega)]
    refine ⟨_, rfl, by omega, ?_, ?_⟩
    · have : input % («end» - start + 1).toNat < («end» - start + 1).toNat :=
        Nat.mod_lt _ (by omega)
      omega
    · have e : ((«end» - start + 1).toNat : Int) = «end» - start + 1 := by omega
      rw [add_sub_cancel_right, Int.natCast_mod, e]
      exact Int.dvd_self_sub_emod
  · intro r h3 h4
    unfold getRange
    rw [if_neg (by omega), if_neg (by omega), Nat.mod_eq_of_lt (by omega)]
    congr 1; omega

/-- **C06**: any `end - start + 1` consecutive inputs produce every value of the range exactly once. -/
theorem get_range_block (start «end» : Int) (h : start ≤ «end») (h2 : «end» - start < 2147483647)
    (base : ℕ) (r : Int) (h3 : start ≤ r) (h4 : r ≤ «end») :
    ∃! j : ℕ, (j : Int) < «end» - start + 1 ∧ getRange (base + j) start «end» = .value r := by
  have hval : ∀ x, getRange x start «end»
      = .value (((x % («end» - start + 1).toNat : Nat) : Int) + start) := by
    intro x; unfold getRange; rw [if_neg (by omega), if_neg (by omega)]
  simp only [hval]
  obtain ⟨n, hn⟩ : ∃ n : ℕ, («end» - start + 1).toNat = n := ⟨_, rfl⟩
  obtain ⟨q, hq⟩ : ∃ q : ℕ, (r - start).toNat = q := ⟨_, rfl⟩
  have hqn : q < n := by omega
  have hmod : base % n < n := Nat.mod_lt _ (by omega)
  have key : ∀ j < n, (base + j) % n = if base % n + j < n then base % n + j else base % n + j - n := by
    intro j hj
    rw [Nat.add_mod, Nat.mod_eq_of_lt hj]
    split
    · exact Nat.mod_eq_of_lt (by assumption)
    · rw [Nat.mod_eq_sub_mod (by omega)]; exact Nat.mod_eq_of_lt (by omega)
  rw [hn]
  refine ⟨if base % n ≤ q then q - base % n else q + n - base % n, ⟨?_, ?_⟩, ?_⟩
  · split <;> omega
  · have hj : (if base % n ≤ q then q - base % n else q + n - base % n) < n := by split <;> omega
    rw [key _ hj]
    congr 1
    split <;> split <;> omega
  · rintro j ⟨hj, hv⟩
    have hv' : (((base + j) % n : ℕ) : Int) + start = r := by
      simpa using hv
    rw [key j (by omega)] at hv'
    split at hv' <;> split <;> omega

/-- **C06**: outside these bounds there is no value: an empty range ends the process, and a range of
`2^31` or more values is undefined. -/
theorem get_range_no_value (input : ℕ) (start «end» : Int) :
    («end» < start → getRange input start «end» = .exits) ∧
    (2147483647 ≤ «end» - start → getRange input start «end» = .undefined) := by
  unfold getRange
  constructor
  · intro h; rw [if_pos h]
  · intro h; rw [if_neg (by omega), if_pos (by omega)]

example : getRange 0xFFFFFFFF 3 7 = .value 3 := by decide +kernel

/-! ## C07: `fill_table` -/

/-- Exclusive or of the table entries selected by the one bits of `i` (specification). -/
def selectXor {w : ℕ} (src : ℕ → BitVec w) (i : ℕ) : ℕ → BitVec w
  | 0 => 0
  | n + 1 => selectXor src i n ^^^ (if i.testBit n then src n else 0)

theorem foldl_selectXor {w : ℕ} (src : ℕ → BitVec w) (i n : ℕ) (acc : BitVec w) :
    (List.range' 0 n).foldl (fun a k => if i.testBit k then a ^^^ src k else a) acc
      = acc ^^^ selectXor src i n := by
  induction n with
  | zero => simp [selectXor]
  | succ n ih =>
    rw [List.range'_concat, List.foldl_append, ih, selectXor]
    simp only [List.foldl_cons, List.foldl_nil, Nat.zero_add, Nat.one_mul]
    split
    · rw [BitVec.xor_assoc]
    · simp

/-- **C07.** After `fill_table`, entry `i` of the table has been XORed with the exclusive or of all
`src[k]` for which bit `k` of `i` is set, for every `i < size`; nothing else changes. -/
theorem fill_table_correct {w : ℕ} (dist src : ℕ → BitVec w) (size : ℕ) (hs : size ≤ 2 ^ 30) (i : ℕ) :
    fillTable dist src size i = if i < size then dist i ^^^ selectXor src i 31 else dist i := by
  unfold fillTable
  rw [fillOuter_spec]
  by_cases h0 : i = 0
  · subst h0
    rw [if_neg (by omega)]
    have : ∀ n, selectXor src 0 n = 0 := by
      intro n; induction n with
      | zero => rfl
      | succ n ih => rw [selectXor, ih]; simp
    rw [this]; simp
  · by_cases h : i < size
    · rw [if_pos (by omega), if_pos h]
      have := fillLoop_spec src i 31 0 (dist i) (by
        have : (2 : ℕ) ^ 30 ≤ 2 ^ (0 + 31) := by norm_num
        omega)
      rw [pow_zero] at this
      rw [this, foldl_selectXor]
    · rw [if_neg (by omega), if_neg h]

/-- **C07**: a table filled from zero is linear in the index. -/
theorem fill_table_linear {w : ℕ} (src : ℕ → BitVec w) (size : ℕ) (hs : size ≤ 2 ^ 30) (i j : ℕ)
    (hi : i < size) (hj : j < size) (hij : i ^^^ j < size) :
    fillTable (fun _ => 0) src size (i ^^^ j)
      = fillTable (fun _ => 0) src size i ^^^ fillTable (fun _ => 0) src size j := by
  rw [fill_table_correct _ _ _ hs, fill_table_correct _ _ _ hs, fill_table_correct _ _ _ hs, if_pos hi,
    if_pos hj, if_pos hij]
  have hz : ∀ x : BitVec w, 0 ^^^ x = x := fun x => BitVec.zero_xor
  rw [hz, hz, hz]
  have : ∀ n, selectXor src (i ^^^ j) n = selectXor src i n ^^^ selectXor src j n := by
    intro n
    induction n with
    | zero => simp [selectXor]
    | succ n ih =>
      rw [selectXor, selectXor, selectXor, ih, Nat.testBit_xor]
      generalize selectXor src i n = p
      generalize selectXor src j n = q
      generalize src n = r
      apply BitVec.eq_of_getLsbD_eq
      intro l _
      cases i.testBit n <;> cases j.testBit n <;>
        simp only [Bool.xor_false, Bool.xor_true, Bool.not_false, Bool.not_true, if_true, Bool.false_eq_true,
          if_false, BitVec.getLsbD_xor, BitVec.ofNat_eq_ofNat, BitVec.getLsbD_zero] <;>
        cases p.getLsbD l <;> cases q.getLsbD l <;> cases r.getLsbD l <;> rfl
  exact this 31

/-- **C07**: the result for index `i` depends only on `src[k]` with `2^k ≤ i`. -/
theorem fill_table_reads {w : ℕ} (dist src src' : ℕ → BitVec w) (size : ℕ) (hs : size ≤ 2 ^ 30) (i : ℕ)
    (h : ∀ k, 2 ^ k ≤ i → src k = src' k) : fillTable dist src size i = fillTable dist src' size i := by
  rw [fill_table_correct _ _ _ hs, fill_table_correct _ _ _ hs]
  have : ∀ n, selectXor src i n = selectXor src' i n := by
    intro n
    induction n with
    | zero => rfl
    | succ n ih =>
      rw [selectXor, selectXor, ih]
      by_cases hb : i.testBit n = true
      · rw [if_pos hb, if_pos hb, h n (Nat.ge_two_pow_of_testBit hb)]
      · rw [if_neg hb, if_neg hb]
  rw [this]

example : fillTable (fun _ => 0#8) (fun k => BitVec.ofNat 8 (10 + k)) 16 5 = 10#8 ^^^ 12#8 := by
  decide +kernel

/-! ## C08, C09, C10: bits and GF(2) vectors -/

theorem _root_.Nat.testBit_one_eq_decide (i : ℕ) : Nat.testBit 1 i = decide (i = 0) := by
  rw [Bool.eq_iff_iff, Nat.testBit_one_eq_true_iff_self_eq_zero]; simp

theorem setBit_getLsbD {w : ℕ} (bits : BitVec w) (pos : ℕ) (hp : pos < w) (b : ℕ) (hb : b ≤ 1) (i : ℕ)
    (hi : i < w) :
    ((bits &&& ~~~(1#w <<< pos)) ||| (BitVec.ofNat w b <<< pos)).getLsbD i
      = if i = pos then decide (b = 1) else bits.getLsbD i := by
  have h1 : ∀ c ≤ 1, (BitVec.ofNat w c).getLsbD (i - pos) = (decide (i - pos = 0) && decide (c = 1)) := by
    intro c hc
    have : i - pos < w := by omega
    rw [BitVec.getLsbD_ofNat]
    interval_cases c
    · simp
    · rw [Nat.testBit_one_eq_decide]; simp [this]
  simp only [BitVec.getLsbD_or, BitVec.getLsbD_and, BitVec.getLsbD_not, BitVec.getLsbD_shiftLeft, hi,
    decide_true, Bool.true_and]
  rw [h1 b hb, h1 1 le_rfl]
  by_cases h : i = pos
  · subst h; simp
  · rw [if_neg h]
    by_cases h2 : i < pos
    · simp [h2]
    · have : ¬ i - pos = 0 := by omega
      simp [this]

/-- **C10.** Inside the word, `setBitOfPos` sets exactly the addressed bit to `b & 1` and leaves the
others alone, and `getBitOfPos` reads the addressed bit.  Outside, both are undefined. -/
theorem bitOfPos_correct {w : ℕ} (bits : BitVec w) (b : ℕ) (pos : Int) :
    (∀ p : ℕ, pos = p → p < w →
      (∃ r, setBitOfPos bits pos b = some r ∧
        ∀ i < w, r.getLsbD i = if i = p then decide (b % 2 = 1) else bits.getLsbD i) ∧
      getBitOfPos bits pos = some (bits.getLsbD p).toNat) ∧
    (pos < 0 ∨ (w : Int) ≤ pos → setBitOfPos bits pos b = none ∧ getBitOfPos bits pos = none) := by
  constructor
  · rintro p rfl hp
    unfold setBitOfPos getBitOfPos
    rw [if_pos ⟨by omega, by omega⟩, if_pos ⟨by omega, by omega⟩]
    constructor
    · refine ⟨_, rfl, fun i hi => ?_⟩
      have hb : b &&& 1 = b % 2 := Nat.and_two_pow_sub_one_eq_mod b 1
      rw [hb, Int.toNat_natCast, setBit_getLsbD bits p hp _ (by omega) i hi]
    · rw [Int.toNat_natCast]
      congr 1
      have hw : (1#w).toNat = 1 := by
        rw [BitVec.toNat_ofNat, Nat.mod_eq_of_lt (Nat.one_lt_two_pow (by omega))]
      rw [BitVec.toNat_and, hw, BitVec.toNat_ushiftRight, Nat.and_two_pow_sub_one_eq_mod _ 1,
        BitVec.getLsbD, testBit_div, Nat.shiftRight_eq_div_pow]
  · intro h
    unfold setBitOfPos getBitOfPos
    rw [if_neg (by omega), if_neg (by omega)]
    exact ⟨rfl, rfl⟩

example : setBitOfPos 0x00#8 5 3 = some 0x20#8 := by decide +kernel

theorem toLoop_spec {w : ℕ} (value : BitVec w) (n : ℕ) :
    n ≤ w → toLoop value n (1#w <<< (n - 1)) = (List.range n).map fun i => value.getLsbD (n - 1 - i) := by
  induction n with
  | zero => intro _; rfl
  | succ n ih =>
    intro hn
    rw [toLoop, List.range_succ_eq_map, List.map_cons, List.map_map]
    have hm : ∀ m < w, (value &&& 1#w <<< m != 0) = value.getLsbD m := by
      intro m hm
      have : 1#w <<< m = BitVec.twoPow w m := (BitVec.twoPow_eq w m).symm
      rw [this, BitVec.and_twoPow]
      cases value.getLsbD m
      · simp
      · have : BitVec.twoPow w m ≠ 0#w := by
          intro h0
          have := congrArg (fun x => x.getLsbD m) h0
          simp [hm] at this
        simp [this]
    congr 1
    · rw [hm _ (by omega)]; simp
    · cases n with
      | zero => rfl
      | succ n =>
        have : (1#w <<< (n + 1 + 1 - 1)) >>> 1 = 1#w <<< (n + 1 - 1) := by
          apply BitVec.eq_of_getLsbD_eq
          intro i hi
          rw [BitVec.getLsbD_ushiftRight, ← BitVec.twoPow_eq, ← BitVec.twoPow_eq,
            BitVec.getLsbD_twoPow, BitVec.getLsbD_twoPow]
          have h1 : n + 1 < w := by omega
          have h2 : n < w := by omega
          by_cases h3 : n = i
          · subst h3; simp [h1, h2, add_comm]
          · have : ¬ n + 1 = 1 + i := by omega
            simp [h3, this]
        rw [this, ih (by omega)]
        apply List.map_congr_left
        intro a ha
        simp only [Function.comp]
        congr 1; omega

/-- **C08.** `toGF2Vec` lists the bits of a word from the most significant to the least. -/
theorem toGF2Vec_correct {w : ℕ} (value : BitVec w) :
    toGF2Vec value = (List.range w).map fun i => value.getMsbD i := by
  unfold toGF2Vec
  rw [toLoop_spec value w le_rfl]
  apply List.map_congr_left
  intro i hi
  rw [BitVec.getMsbD_eq_getLsbD]
  have := List.mem_range.1 hi
  simp [this]

theorem fromLoop_spec {w : ℕ} (junk : BitVec w) (l : List Bool) :
    ∀ (n : ℕ) (mask result : BitVec w), l.length = n → n ≤ w →
      (1 ≤ n → mask = BitVec.twoPow w (n - 1)) →
      ∀ i < w, (fromLoopJunk junk l ((n : Int) - 1) mask result).getLsbD i
        = (result.getLsbD i || (decide (i < n) && l.getD (n - 1 - i) false)) := by
  induction l with
  | nil =>
    intro n mask result hl _ _ i hi
    simp at hl; subst hl
    simp [fromLoopJunk]
  | cons b l ih =>
    intro n mask result hl hn hmask i hi
    obtain ⟨m, rfl⟩ : ∃ m, n = m + 1 := ⟨n - 1, by simp at hl; omega⟩
    have hlen : l.length = m := by simpa using hl
    rw [fromLoopJunk]
    have hpos : ((m + 1 : ℕ) : Int) - 1 - 1 = (m : Int) - 1 := by push_cast; ring
    simp only [hpos]
    rw [ih m _ _ hlen (by omega) (by
      intro hm
      have := (bitOfPos_correct (0 : BitVec w) 1 ((m : Int) - 1)).1 (m - 1) (by omega) (by omega)
      obtain ⟨⟨r, hr, hr2⟩, _⟩ := this
      rw [hr]
      apply BitVec.eq_of_getLsbD_eq
      intro j hj
      show r.getLsbD j = _
      rw [hr2 j hj, BitVec.getLsbD_twoPow]
      by_cases h : j = m - 1
      · subst h; simp [hj]
      · rw [if_neg h]
        have : ¬ m - 1 = j := by omega
        simp [this]) i hi]
    have hres : (if b = true then result ||| mask else result).getLsbD i
        = (result.getLsbD i || (b && decide (i = m))) := by
      rw [hmask (by omega)]
      cases b
      · simp
      · simp only [if_true, BitVec.getLsbD_or, BitVec.getLsbD_twoPow, Nat.add_sub_cancel]
        by_cases h : i = m
        · subst h; simp [hi]
        · have : ¬ m = i := by omega
          simp [h, this]
    rw [hres]
    rcases lt_trichotomy i m with h | h | h
    · have e1 : m + 1 - 1 - i = (m - 1 - i) + 1 := by omega
      have e2 : i < m + 1 := by omega
      have e3 : ¬ i = m := by omega
      rw [e1, List.getD_cons_succ]
      simp [h, e2, e3]
    · subst h
      simp
    · have e1 : ¬ i < m := by omega
      have e2 : ¬ i < m + 1 := by omega
      have e3 : ¬ i = m := by omega
      simp [e1, e2, e3]

/-- **C08.** If the undefined shift of `fromGF2Vec` has no other effect than giving an unspecified mask
`junk`, then for every word, of every width, `fromGF2Vec` inverts `toGF2Vec`, whatever `junk` is. -/
theorem gf2vec_round_trip_partial {w : ℕ} (junk value : BitVec w) :
    fromGF2VecJunk junk (toGF2Vec value) = value := by
  rcases Nat.eq_zero_or_pos w with h0 | hw
  · subst h0; exact Subsingleton.elim _ _
  apply BitVec.eq_of_getLsbD_eq
  intro i hi
  unfold fromGF2VecJunk
  rw [toGF2Vec_correct, fromLoop_spec junk _ w _ _ (by simp) le_rfl (by
    intro _
    have := (bitOfPos_correct (0 : BitVec w) 1 ((w : Int) - 1)).1 (w - 1) (by omega) (by omega)
    obtain ⟨⟨r, hr, hr2⟩, _⟩ := this
    rw [hr]
    apply BitVec.eq_of_getLsbD_eq
    intro j hj
    show r.getLsbD j = _
    rw [hr2 j hj, BitVec.getLsbD_twoPow]
    by_cases h : j = w - 1
    · subst h; simp [hj]
    · rw [if_neg h]
      have : ¬ w - 1 = j := by omega
      simp [this]) i hi]
  have : w - 1 - i < w := by omega
  rw [List.getD_eq_getElem _ _ (by simpa using this)]
  simp only [List.getElem_map, List.getElem_range, BitVec.getMsbD_eq_getLsbD]
  have e : w - 1 - (w - 1 - i) = i := by omega
  simp [hi, this, e]

/-- **C08**, the other direction: every vector of `w` bits is recovered. -/
theorem gf2vec_round_trip'_partial {w : ℕ} (junk : BitVec w) (l : List Bool) (hl : l.length = w) :
    toGF2Vec (fromGF2VecJunk junk l) = l := by
  -- `toGF2Vec` is injective with `2^w` values, but it is as easy to compute
  rcases Nat.eq_zero_or_pos w with h0 | hw
  · subst h0
    have : l = [] := List.eq_nil_of_length_eq_zero hl
    subst this; rfl
  have hbits : ∀ i < w, (fromGF2VecJunk junk l).getLsbD i = l.getD (w - 1 - i) false := by
    intro i hi
    unfold fromGF2VecJunk
    rw [fromLoop_spec junk _ w _ _ hl le_rfl (by
      intro _
      have := (bitOfPos_correct (0 : BitVec w) 1 ((w : Int) - 1)).1 (w - 1) (by omega) (by omega)
      obtain ⟨⟨r, hr, hr2⟩, _⟩ := this
      rw [hr]
      apply BitVec.eq_of_getLsbD_eq
      intro j hj
      show r.getLsbD j = _
      rw [hr2 j hj, BitVec.getLsbD_twoPow]
      by_cases h : j = w - 1
      · subst h; simp [hj]
      · rw [if_neg h]
        have : ¬ w - 1 = j := by omega
        simp [this]) i hi]
    simp [hi]
  rw [toGF2Vec_correct]
  apply List.ext_getElem (by simp [hl])
  intro i h1 h2
  rw [List.getElem_map, List.getElem_range, BitVec.getMsbD_eq_getLsbD]
  have hi : i < w := by omega
  rw [hbits _ (by omega)]
  have e : w - 1 - (w - 1 - i) = i := by omega
  rw [e, List.getD_eq_getElem _ _ h2]
  simp [hi]

/-- **C09.** As written, every call of `fromGF2Vec` with a vector of `w ≥ 1` bits executes an undefined
shift (by `-1`): the call has no defined result. -/
theorem fromGF2Vec_undefined {w : ℕ} (value : List Bool) (hl : value.length = w) (hw : 1 ≤ w) :
    fromGF2Vec (w := w) value = none := by
  have key : ∀ (l : List Bool) (mask result : BitVec w), 1 ≤ l.length →
      fromLoop l ((l.length : Int) - 1) mask result = none := by
    intro l
    induction l with
    | nil => intro _ _ h; simp at h
    | cons b l ih =>
      intro mask result _
      rw [fromLoop]
      have e : (((b :: l).length : Int) - 1 - 1) = (l.length : Int) - 1 := by
        rw [List.length_cons]; push_cast; ring
      simp only [e]
      cases hs : setBitOfPos (0 : BitVec w) ((l.length : Int) - 1) 1 with
      | none => rfl
      | some m =>
        simp only []
        by_cases hl : 1 ≤ l.length
        · exact ih _ _ hl
        · exfalso
          have h0 : l.length = 0 := by omega
          rw [h0] at hs
          unfold setBitOfPos at hs
          rw [if_neg (by omega)] at hs
          exact absurd hs (by simp)
  unfold fromGF2Vec
  split
  · rfl
  · have := key value (by assumption) 0 (by omega)
    rwa [hl] at this

example : toGF2Vec 0xA5#8 = [true, false, true, false, false, true, false, true] := by decide +kernel
example : fromGF2Vec (w := 8) (toGF2Vec 0xA5#8) = none ∧
    fromGF2VecJunk 0xFF#8 (toGF2Vec 0xA5#8) = 0xA5#8 := by decide +kernel

end MTT.Util
