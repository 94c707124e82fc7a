import Verif.SIMD.Model
import Verif.Samples.W128Props
import Verif.Util.Lemmas2

/-!
# The word made by `get_next`
-/

namespace MTT.SIMD

open W128 PIS

theorem top_and {L o : ℕ} (hL : o < L) (lane top : BitVec L) (ht : ∀ i, top.getLsbD i = decide (i = L - 1 - o)) {a : ℕ}
    (ha : o + a < L) : (lane &&& (top >>> a) ≠ 0) ↔ lane.getMsbD (o + a) = true := by
  have hb : ∀ i, (lane &&& (top >>> a)).getLsbD i = (lane.getLsbD i && decide (i = L - 1 - (o + a))) := by
    intro i
    rw [BitVec.getLsbD_and, BitVec.getLsbD_ushiftRight, ht]
    congr 2
    rw [eq_iff_iff]; omega
  rw [BitVec.getMsbD_eq_getLsbD, decide_eq_true ha, Bool.true_and]
  constructor
  · intro h
    by_contra hc
    apply h
    apply BitVec.eq_of_getLsbD_eq
    intro i hi
    rw [hb, show (0 : BitVec L).getLsbD i = false from BitVec.getLsbD_zero]
    by_cases h2 : i = L - 1 - (o + a)
    · rw [h2, Bool.and_eq_false_iff]; left; simpa using hc
    · simp [h2]
  · intro h h0
    have := hb (L - 1 - (o + a))
    rw [h0, h, show (0 : BitVec L).getLsbD _ = false from BitVec.getLsbD_zero] at this
    simp at this

theorem packInner_spec {L o : ℕ} (hL : o < L) (lane top : BitVec L) (ht : ∀ i, top.getLsbD i = decide (i = L - 1 - o)) :
    ∀ (j a k : ℕ) (next : W128), o + a + j ≤ L → j ≤ k → k ≤ 128 →
      (packInner lane j (top >>> a) (next, (k : ℤ) - 1)).2 = ((k - j : ℕ) : ℤ) - 1 ∧
      ∀ p, p < 128 → (packInner lane j (top >>> a) (next, (k : ℤ) - 1)).1.getLsbD p =
        if k - j ≤ p ∧ p < k then lane.getMsbD (o + a + (k - 1 - p)) else next.getLsbD p := by
  intro j
  induction j with
  | zero =>
    intro a k next _ _ _
    refine ⟨rfl, fun p hp => ?_⟩
    rw [if_neg (by omega)]
    rfl
  | succ j ih =>
    intro a k next h1 h2 h3
    obtain ⟨k, rfl⟩ : ∃ k', k = k' + 1 := ⟨k - 1, by omega⟩
    have hk : ((k + 1 : ℕ) : ℤ) - 1 = (k : ℤ) := by omega
    have hstep : ∃ y : W128, packInner lane (j + 1) (top >>> a) (next, ((k + 1 : ℕ) : ℤ) - 1) =
        packInner lane j (top >>> (a + 1)) (y, (k : ℤ) - 1) ∧
        ∀ i, i < 128 → y.getLsbD i = if i = k then lane.getMsbD (o + a) else next.getLsbD i := by
      show ∃ y : W128, packInner lane j ((top >>> a) >>> 1) _ = _ ∧ _
      rw [hk, BitVec.shiftRight_add]
      by_cases hc : lane &&& (top >>> a) ≠ 0
      · obtain ⟨y, e1, e2⟩ := (setBitOfPos_correct next k 1).1 k rfl (by omega)
        refine ⟨y, ?_, fun i hi => ?_⟩
        · rw [if_pos hc, e1]; rfl
        · rw [e2 i hi, (top_and hL lane top ht (by omega)).1 hc]; rfl
      · obtain ⟨y, e1, e2⟩ := (setBitOfPos_correct next k 0).1 k rfl (by omega)
        refine ⟨y, ?_, fun i hi => ?_⟩
        · rw [if_neg hc, e1]; rfl
        · rw [e2 i hi]
          have : lane.getMsbD (o + a) = false := by
            rw [← Bool.not_eq_true]
            exact fun h => hc ((top_and hL lane top ht (by omega)).2 h)
          rw [this]; rfl
    obtain ⟨y, e1, e2⟩ := hstep
    rw [e1]
    obtain ⟨i1, i2⟩ := ih (a + 1) k y (by omega) (by omega) (by omega)
    refine ⟨by rw [i1]; congr 2; omega, fun p hp => ?_⟩
    rw [i2 p hp, e2 p hp]
    by_cases c1 : p = k
    · subst c1
      rw [if_neg (by omega), if_pos rfl, if_pos (by omega)]
      congr 1; omega
    · rw [if_neg c1]
      by_cases c2 : k - j ≤ p ∧ p < k
      · rw [if_pos c2, if_pos (by omega)]; congr 1; omega
      · rw [if_neg c2, if_neg (by omega)]

theorem packOuter_spec {L o : ℕ} (hL : o < L) (lane : ℕ → BitVec L) (top : BitVec L)
    (ht : ∀ i, top.getLsbD i = decide (i = L - 1 - o)) {el v : ℕ} (h0 : 0 < v) (hv : o + v ≤ L) (hel : el * v ≤ 128) (p : ℕ) :
    bits (packOuter lane top el v ((128 : ℤ) - 1)) p = if p < el * v then bits (lane (p / v)) (o + p % v) else 0 := by
  have key : ∀ e, e * v ≤ 128 →
      ((List.range e).foldl (fun r i => packInner (lane i) v top r) (mk64 0 0, (128 : ℤ) - 1)).2 =
        ((128 - e * v : ℕ) : ℤ) - 1 ∧
      ∀ q, q < 128 → ((List.range e).foldl (fun r i => packInner (lane i) v top r) (mk64 0 0, (128 : ℤ) - 1)).1.getLsbD q =
        if 128 - e * v ≤ q then (lane ((127 - q) / v)).getMsbD (o + (127 - q) % v) else false := by
    intro e
    induction e with
    | zero =>
      intro _
      refine ⟨by simp, fun q hq => ?_⟩
      rw [if_neg (by omega)]
      show (mk64 0 0).getLsbD q = false
      rw [mk64_zero]; exact BitVec.getLsbD_zero
    | succ e ih =>
      intro he
      have he' : e * v + v = (e + 1) * v := by ring
      obtain ⟨i1, i2⟩ := ih (by omega)
      rw [List.range_succ, List.foldl_append]
      generalize (List.range e).foldl (fun r i => packInner (lane i) v top r) (mk64 0 0, (128 : ℤ) - 1) = R at i1 i2
      obtain ⟨nx, kk⟩ := R
      dsimp only at i1 i2
      subst i1
      show (packInner (lane e) v top _).2 = _ ∧ ∀ q, q < 128 → (packInner (lane e) v top _).1.getLsbD q = _
      have := packInner_spec hL (lane e) top ht v 0 (128 - e * v) nx (by omega) (by omega) (by omega)
      rw [show top >>> 0 = top from BitVec.ushiftRight_zero _] at this
      refine ⟨by rw [this.1]; congr 2; omega, fun q hq => ?_⟩
      rw [this.2 q hq, i2 q hq]
      by_cases c1 : 128 - e * v ≤ q
      · rw [if_neg (by omega), if_pos c1, if_pos (by omega)]
      · rw [if_neg c1]
        by_cases c2 : 128 - (e + 1) * v ≤ q
        · rw [if_pos (by omega), if_pos c2]
          have h1 : 127 - q = v * e + (128 - e * v - 1 - q) := by rw [Nat.mul_comm]; omega
          rw [h1, Nat.mul_add_div h0, Nat.mul_add_mod, Nat.div_eq_of_lt (by omega), Nat.mod_eq_of_lt (by omega)]
          simp
        · rw [if_neg (by omega), if_neg c2]
  obtain ⟨-, k2⟩ := key el hel
  unfold bits
  unfold packOuter
  rw [BitVec.getMsbD_eq_getLsbD]
  by_cases hp : p < el * v
  · rw [if_pos hp, decide_eq_true (by omega), Bool.true_and, k2 _ (by omega),
      if_pos (show 128 - el * v ≤ 128 - 1 - p by omega), show 127 - (128 - 1 - p) = p by omega]
  · rw [if_neg hp]
    by_cases h1 : p < 128
    · rw [decide_eq_true h1, Bool.true_and, k2 _ (by omega),
        if_neg (show ¬ 128 - el * v ≤ 128 - 1 - p by omega)]; rfl
    · rw [decide_eq_false h1]; rfl

theorem bits_u (w : W128) (i b : ℕ) (hi : i < 4) (hb : b < 32) : bits (u w i) b = bits w ((4 - 1 - i) * 32 + b) := by
  unfold bits
  rw [BitVec.getMsbD_eq_getLsbD, BitVec.getMsbD_eq_getLsbD, u_bit, decide_eq_true hb, decide_eq_true (by omega),
    decide_eq_true (by omega), show 32 * i + (32 - 1 - b) = 128 - 1 - ((4 - 1 - i) * 32 + b) by omega]
  rfl

theorem bits_u64 (w : W128) (i b : ℕ) (hi : i < 2) (hb : b < 64) :
    bits (u64 w i) b = bits w ((2 - 1 - i) * 64 + b) := by
  unfold bits
  rw [BitVec.getMsbD_eq_getLsbD, BitVec.getMsbD_eq_getLsbD, u64_bit, decide_eq_true hb, decide_eq_true (by omega),
    decide_eq_true (by omega), show 64 * i + (64 - 1 - b) = 128 - 1 - ((2 - 1 - i) * 64 + b) by omega]
  rfl

theorem bits_rev32 (x : BitVec 32) (b : ℕ) (hb : b < 32) : bits (Util.reverseBit32 x) b = bits x (31 - b) := by
  unfold bits
  rw [BitVec.getMsbD_eq_getLsbD, BitVec.getMsbD_eq_getLsbD, decide_eq_true hb, decide_eq_true (by omega),
    Util.reverseBit32_spec _ _ (by omega), show 31 - (32 - 1 - b) = 32 - 1 - (31 - b) by omega]

theorem bits_rev64 (x : BitVec 64) (b : ℕ) (hb : b < 64) : bits (Util.reverseBit64 x) b = bits x (63 - b) := by
  unfold bits
  rw [BitVec.getMsbD_eq_getLsbD, BitVec.getMsbD_eq_getLsbD, decide_eq_true hb, decide_eq_true (by omega),
    Util.reverseBit64_spec _ _ (by omega), show 63 - (64 - 1 - b) = 64 - 1 - (63 - b) by omega]

theorem u_mk32 (a b c d : BitVec 32) : u (mk32 a b c d) 0 = a ∧ u (mk32 a b c d) 1 = b ∧ u (mk32 a b c d) 2 = c ∧
    u (mk32 a b c d) 3 = d := by
  refine ⟨?_, ?_, ?_, ?_⟩ <;>
  · apply BitVec.eq_of_getLsbD_eq
    intro i hi
    rw [u_bit, mk32_bit, decide_eq_true hi, Bool.true_and]
    repeat first
      | rw [if_pos (by omega)]
      | rw [if_neg (by omega)]
    try (congr 1; omega)

/-- Bit `b` of a lane, in the reversed order if `lsb`. -/
def pick (L : ℕ) (lsb : Bool) (b : ℕ) : ℕ := if lsb then L - 1 - b else b

/-- The three instances: `E` lanes that carry words of `L` bits, `q` units of the mode numbers per lane; `pos i c` is
the place of bit `c` of lane `i` in the block. -/
inductive Layout : Alg → Bool → ℕ → ℕ → ℕ → (ℕ → ℕ → ℕ) → Prop
  | w32 (lsb : Bool) : Layout (simdAlg info32 lsb) lsb 32 4 1 fun i c => (4 - 1 - i) * 32 + c
  | w64 (lsb : Bool) : Layout (simdAlg info64 lsb) lsb 64 2 2 fun i c => (2 - 1 - i) * 64 + c
  | d52 : Layout (dsfmtAlg dinfo) false 52 2 1 fun i c => (2 - 1 - i) * 64 + (12 + c)

/-- `get_next` puts the `v` first bits of the lanes one after the other. -/
theorem pack_bits {A : Alg} {lsb : Bool} {L E q : ℕ} {pos : ℕ → ℕ → ℕ} (h : Layout A lsb L E q pos) {v : ℕ}
    (h0 : 0 < v) (hv : v ≤ L) (w : W128) (p : ℕ) : bits (A.pack v w) p =
      if p < E * v then bits w (pos (p / v) (pick L lsb (p % v))) else 0 := by
  rcases h with lsb | lsb | -
  · show bits (pack info32 lsb v w) p = _
    have ht : ∀ i, (0x80000000 : BitVec 32).getLsbD i = decide (i = 32 - 1 - 0) := by
      intro i
      by_cases hi : i < 32
      · revert i; decide
      · rw [BitVec.getLsbD_of_ge _ _ (by omega), decide_eq_false (by omega)]
    unfold pack
    rw [if_pos (show info32.bitMode = 32 from rfl)]
    dsimp only
    show bits (packOuter _ _ 4 v ((128 : ℤ) - 1)) p = _
    rw [packOuter_spec (by decide) _ _ ht h0 (by omega) (by omega), Nat.zero_add]
    by_cases hp : p < 4 * v
    · rw [if_pos hp, if_pos hp]
      have h1 : p / v < 4 := by rw [Nat.div_lt_iff_lt_mul h0]; omega
      have h2 : p % v < 32 := lt_of_lt_of_le (Nat.mod_lt _ h0) hv
      generalize p / v = i at h1 ⊢
      generalize p % v = b at h2 ⊢
      unfold pick
      cases lsb
      · exact bits_u w i b h1 h2
      · have hm := u_mk32 (Util.reverseBit32 (u w 0)) (Util.reverseBit32 (u w 1)) (Util.reverseBit32 (u w 2))
          (Util.reverseBit32 (u w 3))
        have : u (mk32 (Util.reverseBit32 (u w 0)) (Util.reverseBit32 (u w 1)) (Util.reverseBit32 (u w 2))
          (Util.reverseBit32 (u w 3))) i = Util.reverseBit32 (u w i) := by
          obtain ⟨m0, m1, m2, m3⟩ := hm
          have : i = 0 ∨ i = 1 ∨ i = 2 ∨ i = 3 := by omega
          rcases this with rfl | rfl | rfl | rfl
          exacts [m0, m1, m2, m3]
        rw [if_pos rfl, if_pos rfl, this, bits_rev32 _ _ h2, bits_u _ _ _ h1 (by omega)]
    · rw [if_neg hp, if_neg hp]
  · show bits (pack info64 lsb v w) p = _
    have ht : ∀ i, (0x8000000000000000 : BitVec 64).getLsbD i = decide (i = 64 - 1 - 0) := by
      intro i
      by_cases hi : i < 64
      · revert i; decide
      · rw [BitVec.getLsbD_of_ge _ _ (by omega), decide_eq_false (by omega)]
    unfold pack
    rw [if_neg (by decide)]
    dsimp only
    show bits (packOuter _ _ 2 v ((128 : ℤ) - 1)) p = _
    rw [packOuter_spec (by decide) _ _ ht h0 (by omega) (by omega), Nat.zero_add]
    by_cases hp : p < 2 * v
    · rw [if_pos hp, if_pos hp]
      have h1 : p / v < 2 := by rw [Nat.div_lt_iff_lt_mul h0]; omega
      have h2 : p % v < 64 := lt_of_lt_of_le (Nat.mod_lt _ h0) hv
      generalize p / v = i at h1 ⊢
      generalize p % v = b at h2 ⊢
      unfold pick
      cases lsb
      · exact bits_u64 w i b h1 h2
      · have hm := u64_mk64 (Util.reverseBit64 (u64 w 0)) (Util.reverseBit64 (u64 w 1))
        have : u64 (mk64 (Util.reverseBit64 (u64 w 0)) (Util.reverseBit64 (u64 w 1))) i = Util.reverseBit64 (u64 w i) := by
          have : i = 0 ∨ i = 1 := by omega
          rcases this with rfl | rfl
          exacts [hm.1, hm.2]
        rw [if_pos rfl, if_pos rfl, this, bits_rev64 _ _ h2, bits_u64 _ _ _ h1 (by omega)]
    · rw [if_neg hp, if_neg hp]
  · show bits (packD dinfo v w) p = _
    have ht : ∀ i, (0x0008000000000000 : BitVec 64).getLsbD i = decide (i = 64 - 1 - 12) := by
      intro i
      by_cases hi : i < 64
      · revert i; decide
      · rw [BitVec.getLsbD_of_ge _ _ (by omega), decide_eq_false (by omega)]
    unfold packD
    show bits (packOuter _ _ 2 v ((128 : ℤ) - 1)) p = _
    rw [packOuter_spec (by decide) _ _ ht h0 (by omega) (by omega)]
    by_cases hp : p < 2 * v
    · rw [if_pos hp, if_pos hp]
      have h1 : p / v < 2 := by rw [Nat.div_lt_iff_lt_mul h0]; omega
      have h2 : p % v < 52 := lt_of_lt_of_le (Nat.mod_lt _ h0) hv
      exact bits_u64 w _ _ h1 (by omega)
    · rw [if_neg hp, if_neg hp]

end MTT.SIMD
