import Verif.MT.Reference
import Verif.GF2.Engine

/-!
# MT19937 with numbers that the kernel computes
-/

namespace MTT.Tests

open GF2

/-- The seeded words. -/
def seedN : ℕ → ℕ → ℕ → List ℕ
  | 0, _, _ => []
  | n + 1, i, a => force a fun a => a :: seedN n (i + 1) ((1812433253 * (a ^^^ (a >>> 30)) + (i + 1)) % 4294967296)

/-- A new word. -/
def twistN (a b c : ℕ) : ℕ := c ^^^ ((((a &&& 0x80000000) ||| (b &&& 0x7fffffff)) >>> 1) ^^^ (Nat.rec 0 (fun _ _ => 0x9908b0df) (b % 2)))

/-- Tempering. -/
def temperN (y : ℕ) : ℕ :=
  force (y ^^^ (y >>> 11)) fun y =>
  force (y ^^^ (((y <<< 7) % 4294967296) &&& 0x9d2c5680)) fun y =>
  force (y ^^^ (((y <<< 15) % 4294967296) &&& 0xefc60000)) fun y => y ^^^ (y >>> 18)

/-- The outputs; the first list starts at the word `k`, the second at the word `k + 397`. -/
def outN : ℕ → List ℕ → List ℕ → List ℕ
  | n + 1, a :: b :: as, c :: cs => force (temperN (twistN a b c)) fun y => y :: outN n (b :: as) cs
  | _, _, _ => []

theorem seedN_spec (v : BitVec 32) (n : ℕ) : ∀ i a, a = (MTRef.seed32 v i).toNat →
    ∀ j < n, (seedN n i a)[j]? = some (MTRef.seed32 v (i + j)).toNat := by
  induction n with
  | zero => intro i a _ j hj; omega
  | succ n ih =>
    intro i a ha j hj
    rw [seedN, force_eq]
    cases j with
    | zero => rw [List.getElem?_cons_zero, ha]; rfl
    | succ j =>
      rw [List.getElem?_cons_succ, ih (i + 1) _ ?_ j (by omega), show i + 1 + j = i + (j + 1) by omega]
      rw [MTRef.seed32, MTRef.init32, BitVec.toNat_add, BitVec.toNat_mul, BitVec.toNat_xor, BitVec.toNat_ushiftRight, BitVec.toNat_ofNat, ← ha]
      exact Nat.add_mod _ _ _

theorem twistN_spec (a b c : BitVec 32) : twistN a.toNat b.toNat c.toNat =
    (c ^^^ ((((a &&& 0x80000000) ||| (b &&& 0x7fffffff)) >>> 1) ^^^ (if b.getLsbD 0 then 0x9908b0df else 0))).toNat := by
  unfold twistN
  have h : (Nat.rec 0 (fun _ _ => 0x9908b0df) (b.toNat % 2) : ℕ) = (if b.getLsbD 0 then 0x9908b0df else 0 : BitVec 32).toNat := by
    rw [BitVec.getLsbD, Nat.testBit_zero]
    rcases Nat.mod_two_eq_zero_or_one b.toNat with h | h <;> rw [h] <;> rfl
  rw [h]
  simp only [BitVec.toNat_xor, BitVec.toNat_ushiftRight, BitVec.toNat_or, BitVec.toNat_and]
  rfl

theorem temperN_spec (y : BitVec 32) : temperN y.toNat = (MTRef.temper32 y).toNat := by
  unfold temperN MTRef.temper32
  simp only [force_eq, BitVec.toNat_xor, BitVec.toNat_ushiftRight, BitVec.toNat_and, BitVec.toNat_shiftLeft]
  rfl

theorem outN_spec (x : ℕ → BitVec 32) (hx : MTRef.IsSeq32 x) (n : ℕ) : ∀ k (as cs : List ℕ),
    (∀ j ≤ n, as[j]? = some (x (k + j)).toNat) → (∀ j < n, cs[j]? = some (x (k + 397 + j)).toNat) →
    ∀ j < n, (outN n as cs)[j]? = some (MTRef.temper32 (x (624 + (k + j)))).toNat := by
  induction n with
  | zero => intro k as cs _ _ j hj; omega
  | succ n ih =>
    intro k as cs h1 h2 j hj
    match as, cs with
    | a :: b :: as, c :: cs =>
      have ha : a = (x k).toNat := by simpa using h1 0 (by omega)
      have hb : b = (x (k + 1)).toNat := by simpa using h1 1 (by omega)
      have hc : c = (x (k + 397)).toNat := by simpa using h2 0 (by omega)
      rw [outN, force_eq]
      cases j with
      | zero =>
        rw [List.getElem?_cons_zero, ha, hb, hc, twistN_spec, ← hx k, temperN_spec, show 624 + (k + 0) = k + 624 by omega]
      | succ j =>
        rw [List.getElem?_cons_succ, ih (k + 1) (b :: as) cs ?_ ?_ j (by omega), show k + 1 + j = k + (j + 1) by omega]
        · intro j hj
          have := h1 (j + 1) (by omega)
          rw [List.getElem?_cons_succ] at this
          rw [this, show k + (j + 1) = k + 1 + j by omega]
        · intro j hj
          have := h2 (j + 1) (by omega)
          rw [List.getElem?_cons_succ] at this
          rw [this, show k + 397 + (j + 1) = k + 1 + 397 + j by omega]
    | [], cs => have := h1 0 (by omega); simp at this
    | [a], cs => have := h1 1 (by omega); simp at this
    | a :: b :: as, [] => have := h2 0 (by omega); simp at this

/-! ## Seeding with an array -/

/-- The words `f 0`, ..., `f 623` in one number. -/
def Pack (N : ℕ) (f : ℕ → BitVec 32) : Prop := ∀ i < 624, BitVec.ofNat 32 (N >>> (32 * i)) = f i

def word (N i : ℕ) : ℕ := (N >>> (32 * i)) % 4294967296

/-- Replaces a word. -/
def putW (N i v : ℕ) : ℕ := N ^^^ ((word N i ^^^ v) <<< (32 * i))

theorem word_spec {N : ℕ} {f : ℕ → BitVec 32} (h : Pack N f) {i : ℕ} (hi : i < 624) : word N i = (f i).toNat := by
  rw [← h i hi, BitVec.toNat_ofNat]
  rfl

theorem putW_spec {N : ℕ} {f : ℕ → BitVec 32} (h : Pack N f) {i : ℕ} (hi : i < 624) (v : BitVec 32) {n : ℕ} (hn : n = v.toNat) :
    Pack (putW N i n) (Function.update f i v) := by
  intro j hj
  have key : ∀ m, BitVec.ofNat 32 ((N ^^^ (m <<< (32 * i))) >>> (32 * j)) = BitVec.ofNat 32 (N >>> (32 * j)) ^^^ BitVec.ofNat 32 ((m <<< (32 * i)) >>> (32 * j)) := by
    intro m
    apply BitVec.eq_of_getLsbD_eq
    intro b hb
    simp only [BitVec.getLsbD_xor, BitVec.getLsbD_ofNat, Nat.testBit_shiftRight, Nat.testBit_xor, hb, decide_true, Bool.true_and]
  unfold putW
  rw [key, h j hj]
  have hm : ∀ b, 32 ≤ b → (word N i ^^^ n).testBit b = false := by
    intro b hb
    apply Nat.testBit_lt_two_pow
    refine lt_of_lt_of_le (Nat.xor_lt_two_pow (n := 32) (Nat.mod_lt _ (by norm_num)) ?_) (Nat.pow_le_pow_right (by omega) hb)
    rw [hn]
    exact v.isLt
  by_cases hij : j = i
  · subst hij
    rw [Function.update_self, Nat.shiftLeft_shiftRight, word_spec h hi, hn]
    apply BitVec.eq_of_toNat_eq
    rw [BitVec.toNat_xor, BitVec.toNat_ofNat, Nat.mod_eq_of_lt (Nat.xor_lt_two_pow (f j).isLt v.isLt), ← Nat.xor_assoc, Nat.xor_self, Nat.zero_xor]
  · rw [Function.update_of_ne hij]
    have h0 : BitVec.ofNat 32 (((word N i ^^^ n) <<< (32 * i)) >>> (32 * j)) = 0 := by
      apply BitVec.eq_of_getLsbD_eq
      intro b hb
      rw [BitVec.getLsbD_ofNat, Nat.testBit_shiftRight, Nat.testBit_shiftLeft]
      by_cases hc : 32 * i ≤ 32 * j + b
      · rw [hm _ (by omega)]
        simp
      · simp [hc]
    rw [h0]
    simp

/-- The words in one number. -/
def packL : List ℕ → ℕ
  | [] => 0
  | a :: l => a ||| (packL l <<< 32)

theorem packL_spec (l : List ℕ) : ∀ (g : ℕ → BitVec 32), (∀ j < l.length, l[j]? = some (g j).toNat) → ∀ j < l.length,
    BitVec.ofNat 32 (packL l >>> (32 * j)) = g j := by
  induction l with
  | nil => intro g _ j hj; cases hj
  | cons a l ih =>
    intro g hg j hj
    have ha : a = (g 0).toNat := by simpa using hg 0 (by simp)
    rw [packL]
    cases j with
    | zero =>
      apply BitVec.eq_of_getLsbD_eq
      intro b hb
      rw [BitVec.getLsbD_ofNat, Nat.mul_zero, Nat.shiftRight_zero, Nat.testBit_or, Nat.testBit_shiftLeft, ha, BitVec.getLsbD]
      have : ¬ 32 ≤ b := by omega
      simp [hb, this]
    | succ j =>
      rw [← ih (fun k => g (k + 1)) (fun k hk => by simpa using hg (k + 1) (by simpa using hk)) j (by simpa using hj)]
      apply BitVec.eq_of_getLsbD_eq
      intro b hb
      have h0 : a.testBit (32 * (j + 1) + b) = false := by
        apply Nat.testBit_lt_two_pow
        rw [ha]
        exact lt_of_lt_of_le (g 0).isLt (Nat.pow_le_pow_right (by omega) (by omega))
      rw [BitVec.getLsbD_ofNat, BitVec.getLsbD_ofNat, Nat.testBit_shiftRight, Nat.testBit_shiftRight, Nat.testBit_or, Nat.testBit_shiftLeft, h0,
        Bool.false_or, show 32 * (j + 1) + b - 32 = 32 * j + b by omega]
      have : 32 ≤ 32 * (j + 1) + b := by omega
      simp [this]

/-- The first loop for the key `key` (a list with the words), in numbers. -/
def mixN (key : List ℕ) (len : ℕ) : ℕ → ℕ → ℕ → ℕ → (ℕ → ℕ → Bool) → Bool
  | 0, i, _, N, K => K N i
  | k + 1, i, j, N, K =>
    force (word N i) fun a => force (word N (i - 1)) fun b =>
    force (((a ^^^ (((b ^^^ (b >>> 30)) * 1664525) % 4294967296)) + key.getD j 0 + j) % 4294967296) fun v =>
    force (putW N i v) fun N =>
    force (cond (Nat.blt (j + 1) len) (j + 1) 0) fun j =>
    cond (Nat.ble 624 (i + 1)) (force (putW N 0 (word N 623)) fun N => mixN key len k 1 j N K) (force (i + 1) fun i => mixN key len k i j N K)

theorem mixN_spec (cells : List (BitVec 32)) (len : ℕ) (k : ℕ) : ∀ i j N f (K : ℕ → ℕ → Bool), 1 ≤ i → i < 624 → Pack N f →
    mixN (cells.map (·.toNat)) len k i j N K = true → ∃ N', Pack N' (MTRef.mix32 (fun j => cells.getD j 0) len k i j f).1 ∧
      1 ≤ (MTRef.mix32 (fun j => cells.getD j 0) len k i j f).2 ∧ (MTRef.mix32 (fun j => cells.getD j 0) len k i j f).2 < 624 ∧
      K N' (MTRef.mix32 (fun j => cells.getD j 0) len k i j f).2 = true := by
  induction k with
  | zero =>
    intro i j N f K h1 h2 hp h
    exact ⟨N, hp, h1, h2, h⟩
  | succ k ih =>
    intro i j N f K h1 h2 hp h
    rw [mixN] at h
    simp only [force_eq] at h
    rw [MTRef.mix32]
    have hg : (cells.map (·.toNat)).getD j 0 = (cells.getD j 0).toNat := by
      rw [List.getD_eq_getElem?_getD, List.getD_eq_getElem?_getD, List.getElem?_map]
      cases cells[j]? <;> rfl
    rw [word_spec hp h2, word_spec hp (show i - 1 < 624 by omega), hg] at h
    have hp1 := putW_spec hp h2 ((f i ^^^ ((f (i - 1) ^^^ (f (i - 1) >>> 30)) * 1664525)) + cells.getD j 0 + BitVec.ofNat 32 j)
      (n := (((f i).toNat ^^^ ((((f (i - 1)).toNat ^^^ ((f (i - 1)).toNat >>> 30)) * 1664525) % 4294967296)) + (cells.getD j 0).toNat + j) % 4294967296) (by
        rw [BitVec.toNat_add, BitVec.toNat_add, BitVec.toNat_xor, BitVec.toNat_mul, BitVec.toNat_xor, BitVec.toNat_ushiftRight, BitVec.toNat_ofNat,
          show (1664525 : BitVec 32).toNat = 1664525 from rfl, Nat.mod_add_mod, Nat.add_mod_mod])
    have hj : (cond (Nat.blt (j + 1) len) (j + 1) 0) = if j + 1 < len then j + 1 else 0 := by
      by_cases hc : j + 1 < len
      · rw [if_pos hc, Nat.blt_eq.mpr hc]; rfl
      · rw [if_neg hc, show Nat.blt (j + 1) len = false from Bool.eq_false_iff.2 fun h => hc (Nat.blt_eq.mp h)]; rfl
    rw [hj] at h
    by_cases hc : i + 1 ≥ 624
    · rw [show Nat.ble 624 (i + 1) = true from Nat.ble_eq.mpr hc, cond_true] at h
      rw [if_pos hc]
      exact ih 1 _ _ _ K (by omega) (by omega) (putW_spec hp1 (by omega) _ (word_spec hp1 (by omega))) h
    · rw [show Nat.ble 624 (i + 1) = false from Bool.eq_false_iff.2 fun h => hc (Nat.ble_eq.mp h), cond_false] at h
      rw [if_neg hc]
      exact ih (i + 1) _ _ _ K (by omega) (by omega) hp1 h

/-- The second loop. -/
def mixN' : ℕ → ℕ → ℕ → (ℕ → Bool) → Bool
  | 0, _, N, K => K N
  | k + 1, i, N, K =>
    force (word N i) fun a => force (word N (i - 1)) fun b =>
    force ((4294967296 - i + (a ^^^ (((b ^^^ (b >>> 30)) * 1566083941) % 4294967296))) % 4294967296) fun v =>
    force (putW N i v) fun N =>
    cond (Nat.ble 624 (i + 1)) (force (putW N 0 (word N 623)) fun N => mixN' k 1 N K) (force (i + 1) fun i => mixN' k i N K)

theorem mixN'_spec (k : ℕ) : ∀ i N f (K : ℕ → Bool), 1 ≤ i → i < 624 → Pack N f →
    mixN' k i N K = true → ∃ N', Pack N' (MTRef.mix32' k i f) ∧ K N' = true := by
  induction k with
  | zero =>
    intro i N f K h1 h2 hp h
    exact ⟨N, hp, h⟩
  | succ k ih =>
    intro i N f K h1 h2 hp h
    rw [mixN'] at h
    simp only [force_eq] at h
    rw [MTRef.mix32']
    rw [word_spec hp h2, word_spec hp (show i - 1 < 624 by omega)] at h
    have hp1 := putW_spec hp h2 ((f i ^^^ ((f (i - 1) ^^^ (f (i - 1) >>> 30)) * 1566083941)) - BitVec.ofNat 32 i)
      (n := (4294967296 - i + ((f i).toNat ^^^ ((((f (i - 1)).toNat ^^^ ((f (i - 1)).toNat >>> 30)) * 1566083941) % 4294967296))) % 4294967296) (by
        rw [BitVec.toNat_sub, BitVec.toNat_xor, BitVec.toNat_mul, BitVec.toNat_xor, BitVec.toNat_ushiftRight, BitVec.toNat_ofNat,
          show (1566083941 : BitVec 32).toNat = 1566083941 from rfl, Nat.mod_eq_of_lt (show i < 2 ^ 32 by omega)])
    by_cases hc : i + 1 ≥ 624
    · rw [show Nat.ble 624 (i + 1) = true from Nat.ble_eq.mpr hc, cond_true] at h
      rw [if_pos hc]
      exact ih 1 _ _ K (by omega) (by omega) (putW_spec hp1 (by omega) _ (word_spec hp1 (by omega))) h
    · rw [show Nat.ble 624 (i + 1) = false from Bool.eq_false_iff.2 fun h => hc (Nat.ble_eq.mp h), cond_false] at h
      rw [if_neg hc]
      exact ih (i + 1) _ _ K (by omega) (by omega) hp1 h

/-- The outputs that follow the words of the number `N`. -/
def outP (N : ℕ) : ℕ → ℕ → List ℕ
  | 0, _ => []
  | n + 1, k => temperN (twistN (word N k) (word N (k + 1)) (word N (k + 397))) :: outP N n (k + 1)

theorem outP_spec {N : ℕ} {x : ℕ → BitVec 32} (hx : MTRef.IsSeq32 x) (hp : Pack N x) (n : ℕ) : ∀ k, k + n + 397 ≤ 624 →
    outP N n k = (List.range n).map fun j => (MTRef.temper32 (x (624 + (k + j)))).toNat := by
  induction n with
  | zero => intro k _; rfl
  | succ n ih =>
    intro k hk
    rw [outP, ih (k + 1) (by omega), List.range_succ_eq_map, List.map_cons, word_spec hp (by omega), word_spec hp (by omega), word_spec hp (by omega),
      twistN_spec, ← hx k, temperN_spec, List.map_map, show 624 + (k + 0) = k + 624 by omega]
    congr 1
    apply List.map_congr_left
    intro j _
    show _ = (MTRef.temper32 (x (624 + (k + (j + 1))))).toNat
    rw [show k + 1 + j = k + (j + 1) by omega]

/-- The first outputs after seeding with a key, in numbers. -/
def arrayOK (key : List ℕ) (len : ℕ) (outs : List ℕ) : Bool :=
  force (packL (seedN 624 0 19650218)) fun N => mixN key len (max 624 len) 1 0 N fun N i => mixN' 623 i N fun N =>
    force (putW N 0 0x80000000) fun N => decide (outP N outs.length 0 = outs)

theorem seedN_length (n : ℕ) : ∀ i a, (seedN n i a).length = n := by
  induction n with
  | zero => intro i a; rfl
  | succ n ih => intro i a; rw [seedN, force_eq, List.length_cons, ih]

theorem arrayOK_spec (cells : List (BitVec 32)) (len : ℕ) (outs : List ℕ) (hn : outs.length + 397 ≤ 624)
    (h : arrayOK (cells.map (·.toNat)) len outs = true) (x : ℕ → BitVec 32) (hx : MTRef.IsSeq32 x)
    (h0 : ∀ j, j < 624 → x j = MTRef.array32 (fun j => cells.getD j 0) len j) :
    (List.range outs.length).map (fun j => (MTRef.temper32 (x (624 + j))).toNat) = outs := by
  unfold arrayOK at h
  rw [force_eq] at h
  have hp : Pack (packL (seedN 624 0 19650218)) (MTRef.seed32 19650218) := by
    intro i hi
    exact packL_spec _ _ (fun j hj => by
      rw [seedN_length] at hj
      rw [seedN_spec 19650218 624 0 19650218 rfl j hj, Nat.zero_add]) i (by rw [seedN_length]; exact hi)
  obtain ⟨N, h1, h2, h3, h4⟩ := mixN_spec cells len _ 1 0 _ _ _ (by omega) (by omega) hp h
  obtain ⟨N', h5, h6⟩ := mixN'_spec 623 _ _ _ _ h2 h3 h1 h4
  rw [force_eq, decide_eq_true_eq] at h6
  have h7 : Pack (putW N' 0 0x80000000) x := by
    have := putW_spec h5 (i := 0) (by omega) 0x80000000 (n := 0x80000000) rfl
    intro i hi
    rw [h0 i hi]
    exact this i hi
  have h8 := outP_spec hx h7 outs.length 0 (by omega)
  rw [h6] at h8
  rw [h8]
  simp

end MTT.Tests
