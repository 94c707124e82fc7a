import Verif.Samples.SFMTProps
import Verif.Util.Props
import Verif.Spec.Dot

/-!
# C47: `sfmt::periodCertification`
-/

namespace MTT

theorem dot_single {w : ℕ} {j : ℕ} (hj : j < w) (y : BitVec w) :
    dot ((1 : BitVec w) <<< j) y = if y.getLsbD j then 1 else 0 := by
  unfold dot
  rw [Finset.sum_eq_single j]
  · rw [BitVec.getLsbD_shiftLeft, W128.one_bit (by omega)]
    simp [hj]
  · intro i hi hij
    rw [BitVec.getLsbD_shiftLeft, W128.one_bit (by omega)]
    by_cases h : i < j
    · simp [h]
    · have : ¬ (i - j = 0) := by omega
      simp [this]
  · intro h
    exact absurd (Finset.mem_range.2 hj) h

namespace SFMT

open W128

theorem card_mod (c : ℕ) : ((c : ZMod 2) = 1 ↔ c % 2 = 1) ∧ ((c : ZMod 2) = 0 ↔ c % 2 ≠ 1) := by
  have h0 : (c : ZMod 2) = 0 ↔ c % 2 = 0 := by
    rw [ZMod.natCast_eq_zero_iff]; omega
  constructor
  · rcases PIS.two_cases (c : ZMod 2) with h | h
    · rw [h]
      have := h0.1 h
      exact ⟨fun h => absurd h (by decide), fun h => by omega⟩
    · rw [h]
      have : ¬ (c % 2 = 0) := fun h' => by rw [h0.2 h'] at h; exact absurd h (by decide)
      exact ⟨fun _ => by omega, fun _ => rfl⟩
  · rw [h0]; omega

/-- The count of the code is the inner product. -/
theorem count_eq (x y : W128) : ((Util.countBit32 (u (W128.and x y) 0) + Util.countBit32 (u (W128.and x y) 1) +
    Util.countBit32 (u (W128.and x y) 2) + Util.countBit32 (u (W128.and x y) 3) : ℕ) : ZMod 2) = dot x y := by
  have key : ∀ i, i < 4 → ((Util.countBit32 (u (W128.and x y) i) : ℕ) : ZMod 2) =
      ∑ j ∈ Finset.range 32, if x.getLsbD (32 * i + j) && y.getLsbD (32 * i + j) then (1 : ZMod 2) else 0 := by
    intro i hi
    rw [Util.count_bit_correct.2.1, Finset.card_filter, Nat.cast_sum]
    refine Finset.sum_congr rfl fun j hj => ?_
    rw [u_bit, (bitwise_correct x y).1, BitVec.getLsbD_and, decide_eq_true (Finset.mem_range.1 hj), Bool.true_and]
    split <;> simp
  unfold dot
  rw [show Finset.range 128 = Finset.range (32 + 32 + 32 + 32) from rfl, Finset.sum_range_add, Finset.sum_range_add,
    Finset.sum_range_add, Nat.cast_add, Nat.cast_add, Nat.cast_add, key 0 (by omega), key 1 (by omega), key 2 (by omega), key 3 (by omega)]
  simp only [Nat.mul_zero, Nat.zero_add, Nat.mul_one, show 32 * 2 = 32 + 32 by norm_num,
    show 32 * 3 = 32 + 32 + 32 by norm_num]

theorem setU_flip (x : W128) {i j : ℕ} (hi : i < 4) (hj : j < 32) :
    setU x i (u x i ^^^ ((1 : BitVec 32) <<< j)) = x ^^^ ((1 : W128) <<< (32 * i + j)) := by
  have h1 : ∀ i : Fin 4, ∀ j : Fin 32, (1 : W128) <<< (32 * (i : ℕ) + j) =
      mk32 (if (i : ℕ) = 0 then (1 : BitVec 32) <<< (j : ℕ) else 0) (if (i : ℕ) = 1 then (1 : BitVec 32) <<< (j : ℕ) else 0)
        (if (i : ℕ) = 2 then (1 : BitVec 32) <<< (j : ℕ) else 0) (if (i : ℕ) = 3 then (1 : BitVec 32) <<< (j : ℕ) else 0) := by
    decide +kernel
  have x0 : ∀ x : BitVec 32, x ^^^ 0 = x := fun x => BitVec.xor_zero (x := x)
  have e := h1 ⟨i, hi⟩ ⟨j, hj⟩
  dsimp only at e
  rw [e]
  conv_rhs => rw [← mk32_eta x]
  rw [← mk32_xor]
  unfold setU
  rcases (show i = 0 ∨ i = 1 ∨ i = 2 ∨ i = 3 by omega) with h | h | h | h <;> subst h <;>
    simp only [x0, if_true, OfNat.zero_ne_ofNat, OfNat.one_ne_ofNat, OfNat.ofNat_ne_zero, OfNat.ofNat_ne_one, if_false,
      Nat.reduceEqDiff, zero_ne_one, one_ne_zero]

theorem one_and {j : ℕ} (hj : j < 32) (p : BitVec 32) : ((1 : BitVec 32) <<< j) &&& p ≠ 0 ↔ p.getLsbD j = true := by
  have hb : ∀ k, k < 32 → (((1 : BitVec 32) <<< j) &&& p).getLsbD k = (decide (k = j) && p.getLsbD k) := by
    intro k hk
    rw [BitVec.getLsbD_and, BitVec.getLsbD_shiftLeft, one_bit (by decide)]
    by_cases h : k = j
    · subst h; simp [hk]
    · rw [decide_eq_false h]
      by_cases h2 : k < j
      · simp [h2]
      · have : ¬ (k - j = 0) := by omega
        simp [this]
  constructor
  · intro h
    by_contra hp
    apply h
    apply BitVec.eq_of_getLsbD_eq
    intro k hk
    rw [hb k hk, show (0 : BitVec 32).getLsbD k = false from BitVec.getLsbD_zero]
    by_cases e : k = j
    · subst e; simpa using hp
    · simp [e]
  · intro hp h
    have := hb j hj
    rw [h, hp, show (0 : BitVec 32).getLsbD j = false from BitVec.getLsbD_zero] at this
    simp at this

theorem firstBit_spec (p : BitVec 32) : ∀ k j, j + k = 32 →
    (∃ i, j ≤ i ∧ i < 32 ∧ p.getLsbD i = true ∧ firstBit p k ((1 : BitVec 32) <<< j) = some ((1 : BitVec 32) <<< i)) ∨
    ((∀ i, j ≤ i → i < 32 → p.getLsbD i = false) ∧ firstBit p k ((1 : BitVec 32) <<< j) = none) := by
  intro k
  induction k with
  | zero => intro j hj; exact .inr ⟨fun i h1 h2 => by omega, rfl⟩
  | succ k ih =>
    intro j hj
    rw [firstBit]
    by_cases h : p.getLsbD j = true
    · rw [if_pos ((one_and (by omega) p).2 h)]
      exact .inl ⟨j, le_rfl, by omega, h, rfl⟩
    · rw [if_neg (fun h' => h ((one_and (by omega) p).1 h')), ← BitVec.shiftLeft_add]
      rcases ih (j + 1) (by omega) with ⟨i, h1, h2, h3, h4⟩ | ⟨h1, h2⟩
      · exact .inl ⟨i, by omega, h2, h3, h4⟩
      · refine .inr ⟨fun i hi hi2 => ?_, h2⟩
        rcases Nat.eq_or_lt_of_le hi with e | e
        · subst e; simpa using h
        · exact h1 i (by omega) hi2

/-- The loop flips a bit of the state that the parity vector looks at. -/
theorem flipLoop_spec (q : W128) (x : W128) : ∀ k i, i + k = 4 →
    (∃ b, 32 * i ≤ b ∧ b < 128 ∧ q.getLsbD b = true ∧ flipLoop (u q) k i x = x ^^^ ((1 : W128) <<< b)) ∨
    (∀ b, 32 * i ≤ b → b < 128 → q.getLsbD b = false) := by
  intro k
  induction k with
  | zero => intro i hi; exact .inr fun b h1 h2 => by omega
  | succ k ih =>
    intro i hi
    have h1 : (1 : BitVec 32) = (1 : BitVec 32) <<< 0 := by decide
    rw [flipLoop]
    rcases firstBit_spec (u q i) 32 0 rfl with ⟨j, _, hj, hb, e⟩ | ⟨hz, e⟩
    · rw [← h1] at e
      rw [e]
      refine .inl ⟨32 * i + j, by omega, by omega, ?_, setU_flip x (by omega) hj⟩
      rw [u_bit, decide_eq_true hj, Bool.true_and] at hb
      exact hb
    · rw [← h1] at e
      rw [e]
      have hz' : ∀ b, 32 * i ≤ b → b < 32 * (i + 1) → q.getLsbD b = false := by
        intro b hb1 hb2
        have := hz (b - 32 * i) (by omega) (by omega)
        rw [u_bit, decide_eq_true (by omega), Bool.true_and, show 32 * i + (b - 32 * i) = b by omega] at this
        exact this
      rcases ih (i + 1) (by omega) with ⟨b, h1, h2, h3, h4⟩ | h
      · exact .inl ⟨b, by omega, h2, h3, h4⟩
      · refine .inr fun b hb1 hb2 => ?_
        rcases Nat.lt_or_ge b (32 * (i + 1)) with h' | h'
        · exact hz' b hb1 h'
        · exact h b h' hb2

/-- The parity vector of an object. -/
def parity (s : St) : W128 := mk32 s.parity1 s.parity2 s.parity3 s.parity4

/-- **C47.**  With a non-zero parity vector: if the inner product of the first word and the parity vector is odd the
answer is 1 and nothing changes; otherwise the answer is 0 and exactly one bit of the first word is flipped, a bit
that the parity vector looks at.  Afterwards the inner product is odd, so a second call answers 1 and changes
nothing. -/
theorem periodCertification_correct (s : St) (hp : parity s ≠ 0) :
    (dot (s.state 0) (parity s) = 1 → periodCertification s = (s, 1)) ∧
    (dot (s.state 0) (parity s) = 0 → ∃ b, b < 128 ∧ (parity s).getLsbD b = true ∧ periodCertification s =
      ({ s with state := Function.update s.state 0 (s.state 0 ^^^ ((1 : W128) <<< b)) }, 0)) ∧
    dot ((periodCertification s).1.state 0) (parity s) = 1 ∧
    periodCertification (periodCertification s).1 = ((periodCertification s).1, 1) := by
  have hodd : ∀ s : St, dot (s.state 0) (parity s) = 1 → periodCertification s = (s, 1) := by
    intro s h
    unfold periodCertification
    dsimp only
    exact if_pos ((card_mod _).1.1 ((count_eq _ _).trans h))
  have heven : dot (s.state 0) (parity s) = 0 → ∃ b, b < 128 ∧ (parity s).getLsbD b = true ∧
      periodCertification s =
      ({ s with state := Function.update s.state 0 (s.state 0 ^^^ ((1 : W128) <<< b)) }, 0) := by
    intro h
    have hc := (card_mod _).2.1 ((count_eq (s.state 0) (parity s)).trans h)
    unfold parity at hc
    unfold periodCertification
    dsimp only
    rw [if_neg hc]
    by_cases h1 : (u (mk32 s.parity1 s.parity2 s.parity3 s.parity4) 0 &&& 1) = 1
    · rw [if_pos h1]
      have h0 : (parity s).getLsbD 0 = true := by
        have := congrArg (fun z : BitVec 32 => z.getLsbD 0) h1
        simp only [BitVec.getLsbD_and, u_bit, one_bit (show 0 < 32 by decide)] at this
        simpa [parity] using this
      refine ⟨0, by omega, h0, ?_⟩
      have := setU_flip (s.state 0) (i := 0) (j := 0) (by omega) (by omega)
      rw [show (1 : BitVec 32) <<< 0 = 1 by decide] at this
      rw [this]
    · rw [if_neg h1]
      rcases flipLoop_spec (parity s) (s.state 0) 4 0 rfl with ⟨b, _, h2, h3, h4⟩ | hz
      · exact ⟨b, h2, h3, by rw [show mk32 s.parity1 s.parity2 s.parity3 s.parity4 = parity s from rfl, h4]⟩
      · exfalso
        apply hp
        apply BitVec.eq_of_getLsbD_eq
        intro i hi
        rw [hz i (by omega) hi]
        exact BitVec.getLsbD_zero.symm
  have hafter : dot ((periodCertification s).1.state 0) (parity s) = 1 ∧
      parity (periodCertification s).1 = parity s := by
    rcases PIS.two_cases (dot (s.state 0) (parity s)) with h | h
    · obtain ⟨b, h1, h2, h3⟩ := heven h
      rw [h3]
      refine ⟨?_, rfl⟩
      dsimp only
      rw [Function.update_self, dot_xor, h, dot_single h1, if_pos h2]
      decide
    · rw [hodd s h]
      exact ⟨h, rfl⟩
  exact ⟨hodd s, heven, hafter.1, hodd _ (by rw [hafter.2]; exact hafter.1)⟩

-- SFMT19937: a state that is repaired.
example : (periodCertification (ctorPar 19937 ⟨122, 18, 1, 11, 1, 0xdfffffef, 0xddfecb7f, 0xbffaffff, 0xbffffff6⟩
    1 0 0 0x13c9e684)).2 = 0 := by decide

end SFMT

end MTT
