import Verif.MT.PeriodProps

/-!
# Seeding loses nothing: helper lemmas
-/

namespace MTT.MT

open MTRec

variable {w : ℕ}

/-! ### The mixing loops -/

/-- Both mixing loops: `E t i a b` is the new word `i` at time `t` if it was `a` and the word before it is `b`. -/
def loop (N : ℕ) (E : ℕ → ℕ → BitVec w → BitVec w → BitVec w) : ℕ → ℕ → ℕ → (ℕ → BitVec w) → (ℕ → BitVec w) × ℕ
  | 0, _, i, f => (f, i)
  | k + 1, t, i, f =>
    let q := refBump N i (Function.update f i (E t i (f i) (f (i - 1))))
    loop N E k (t + 1) q.2 q.1

/-- The step of the first loop. -/
def E1 (C : Consts w) (v : ℕ → BitVec w) (len : ℕ) (t _i : ℕ) (a b : BitVec w) : BitVec w :=
  (a ^^^ ((b ^^^ (b >>> C.sh)) * C.mul1)) + v (t % len) + BitVec.ofNat w (t % len)

/-- The step of the second loop. -/
def E2 (C : Consts w) (_t i : ℕ) (a b : BitVec w) : BitVec w :=
  (a ^^^ ((b ^^^ (b >>> C.sh)) * C.mul2)) - BitVec.ofNat w i

theorem refArr1_loop (C : Consts w) (v : ℕ → BitVec w) {len : ℕ} (hl : 1 ≤ len) :
    ∀ k t i (f : ℕ → BitVec w), refArr1 C v len k i (t % len) f = loop C.N (E1 C v len) k t i f
  | 0, _, _, _ => rfl
  | k + 1, t, i, f => by
    have hj : (if t % len + 1 < len then t % len + 1 else 0) = (t + 1) % len := by
      have := Nat.mod_lt t (show len > 0 by omega)
      rw [Nat.add_mod t 1 len]
      split
      · rename_i h
        rw [Nat.mod_eq_of_lt (show 1 < len by omega), Nat.mod_eq_of_lt h]
      · rcases Nat.lt_or_ge 1 len with h1 | h1
        · rw [Nat.mod_eq_of_lt h1, show t % len + 1 = len by omega, Nat.mod_self]
        · rw [show len = 1 by omega, Nat.mod_one]
    rw [refArr1, hj, refArr1_loop C v hl k (t + 1)]
    rfl

theorem refArr2_loop (C : Consts w) : ∀ k t i (f : ℕ → BitVec w), refArr2 C k i f = loop C.N (E2 C) k t i f
  | 0, _, _, _ => rfl
  | k + 1, t, i, f => by
    rw [refArr2, refArr2_loop C k (t + 1)]
    rfl

theorem loop_add {N : ℕ} {E : ℕ → ℕ → BitVec w → BitVec w → BitVec w} : ∀ k l t i (f : ℕ → BitVec w),
    loop N E (k + l) t i f = loop N E l (t + k) (loop N E k t i f).2 (loop N E k t i f).1
  | 0, l, t, i, f => by rw [Nat.zero_add]; rfl
  | k + 1, l, t, i, f => by
    rw [show k + 1 + l = (k + l) + 1 by omega, loop, loop_add k l, loop, show t + 1 + k = t + (k + 1) by omega]

/-- Without the wrap. -/
theorem loop_run {N : ℕ} {E : ℕ → ℕ → BitVec w → BitVec w → BitVec w} : ∀ k t i (f : ℕ → BitVec w), 1 ≤ i → i + k < N →
    ∃ g, loop N E k t i f = (g, i + k) ∧ (∀ j, j < i ∨ i + k ≤ j → g j = f j) ∧
      ∀ s, s < k → g (i + s) = E (t + s) (i + s) (f (i + s)) (g (i + s - 1))
  | 0, _, i, f, _, _ => ⟨f, rfl, fun _ _ => rfl, fun s hs => absurd hs (Nat.not_lt_zero s)⟩
  | k + 1, t, i, f, h1, h2 => by
    obtain ⟨g, e1, e2, e3⟩ := loop_run (N := N) (E := E) k (t + 1) (i + 1) (Function.update f i (E t i (f i) (f (i - 1)))) (by omega) (by omega)
    refine ⟨g, ?_, fun j hj => ?_, fun s hs => ?_⟩
    · rw [loop, refBump, if_neg (by omega)]
      dsimp only
      rw [e1, show i + 1 + k = i + (k + 1) by omega]
    · rw [e2 j (by omega), Function.update_of_ne (by omega)]
    · rcases Nat.eq_zero_or_pos s with rfl | hs0
      · rw [Nat.add_zero, Nat.add_zero, e2 i (by omega), Function.update_self, e2 (i - 1) (by omega),
          Function.update_of_ne (show i - 1 ≠ i by omega)]
      · obtain ⟨s, rfl⟩ : ∃ u, s = u + 1 := ⟨s - 1, by omega⟩
        have := e3 s (by omega)
        rw [Function.update_of_ne (by omega)] at this
        rw [show i + (s + 1) = i + 1 + s by omega, show t + (s + 1) = t + 1 + s by omega]
        exact this

/-- Up to the wrap. -/
theorem loop_wrap {N : ℕ} {E : ℕ → ℕ → BitVec w → BitVec w → BitVec w} (t i : ℕ) (f : ℕ → BitVec w) (h1 : 1 ≤ i) (h2 : i < N) :
    ∃ g, loop N E (N - i) t i f = (g, 1) ∧ g 0 = g (N - 1) ∧ (∀ j, 0 < j → j < i → g j = f j) ∧
      g i = E t i (f i) (f (i - 1)) ∧
      ∀ s, 0 < s → i + s < N → g (i + s) = E (t + s) (i + s) (f (i + s)) (g (i + s - 1)) := by
  obtain ⟨g, e1, e2, e3⟩ := loop_run (N := N) (E := E) (N - i - 1) t i f h1 (by omega)
  have hi : i + (N - i - 1) = N - 1 := by omega
  rw [hi] at e1 e2
  have hlast : g (N - 1) = f (N - 1) := e2 _ (Or.inr le_rfl)
  refine ⟨Function.update (Function.update g (N - 1) (E (t + (N - i - 1)) (N - 1) (g (N - 1)) (g (N - 1 - 1)))) 0
    (E (t + (N - i - 1)) (N - 1) (g (N - 1)) (g (N - 1 - 1))), ?_, ?_, fun j h3 h4 => ?_, ?_, fun s h3 h4 => ?_⟩
  · rw [show N - i = (N - i - 1) + 1 by omega, loop_add, e1, loop]
    dsimp only
    rw [refBump, if_pos (by omega), loop]
    dsimp only
    rw [Function.update_self, Nat.add_sub_cancel]
  · rw [Function.update_self, Function.update_of_ne (by omega), Function.update_self]
  · rw [Function.update_of_ne (by omega), Function.update_of_ne (by omega), e2 j (Or.inl h4)]
  · rw [Function.update_of_ne (by omega)]
    by_cases h : i = N - 1
    · rw [h, Function.update_self, hlast, show t + (N - (N - 1) - 1) = t by omega, e2 (N - 1 - 1) (Or.inl (by omega))]
    · rw [Function.update_of_ne h]
      have := e3 0 (by omega)
      rw [Nat.add_zero, Nat.add_zero] at this
      rw [this, e2 (i - 1) (Or.inl (by omega))]
  · rw [Function.update_of_ne (by omega), Function.update_of_ne (show i + s - 1 ≠ 0 by omega),
      Function.update_of_ne (show i + s - 1 ≠ N - 1 by omega)]
    by_cases h : i + s = N - 1
    · rw [h, Function.update_self, hlast, show t + (N - i - 1) = t + s by omega]
    · rw [Function.update_of_ne h]
      exact e3 s (by omega)

/-- A whole turn from word 1 and one step more. -/
theorem loop_first {N : ℕ} {E : ℕ → ℕ → BitVec w → BitVec w → BitVec w} (f : ℕ → BitVec w) (hN : 3 ≤ N) :
    ∃ a g : ℕ → BitVec w, loop N E N 0 1 f = (g, 2) ∧ a 1 = E 0 1 (f 1) (f 0) ∧ (∀ i, 2 ≤ i → i < N → a i = E (i - 1) i (f i) (a (i - 1))) ∧
      g 0 = a (N - 1) ∧ g 1 = E (N - 1) 1 (a 1) (a (N - 1)) ∧ ∀ i, 2 ≤ i → i < N → g i = a i := by
  obtain ⟨a, e1, e2, -, e4, e5⟩ := loop_wrap (E := E) 0 1 f le_rfl (show 1 < N by omega)
  refine ⟨a, Function.update a 1 (E (N - 1) 1 (a 1) (a 0)), ?_, e4, fun i h1 h2 => ?_, ?_, ?_, fun i h1 h2 => ?_⟩
  · conv_lhs => rw [show loop N E N 0 1 f = loop N E ((N - 1) + 1) 0 1 f by rw [show N - 1 + 1 = N by omega]]
    rw [loop_add, e1, loop]
    dsimp only
    rw [refBump, if_neg (by omega), loop, Nat.zero_add]
  · have := e5 (i - 1) (by omega) (by omega)
    rw [Nat.zero_add, show 1 + (i - 1) = i by omega] at this
    exact this
  · rw [Function.update_of_ne (by omega), e2]
  · rw [Function.update_self, e2]
  · rw [Function.update_of_ne (by omega)]

/-- All words but one from word 2 on, then word 1. -/
theorem loop_second {N : ℕ} {E : ℕ → ℕ → BitVec w → BitVec w → BitVec w} (f : ℕ → BitVec w) (hN : 3 ≤ N) :
    ∃ g, loop N E (N - 1) 0 2 f = (g, 2) ∧ g 2 = E 0 2 (f 2) (f 1) ∧
      (∀ i, 3 ≤ i → i < N → g i = E (i - 2) i (f i) (g (i - 1))) ∧ g 1 = E (N - 2) 1 (f 1) (g (N - 1)) := by
  obtain ⟨b, e1, e2, e3, e4, e5⟩ := loop_wrap (E := E) 0 2 f (by omega) (show 2 < N by omega)
  refine ⟨Function.update b 1 (E (N - 2) 1 (b 1) (b 0)), ?_, ?_, fun i h1 h2 => ?_, ?_⟩
  · conv_lhs => rw [show N - 1 = (N - 2) + 1 by omega]
    rw [loop_add, e1, loop]
    dsimp only
    rw [refBump, if_neg (by omega), loop, Nat.zero_add]
  · rw [Function.update_of_ne (by omega), e4]
  · have := e5 (i - 2) (by omega) (by omega)
    rw [Nat.zero_add, show 2 + (i - 2) = i by omega] at this
    rw [Function.update_of_ne (by omega), Function.update_of_ne (by omega), this]
  · rw [Function.update_self, Function.update_of_ne (by omega), e2, e3 1 (by omega) (by omega)]

theorem E2_inj {C : Consts w} {t t' i : ℕ} {a a' b : BitVec w} (h : E2 C t i a b = E2 C t' i a' b) : a = a' := by
  unfold E2 at h
  have h1 := congrArg (· + BitVec.ofNat w i) h
  simp only [BitVec.sub_add_cancel] at h1
  exact (BitVec.xor_left_inj _).1 h1

theorem E1_inj {C : Consts w} {v v' : ℕ → BitVec w} {len t i : ℕ} {a b : BitVec w} (h : E1 C v len t i a b = E1 C v' len t i a b) :
    v (t % len) = v' (t % len) := by
  unfold E1 at h
  have h1 := congrArg (· - BitVec.ofNat w (t % len)) h
  simp only [BitVec.add_sub_cancel] at h1
  exact (BitVec.add_right_inj _).1 h1

/-- What array seeding does, for keys that are not longer than the state: `a` are the words after one turn of the first loop. -/
theorem refArray_words {C : Consts w} (hN : 4 ≤ C.N) (u : ℕ → BitVec w) {len : ℕ} (h1 : 1 ≤ len) (h2 : len ≤ C.N) :
    ∃ a g : ℕ → BitVec w, (∀ j, 1 ≤ j → j < C.N → refArray C u len j = g j) ∧
      a 1 = E1 C u len 0 1 (refSeed C (BitVec.ofNat w 19650218) 1) (refSeed C (BitVec.ofNat w 19650218) 0) ∧
      (∀ i, 2 ≤ i → i < C.N → a i = E1 C u len (i - 1) i (refSeed C (BitVec.ofNat w 19650218) i) (a (i - 1))) ∧
      ∃ b1, g 2 = E2 C 0 2 (a 2) b1 ∧ (∀ i, 3 ≤ i → i < C.N → g i = E2 C (i - 2) i (a i) (g (i - 1))) ∧
        g 1 = E2 C (C.N - 2) 1 b1 (g (C.N - 1)) ∧ b1 = E1 C u len (C.N - 1) 1 (a 1) (a (C.N - 1)) := by
  have hmax : max C.N len = C.N := by omega
  obtain ⟨a, f, e1, e2, e3, e4, e5, e6⟩ := loop_first (E := E1 C u len) (refSeed C (BitVec.ofNat w 19650218)) (show 3 ≤ C.N by omega)
  obtain ⟨g, k1, k2, k3, k4⟩ := loop_second (E := E2 C) f (show 3 ≤ C.N by omega)
  refine ⟨a, g, fun j h3 h4 => ?_, e2, e3, f 1, ?_, fun i h3 h4 => ?_, k4, e5⟩
  · have e := refArr1_loop C u h1 C.N 0 1 (refSeed C (BitVec.ofNat w 19650218))
    rw [Nat.zero_mod, e1] at e
    unfold refArray
    rw [hmax, e]
    dsimp only
    rw [refArr2_loop C _ 0, k1, Function.update_of_ne (by omega)]
  · rw [k2, e6 2 le_rfl (by omega)]
  · rw [k3 i h3 h4, e6 i (by omega) h4]

/-- The words after array seeding determine the key, for keys that leave two words. -/
theorem refArray_inj {C : Consts w} (hN : 4 ≤ C.N) {v v' : ℕ → BitVec w} {len : ℕ} (h1 : 1 ≤ len) (h2 : len + 2 ≤ C.N)
    (h : ∀ j, 1 ≤ j → j < C.N → refArray C v len j = refArray C v' len j) : ∀ j, j < len → v j = v' j := by
  obtain ⟨a, g, p1, p2, p3, b1, p4, p5, p6, -⟩ := refArray_words hN v h1 (show len ≤ C.N by omega)
  obtain ⟨a', g', q1, q2, q3, b1', q4, q5, q6, -⟩ := refArray_words hN v' h1 (show len ≤ C.N by omega)
  have hg : ∀ j, 1 ≤ j → j < C.N → g j = g' j := fun j h3 h4 => by rw [← p1 j h3 h4, ← q1 j h3 h4, h j h3 h4]
  have hb : b1 = b1' := by
    have e := hg 1 le_rfl (by omega)
    rw [p6, q6, hg (C.N - 1) (by omega) (by omega)] at e
    exact E2_inj e
  have ha : ∀ i, 2 ≤ i → i < C.N → a i = a' i := fun i h3 h4 => by
    have e := hg i (by omega) h4
    rcases Nat.eq_or_lt_of_le h3 with rfl | h3
    · rw [p4, q4, hb] at e
      exact E2_inj e
    · rw [p5 i h3 h4, q5 i h3 h4, hg (i - 1) (by omega) (by omega)] at e
      exact E2_inj e
  have ht : ∀ t, 2 ≤ t → t + 1 < C.N → v (t % len) = v' (t % len) := fun t h3 h4 => by
    have e := ha (t + 1) (by omega) h4
    rw [p3 (t + 1) (by omega) h4, q3 (t + 1) (by omega) h4, Nat.add_sub_cancel, ha t h3 (by omega)] at e
    exact E1_inj e
  have h0 : v 0 = v' 0 := by
    rcases Nat.lt_or_ge len 2 with h3 | h3
    · have := ht 2 le_rfl (by omega)
      rwa [show len = 1 by omega, Nat.mod_one] at this
    · have := ht len h3 (by omega)
      rwa [Nat.mod_self] at this
  have ha1 : a 1 = a' 1 := by
    rw [p2, q2]
    unfold E1
    rw [Nat.zero_mod, h0]
  intro j hj
  rcases j with _ | _ | j
  · exact h0
  · have e := ha 2 le_rfl (by omega)
    rw [p3 2 le_rfl (by omega), q3 2 le_rfl (by omega), show 2 - 1 = 1 from rfl, ha1] at e
    have := E1_inj e
    rwa [Nat.mod_eq_of_lt hj] at this
  · have := ht (j + 2) (by omega) (by omega)
    rwa [Nat.mod_eq_of_lt hj] at this

theorem odd_step {w : ℕ} (hw : 1 ≤ w) (c d : BitVec w) : ∃ x x' : BitVec w, x ≠ x' ∧ ((c + x) ^^^ d) + x = ((c + x') ^^^ d) + x' := by
  by_contra hc
  push Not at hc
  haveI := finite_bitVec w
  have hinj : Function.Injective fun x : BitVec w => ((c + x) ^^^ d) + x := fun x x' h => by
    by_contra hne
    exact hc x x' hne h
  have hsurj := Finite.injective_iff_surjective.1 hinj
  have hbit : ∀ x : BitVec w, (((c + x) ^^^ d) + x).getLsbD 0 = (c.getLsbD 0 ^^ d.getLsbD 0) := fun x => by
    have hadd : ∀ p q : BitVec w, (p + q).getLsbD 0 = (p.getLsbD 0 ^^ q.getLsbD 0) := fun p q => by
      rw [BitVec.getLsbD_add (by omega)]
      simp
    rw [hadd, BitVec.getLsbD_xor, hadd]
    cases c.getLsbD 0 <;> cases d.getLsbD 0 <;> cases x.getLsbD 0 <;> rfl
  obtain ⟨x, hx⟩ := hsurj 0
  obtain ⟨x', hx'⟩ := hsurj (BitVec.ofNat w 1)
  have e := hbit x
  rw [show ((c + x) ^^^ d) + x = 0 from hx] at e
  have e' := hbit x'
  rw [show ((c + x') ^^^ d) + x' = BitVec.ofNat w 1 from hx', ← e] at e'
  simp [BitVec.getLsbD_ofNat] at e'
  omega

/-- Keys with one word more may be lost. -/
theorem refArray_not_inj {C : Consts w} (hw : 1 ≤ w) (hN : 4 ≤ C.N) : ∃ v v' : ℕ → BitVec w, v 0 ≠ v' 0 ∧
    ∀ j, 1 ≤ j → j < C.N → refArray C v (C.N - 1) j = refArray C v' (C.N - 1) j := by
  obtain ⟨N, hN'⟩ : ∃ N, N = C.N := ⟨_, rfl⟩
  obtain ⟨S, hS⟩ : ∃ S, S = refSeed C (BitVec.ofNat w 19650218) := ⟨_, rfl⟩
  -- the words after word 2 for word 2 equal to zero and a key of zeros
  obtain ⟨A, hA2, hA⟩ : ∃ A : ℕ → BitVec w, A 2 = 0 ∧ ∀ i, 3 ≤ i → A i = E1 C (fun _ => 0) (N - 1) (i - 1) i (S i) (A (i - 1)) := by
    refine ⟨fun i => Nat.rec (motive := fun _ => BitVec w) 0 (fun k p => E1 C (fun _ => 0) (N - 1) (k + 2) (k + 3) (S (k + 3)) p) (i - 2),
      rfl, fun i hi => ?_⟩
    obtain ⟨k, rfl⟩ : ∃ k, i = k + 3 := ⟨i - 3, by omega⟩
    rfl
  obtain ⟨x, x', hne, hx⟩ := odd_step hw (E1 C (fun _ => 0) (N - 1) 0 1 (S 1) (S 0)) (((A (N - 1) ^^^ (A (N - 1) >>> C.sh)) * C.mul1))
  let K : BitVec w → ℕ → BitVec w := fun x j => if j = 0 then x else if j = 1 then
    - E1 C (fun _ => 0) (N - 1) 1 2 (S 2) (E1 C (fun _ => 0) (N - 1) 0 1 (S 1) (S 0) + x) else 0
  have key : ∀ x : BitVec w, ∃ g : ℕ → BitVec w, (∀ j, 1 ≤ j → j < N → refArray C (K x) (N - 1) j = g j) ∧
      g 2 = E2 C 0 2 (A 2) (((E1 C (fun _ => 0) (N - 1) 0 1 (S 1) (S 0) + x) ^^^ ((A (N - 1) ^^^ (A (N - 1) >>> C.sh)) * C.mul1)) + x) ∧
      (∀ i, 3 ≤ i → i < N → g i = E2 C (i - 2) i (A i) (g (i - 1))) ∧
      g 1 = E2 C (N - 2) 1 (((E1 C (fun _ => 0) (N - 1) 0 1 (S 1) (S 0) + x) ^^^ ((A (N - 1) ^^^ (A (N - 1) >>> C.sh)) * C.mul1)) + x)
        (g (N - 1)) := fun x => by
    obtain ⟨a, g, p1, p2, p3, b1, p4, p5, p6, p7⟩ := refArray_words hN (K x) (len := N - 1) (by omega) (by omega)
    rw [← hS] at p2 p3
    rw [← hN'] at p1 p3 p5 p6 p7
    have a1 : a 1 = E1 C (fun _ => 0) (N - 1) 0 1 (S 1) (S 0) + x := by
      rw [p2]
      unfold E1
      rw [Nat.zero_mod]
      show _ + x + 0#w = _ + 0#w + 0#w + x
      simp only [BitVec.add_zero]
    have a2 : a 2 = A 2 := by
      rw [p3 2 le_rfl (by omega), show 2 - 1 = 1 from rfl, a1, hA2]
      have e : ∀ p, E1 C (K x) (N - 1) 1 2 (S 2) p = E1 C (fun _ => 0) (N - 1) 1 2 (S 2) p + K x 1 := fun p => by
        unfold E1
        rw [Nat.mod_eq_of_lt (show 1 < N - 1 by omega)]
        show _ + K x 1 + 1#w = _ + 0#w + 1#w + K x 1
        rw [BitVec.add_zero, BitVec.add_assoc, BitVec.add_comm (K x 1), ← BitVec.add_assoc]
      rw [e]
      exact BitVec.add_neg_eq_sub.trans (BitVec.sub_self _)
    have ha : ∀ i, 2 ≤ i → i < N → a i = A i := by
      intro i hi
      induction i, hi using Nat.le_induction with
      | base => exact fun _ => a2
      | succ i hi ih =>
        intro hiN
        rw [p3 (i + 1) (by omega) hiN, hA (i + 1) (by omega), Nat.add_sub_cancel, ih (by omega)]
        unfold E1
        rw [Nat.mod_eq_of_lt (show i < N - 1 by omega), show K x i = 0 from (if_neg (by omega)).trans (if_neg (by omega))]
    have hb : b1 = ((E1 C (fun _ => 0) (N - 1) 0 1 (S 1) (S 0) + x) ^^^ ((A (N - 1) ^^^ (A (N - 1) >>> C.sh)) * C.mul1)) + x := by
      rw [p7, a1, ha (N - 1) (by omega) (by omega)]
      unfold E1
      rw [Nat.mod_self]
      show _ + x + 0#w = _
      rw [BitVec.add_zero]
    refine ⟨g, p1, ?_, fun i h3 h4 => ?_, ?_⟩
    · rw [p4, a2, hb]
    · rw [p5 i h3 h4, ha i (by omega) h4]
    · rw [p6, hb]
  refine ⟨K x, K x', hne, ?_⟩
  rw [← hN']
  obtain ⟨g, p1, p2, p3, p4⟩ := key x
  obtain ⟨g', q1, q2, q3, q4⟩ := key x'
  have hg : ∀ i, 2 ≤ i → i < N → g i = g' i := by
    intro i hi
    induction i, hi using Nat.le_induction with
    | base => intro _; rw [p2, q2, hx]
    | succ i hi ih => intro hiN; rw [p3 _ (by omega) hiN, q3 _ (by omega) hiN, Nat.add_sub_cancel, ih (by omega)]
  intro j h1 h2
  rw [p1 j h1 h2, q1 j h1 h2]
  rcases Nat.eq_or_lt_of_le h1 with rfl | h1
  · rw [p4, q4, hx, hg (N - 1) (by omega) (by omega)]
  · exact hg j h1 h2

/-- Keys of different lengths may be the same for the loops. -/
theorem refArray_congr {C : Consts w} {v v' : ℕ → BitVec w} {len len' : ℕ} (h1 : 1 ≤ len) (h1' : 1 ≤ len') (h2 : len ≤ C.N)
    (h2' : len' ≤ C.N) (h : ∀ t, v (t % len) + BitVec.ofNat w (t % len) = v' (t % len') + BitVec.ofNat w (t % len')) :
    refArray C v len = refArray C v' len' := by
  have e : E1 C v len = E1 C v' len' := by
    funext t i a b
    unfold E1
    rw [BitVec.add_assoc, h t, ← BitVec.add_assoc]
  have e1 := refArr1_loop C v h1 C.N 0 1 (refSeed C (BitVec.ofNat w 19650218))
  have e2 := refArr1_loop C v' h1' C.N 0 1 (refSeed C (BitVec.ofNat w 19650218))
  rw [Nat.zero_mod] at e1 e2
  unfold refArray
  rw [show max C.N len = C.N by omega, show max C.N len' = C.N by omega, e1, e2, e]

/-! ### Streams -/

theorem join_xor (r : ℕ) (u u' l l' : BitVec w) : join r (u ^^^ u') (l ^^^ l') = join r u l ^^^ join r u' l' := by
  rw [join_eq, join_eq, join_eq, hi_xor, lift_xor]
  have : (l ^^^ l') &&& ~~~ upper w r = (l &&& ~~~ upper w r) ^^^ (l' &&& ~~~ upper w r) := by
    apply BitVec.eq_of_getLsbD_eq
    intro i _
    simp only [BitVec.getLsbD_and, BitVec.getLsbD_xor]
    cases l.getLsbD i <;> cases l'.getLsbD i <;> cases (~~~ upper w r).getLsbD i <;> rfl
  rw [this]
  ac_rfl

theorem isSeq_xor {P : MTPar w} {x x' : ℕ → BitVec w} (h : IsSeq P x) (h' : IsSeq P x') : IsSeq P (fun k => x k ^^^ x' k) := by
  intro k
  dsimp only
  rw [h k, h' k, join_xor, twist_xor]
  ac_rfl

/-- Equal words from `n` to `2n-1` come from equal states. -/
theorem seqState_of_words {P : MTPar w} (hP : P.OK) (hm2 : 2 ≤ P.m) (ha : P.a.getLsbD (w - 1) = true) {x x' : ℕ → BitVec w}
    (hx : IsSeq P x) (hx' : IsSeq P x') (h : ∀ k, k < P.n → x (P.n + k) = x' (P.n + k)) : seqState P x 0 = seqState P x' 0 := by
  have hinj : Function.Injective (T P ^ P.n) := by
    rw [Module.End.coe_pow]; exact (T_injective hP hm2 ha).iterate P.n
  have hmn := hP.hmn
  apply hinj
  rw [T_pow_seqState hP hx, T_pow_seqState hP hx', Nat.zero_add]
  unfold seqState
  rw [show x P.n = x' P.n from h 0 (by omega)]
  congr 1
  funext j
  rw [show P.n + 1 + (j : ℕ) = P.n + (1 + j) by omega, h _ (by have := j.2; omega)]

theorem seqState_eq_iff {P : MTPar w} {x x' : ℕ → BitVec w} : seqState P x 0 = seqState P x' 0 ↔
    hi P.r (x 0) = hi P.r (x' 0) ∧ ∀ j, 1 ≤ j → j < P.n → x j = x' j := by
  unfold seqState
  constructor
  · intro h
    refine ⟨congrArg (fun z => z.1.val) h, fun j h1 h2 => ?_⟩
    have := congrFun (congrArg Prod.snd h) ⟨j - 1, by omega⟩
    have := congrArg Wd.val this
    dsimp only at this
    rwa [show 0 + 1 + (j - 1) = j by omega] at this
  · rintro ⟨h1, h2⟩
    rw [h1]
    congr 1
    funext j
    rw [h2 _ (by omega) (by have := j.2; omega)]

/-- Equal states have equal words later. -/
theorem words_of_seqState {P : MTPar w} (hP : P.OK) {x x' : ℕ → BitVec w} (hx : IsSeq P x) (hx' : IsSeq P x')
    (h : seqState P x 0 = seqState P x' 0) (k : ℕ) : x (P.n + k) = x' (P.n + k) := by
  have e1 := newest_seqState hP hx k
  have e2 := newest_seqState hP hx' k
  have e : seqState P x k = seqState P x' k := by
    rw [← Nat.zero_add k, ← T_pow_seqState hP hx, ← T_pow_seqState hP hx', h]
  rw [e, e2] at e1
  have := congrArg Wd.val e1
  rw [Nat.add_comm]
  exact this.symm

end MTT.MT
