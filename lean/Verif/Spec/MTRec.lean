import Verif.Spec.Shift
import Mathlib.Logic.Function.Iterate

/-!
# Recurrences of Mersenne Twister type (specification and linear algebra)

`x (k+n) = x (k+m) + (upper w-r bits of x k | lower r bits of x (k+1)) A` on `w`-bit words, where
multiplication by the companion matrix `A` of the bit vector `a` is `twist a`.  As in the paper the state at
time `k` consists of the upper `w-r` bits of `x k` and all bits of `x (k+1), …, x (k+n-1)`, a vector space
of dimension `n*w - r`.
-/

namespace MTT

open PIS Polynomial

/-- Parameters of a recurrence on `w`-bit words; `n` is the degree, `m` the middle position, `r` the number
of lower bits, `a` the bottom row of the matrix. -/
structure MTPar (w : ℕ) where
  n : ℕ
  m : ℕ
  r : ℕ
  a : BitVec w

/-- Sensible parameters. -/
structure MTPar.OK {w : ℕ} (P : MTPar w) : Prop where
  hm1 : 1 ≤ P.m
  hmn : P.m < P.n
  hr : P.r < w

namespace MTRec

variable {w : ℕ}

/-- Mask of the upper `w - r` bits. -/
def upper (w r : ℕ) : BitVec w := (~~~ (0 : BitVec w)) <<< r

/-- Upper bits of `u`, lower bits of `l`. -/
def join (r : ℕ) (u l : BitVec w) : BitVec w := (u &&& upper w r) ||| (l &&& ~~~ upper w r)

/-- The row vector `y` times the matrix. -/
def twist (a y : BitVec w) : BitVec w := (y >>> 1) ^^^ (if y.getLsbD 0 then a else 0)

/-- The recurrence. -/
def IsSeq (P : MTPar w) (x : ℕ → BitVec w) : Prop :=
  ∀ k, x (k + P.n) = x (k + P.m) ^^^ twist P.a (join P.r (x k) (x (k + 1)))

theorem upper_bit (r i : ℕ) : (upper w r).getLsbD i = (decide (i < w) && decide (r ≤ i)) := by
  unfold upper
  rw [BitVec.getLsbD_shiftLeft]
  simp only [BitVec.getLsbD_not]
  have h0 : (0 : BitVec w).getLsbD (i - r) = false := BitVec.getLsbD_zero
  rw [h0]
  by_cases h1 : i < w <;> by_cases h2 : r ≤ i <;> simp [h1, h2]
  all_goals omega

/-- Upper part as a shorter word. -/
def hi (r : ℕ) (x : BitVec w) : BitVec (w - r) := x.extractLsb' r (w - r)

/-- Back to the full length, lower bits zero. -/
def lift (r : ℕ) (h : BitVec (w - r)) : BitVec w := (h.setWidth w) <<< r

theorem hi_bit (r : ℕ) (x : BitVec w) (i : ℕ) : (hi r x).getLsbD i = (decide (i < w - r) && x.getLsbD (r + i)) := by
  unfold hi; rw [BitVec.getLsbD_extractLsb']

theorem lift_bit (r : ℕ) (h : BitVec (w - r)) (i : ℕ) :
    (lift r h).getLsbD i = (decide (i < w) && (decide (r ≤ i) && h.getLsbD (i - r))) := by
  unfold lift
  rw [BitVec.getLsbD_shiftLeft, BitVec.getLsbD_setWidth]
  by_cases h1 : i < w <;> by_cases h2 : r ≤ i
  · have h3 : i - r < w := by omega
    have h4 : ¬ i < r := by omega
    simp [h1, h2, h3, h4]
  · have h4 : i < r := by omega
    simp [h2, h4]
  · simp [h1]
  · simp [h1]

theorem lift_hi (r : ℕ) (x : BitVec w) : lift r (hi r x) = x &&& upper w r := by
  apply BitVec.eq_of_getLsbD_eq
  intro i hi'
  rw [lift_bit, hi_bit, BitVec.getLsbD_and, upper_bit]
  by_cases h2 : r ≤ i
  · have : r + (i - r) = i := by omega
    simp [hi', h2, this]; omega
  · simp [h2]

theorem join_eq (r : ℕ) (u l : BitVec w) : join r u l = lift r (hi r u) ^^^ (l &&& ~~~ upper w r) := by
  rw [lift_hi]
  apply BitVec.eq_of_getLsbD_eq
  intro i _
  simp only [join, BitVec.getLsbD_or, BitVec.getLsbD_and, BitVec.getLsbD_xor, BitVec.getLsbD_not]
  cases (upper w r).getLsbD i <;> simp

theorem hi_xor (r : ℕ) (x y : BitVec w) : hi r (x ^^^ y) = hi r x ^^^ hi r y := by
  apply BitVec.eq_of_getLsbD_eq
  intro i h
  simp only [hi_bit, BitVec.getLsbD_xor]
  cases decide (i < w - r) <;> simp

theorem lift_xor (r : ℕ) (x y : BitVec (w - r)) : lift r (x ^^^ y) = lift r x ^^^ lift r y := by
  apply BitVec.eq_of_getLsbD_eq
  intro i h
  simp only [lift_bit, BitVec.getLsbD_xor]
  cases decide (i < w) <;> cases decide (r ≤ i) <;> simp

theorem lift_inj {r : ℕ} (hr : r ≤ w) {x y : BitVec (w - r)} (h : lift r x = lift r y) : x = y := by
  apply BitVec.eq_of_getLsbD_eq
  intro i hi'
  have := congrArg (fun z => z.getLsbD (r + i)) h
  simp only [lift_bit] at this
  have h1 : r + i < w := by omega
  have h2 : r + i - r = i := by omega
  simpa [h1, h2] using this

theorem twist_xor (a x y : BitVec w) : twist a (x ^^^ y) = twist a x ^^^ twist a y := by
  unfold twist
  rw [shr_xor, BitVec.getLsbD_xor]
  cases x.getLsbD 0 <;> cases y.getLsbD 0 <;> simp
  · ac_rfl
  · ac_rfl
  · have : y >>> 1 ^^^ (x >>> 1 ^^^ a ^^^ a) = y >>> 1 ^^^ x >>> 1 := by
      rw [BitVec.xor_assoc, BitVec.xor_self, BitVec.xor_zero]
    calc x >>> 1 ^^^ y >>> 1 = y >>> 1 ^^^ x >>> 1 := BitVec.xor_comm _ _
      _ = y >>> 1 ^^^ (x >>> 1 ^^^ a ^^^ a) := this.symm
      _ = x >>> 1 ^^^ a ^^^ (y >>> 1 ^^^ a) := by ac_rfl

theorem twist_zero (a : BitVec w) : twist a 0 = 0 := by simp [twist]

/-- Multiplication by the matrix is injective if the highest bit of `a` is set. -/
theorem twist_eq_zero {a : BitVec w} (ha : a.getLsbD (w - 1) = true) {y : BitVec w}
    (h : twist a y = 0) : y = 0 := by
  have hb : ∀ i, ((y >>> 1) ^^^ (if y.getLsbD 0 then a else 0)).getLsbD i = false := fun i => by
    have := congrArg (fun z => z.getLsbD i) h
    simpa [twist] using this
  have hw : 0 < w := by
    rcases Nat.eq_zero_or_pos w with h0 | h0
    · subst h0; simp at ha
    · exact h0
  have h0 : y.getLsbD 0 = false := by
    by_contra hc
    rw [Bool.not_eq_false] at hc
    have := hb (w - 1)
    rw [hc, if_pos rfl, BitVec.getLsbD_xor, ha, BitVec.getLsbD_ushiftRight,
      BitVec.getLsbD_of_ge _ _ (by omega)] at this
    simp at this
  apply BitVec.eq_of_getLsbD_eq
  intro i hi'
  rw [show (0 : BitVec w).getLsbD i = false from BitVec.getLsbD_zero]
  rcases i with _ | i
  · exact h0
  · have := hb i
    rw [h0, BitVec.getLsbD_xor, BitVec.getLsbD_ushiftRight] at this
    simpa [Nat.add_comm] using this

theorem xor_eq_zero' {x y : BitVec w} (h : x ^^^ y = 0) : x = y := by
  have := congrArg (· ^^^ y) h
  simpa [BitVec.xor_assoc] using this

theorem twist_inj {a : BitVec w} (ha : a.getLsbD (w - 1) = true) {x y : BitVec w}
    (h : twist a x = twist a y) : x = y := by
  apply xor_eq_zero'
  apply twist_eq_zero ha
  rw [twist_xor, h, BitVec.xor_self]
  rfl

/-! ## The state space -/

/-- States: upper bits of the oldest word, and the other `n-1` words. -/
abbrev State (P : MTPar w) : Type := Wd (w - P.r) × (Fin (P.n - 1) → Wd w)

theorem finrank_state (P : MTPar w) :
    Module.finrank (ZMod 2) (State P) = (w - P.r) + (P.n - 1) * w := by
  simp [State, Module.finrank_prod, Wd.finrank, Module.finrank_pi_fintype]

/-- Word number `j ≥ 1` of a state. -/
def word {P : MTPar w} (s : State P) (j : ℕ) : BitVec w :=
  if h : j - 1 < P.n - 1 then (s.2 ⟨j - 1, h⟩).val else 0

/-- The next word. -/
def newWord {P : MTPar w} (s : State P) : BitVec w :=
  word s P.m ^^^ twist P.a (lift P.r s.1.val ^^^ (word s 1 &&& ~~~ upper w P.r))

/-- Word number `j` of the state with the new word appended. -/
def wordX {P : MTPar w} (s : State P) (j : ℕ) : BitVec w :=
  if j < P.n then word s j else newWord s

theorem word_add {P : MTPar w} (s t : State P) (j : ℕ) : word (s + t) j = word s j ^^^ word t j := by
  unfold word
  split
  · rfl
  · exact (BitVec.xor_self (x := (0 : BitVec w))).symm

theorem newWord_add {P : MTPar w} (s t : State P) : newWord (s + t) = newWord s ^^^ newWord t := by
  have h1 : (s + t).1.val = s.1.val ^^^ t.1.val := rfl
  have e : lift P.r s.1.val ^^^ lift P.r t.1.val ^^^
      ((word s 1 ^^^ word t 1) &&& ~~~ upper w P.r) =
      (lift P.r s.1.val ^^^ (word s 1 &&& ~~~ upper w P.r)) ^^^
        (lift P.r t.1.val ^^^ (word t 1 &&& ~~~ upper w P.r)) := by
    rw [and_xor]; ac_rfl
  unfold newWord
  rw [word_add, word_add, h1, lift_xor, e, twist_xor]
  ac_rfl

theorem wordX_add {P : MTPar w} (s t : State P) (j : ℕ) : wordX (s + t) j = wordX s j ^^^ wordX t j := by
  unfold wordX
  split
  · exact word_add s t j
  · exact newWord_add s t

/-- One step of the recurrence on states. -/
def T (P : MTPar w) : State P →ₗ[ZMod 2] State P :=
  linOf (fun s => (Wd.of (hi P.r (wordX s 1)), fun j => Wd.of (wordX s (j + 2)))) (by
    intro s t
    apply Prod.ext
    · show Wd.of (hi P.r (wordX (s + t) 1)) = Wd.of (hi P.r (wordX s 1)) + Wd.of (hi P.r (wordX t 1))
      rw [wordX_add, hi_xor, Wd.of_xor]
    · funext j
      show Wd.of (wordX (s + t) (j + 2)) = Wd.of (wordX s (j + 2)) + Wd.of (wordX t (j + 2))
      rw [wordX_add, Wd.of_xor])

theorem T_apply (P : MTPar w) (s : State P) :
    T P s = (Wd.of (hi P.r (wordX s 1)), fun j : Fin (P.n - 1) => Wd.of (wordX s (j + 2))) := rfl

/-- The newest word is a linear function of the state. -/
def newest (P : MTPar w) : State P →ₗ[ZMod 2] Wd w := linOf (fun s => Wd.of (newWord s)) (fun s t => by
  rw [newWord_add, Wd.of_xor])

/-- The state at time `t` of a sequence of words. -/
def seqState (P : MTPar w) (x : ℕ → BitVec w) (t : ℕ) : State P :=
  (Wd.of (hi P.r (x t)), fun j => Wd.of (x (t + 1 + j)))

theorem word_seqState {P : MTPar w} (x : ℕ → BitVec w) (t : ℕ) {j : ℕ} (h1 : 1 ≤ j) (h2 : j < P.n) :
    word (seqState P x t) j = x (t + j) := by
  unfold word
  rw [dif_pos (by omega)]
  show x (t + 1 + (j - 1)) = _
  congr 1; omega

theorem newWord_seqState {P : MTPar w} (hP : P.OK) {x : ℕ → BitVec w} (t : ℕ) :
    newWord (seqState P x t) = x (t + P.m) ^^^ twist P.a (join P.r (x t) (x (t + 1))) := by
  unfold newWord
  have := hP.hm1
  have := hP.hmn
  rw [word_seqState x t hP.hm1 hP.hmn, word_seqState x t le_rfl (by omega), join_eq]
  rfl

theorem wordX_seqState {P : MTPar w} (hP : P.OK) {x : ℕ → BitVec w} (t : ℕ)
    (hx : x (t + P.n) = x (t + P.m) ^^^ twist P.a (join P.r (x t) (x (t + 1)))) {j : ℕ} (h1 : 1 ≤ j)
    (h2 : j ≤ P.n) : wordX (seqState P x t) j = x (t + j) := by
  unfold wordX
  split
  · next h => exact word_seqState x t h1 h
  · next h =>
    have : j = P.n := by omega
    rw [newWord_seqState hP, this, hx]

/-- The linear map is the step of the recurrence. -/
theorem T_seqState' {P : MTPar w} (hP : P.OK) {x : ℕ → BitVec w} (t : ℕ)
    (hx : x (t + P.n) = x (t + P.m) ^^^ twist P.a (join P.r (x t) (x (t + 1)))) :
    T P (seqState P x t) = seqState P x (t + 1) := by
  have := hP.hm1
  have := hP.hmn
  rw [T_apply]
  apply Prod.ext
  · show Wd.of (hi P.r (wordX (seqState P x t) 1)) = _
    rw [wordX_seqState hP t hx le_rfl (by omega)]
    rfl
  · funext j
    show Wd.of (wordX (seqState P x t) (j + 2)) = Wd.of (x (t + 1 + 1 + j))
    rw [wordX_seqState hP t hx (by omega) (by omega)]
    congr 2; omega

theorem T_seqState {P : MTPar w} (hP : P.OK) {x : ℕ → BitVec w} (hx : IsSeq P x) (t : ℕ) :
    T P (seqState P x t) = seqState P x (t + 1) := T_seqState' hP t (hx t)

theorem T_pow_seqState {P : MTPar w} (hP : P.OK) {x : ℕ → BitVec w} (hx : IsSeq P x) (t k : ℕ) :
    (T P ^ k) (seqState P x t) = seqState P x (t + k) := by
  induction k with
  | zero => rfl
  | succ k ih => rw [pow_succ', Module.End.mul_apply, ih, T_seqState hP hx]; rfl

theorem hi_zero (r : ℕ) : hi r (0 : BitVec w) = 0 := by
  apply BitVec.eq_of_getLsbD_eq
  intro i _
  rw [hi_bit]; simp

theorem and_split (r : ℕ) (x : BitVec w) (h1 : hi r x = 0) (h2 : x &&& ~~~ upper w r = 0) : x = 0 := by
  have h3 : x &&& upper w r = 0 := by
    rw [← lift_hi, h1]
    apply BitVec.eq_of_getLsbD_eq
    intro i _
    rw [lift_bit]; simp
  apply BitVec.eq_of_getLsbD_eq
  intro i hi'
  have e2 := congrArg (fun z => z.getLsbD i) h2
  have e3 := congrArg (fun z => z.getLsbD i) h3
  simp only [BitVec.getLsbD_and, BitVec.getLsbD_not, hi', decide_true, Bool.true_and] at e2 e3
  have hz : (0 : BitVec w).getLsbD i = false := BitVec.getLsbD_zero
  rw [hz] at e2 e3 ⊢
  revert e2 e3
  cases x.getLsbD i <;> cases (upper w r).getLsbD i <;> simp

theorem lift_xor_lo_zero {r : ℕ} (hr : r ≤ w) {h : BitVec (w - r)} {l : BitVec w}
    (e : lift r h ^^^ (l &&& ~~~ upper w r) = 0) : h = 0 ∧ l &&& ~~~ upper w r = 0 := by
  have hz : ∀ i, (0 : BitVec w).getLsbD i = false := fun i => BitVec.getLsbD_zero
  have hb : ∀ i, i < w → (lift r h).getLsbD i = (l &&& ~~~ upper w r).getLsbD i := fun i _ =>
    congrArg (fun z => z.getLsbD i) (xor_eq_zero' e)
  have h0 : ∀ i, i < w → (lift r h).getLsbD i = false := by
    intro i hi'
    by_cases h1 : r ≤ i
    · rw [hb i hi', BitVec.getLsbD_and, BitVec.getLsbD_not, upper_bit]; simp [hi', h1]
    · rw [lift_bit]; simp [h1]
  constructor
  · apply lift_inj hr
    apply BitVec.eq_of_getLsbD_eq
    intro i hi'
    rw [h0 i hi', lift_bit]; simp
  · apply BitVec.eq_of_getLsbD_eq
    intro i hi'
    rw [← hb i hi', h0 i hi', hz]

/-- The step is injective if the highest bit of `a` is set (and `m ≥ 2`). -/
theorem T_injective {P : MTPar w} (hP : P.OK) (hm2 : 2 ≤ P.m) (ha : P.a.getLsbD (w - 1) = true) :
    Function.Injective (T P) := by
  have hm1 := hP.hm1
  have hmn := hP.hmn
  rw [injective_iff_map_eq_zero]
  intro s h
  rw [T_apply] at h
  have e1 : hi P.r (wordX s 1) = 0 := congrArg (fun q : State P => q.1.val) h
  have e2 : ∀ j, 2 ≤ j → j ≤ P.n → wordX s j = 0 := fun j h1 h2 => by
    have := congrArg (fun q : State P => (q.2 ⟨j - 2, by omega⟩).val) h
    have h3 : wordX s (j - 2 + 2) = 0 := this
    rwa [show j - 2 + 2 = j by omega] at h3
  -- words 2 … n-1 vanish, and so does the new word
  have e3 : ∀ j, 2 ≤ j → j < P.n → word s j = 0 := fun j h1 h2 => by
    have := e2 j h1 (by omega)
    rwa [wordX, if_pos h2] at this
  have e4 : newWord s = 0 := by
    have := e2 P.n (by omega) le_rfl
    rwa [wordX, if_neg (by omega)] at this
  have hfin : ∀ h0 : s.1.val = 0, (∀ j, 1 ≤ j → j < P.n → word s j = 0) → s = 0 := by
    intro h0 hw
    apply Prod.ext
    · exact Wd.ext h0
    · funext j
      apply Wd.ext
      have := hw (j + 1) (by omega) (by omega)
      rw [word, dif_pos (by omega)] at this
      exact this
  rw [wordX, if_pos (by omega)] at e1
  have e5 := e4
  unfold newWord at e5
  rw [e3 P.m (by omega) hmn] at e5
  have e6 : twist P.a (lift P.r s.1.val ^^^ (word s 1 &&& ~~~ upper w P.r)) = 0 := by
    simpa using e5
  obtain ⟨e7, e8⟩ := lift_xor_lo_zero hP.hr.le (twist_eq_zero ha e6)
  refine hfin e7 fun j hj1 hj2 => ?_
  rcases Nat.lt_or_ge j 2 with h | h
  · have : j = 1 := by omega
    subst this; exact and_split P.r _ e1 e8
  · exact e3 j h hj2

end MTRec

end MTT
