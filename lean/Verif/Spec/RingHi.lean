import Verif.Spec.RingGen
import Verif.Spec.MTRec

/-!
# Ring buffers whose oldest word counts only in its upper bits (specification and helper lemmas)
-/

namespace MTT.RingHi

open MTRec

variable {w n r : ℕ}

/-- The upper `w - r` bits of the oldest word, and the other words, oldest first. -/
abbrev S (w n r : ℕ) : Type := Wd (w - r) × (Fin (n - 1) → Wd w)

theorem finrank (hn : 1 ≤ n) (hr : r ≤ w) : Module.finrank (ZMod 2) (S w n r) + r = n * w := by
  rw [Module.finrank_prod, Ring.finrank, Wd.finrank]
  have : n * w = (n - 1) * w + w := by
    obtain ⟨m, rfl⟩ : ∃ m, n = m + 1 := ⟨n - 1, by omega⟩
    rw [Nat.add_sub_cancel]; ring
  omega

/-- Word number `j`; of word 0 the lower `r` bits are 0. -/
def word (s : S w n r) (j : ℕ) : BitVec w :=
  if j = 0 then lift r s.1.val else if h : j - 1 < n - 1 then (s.2 ⟨j - 1, h⟩).val else 0

theorem word_add (s t : S w n r) (j : ℕ) : word (s + t) j = word s j ^^^ word t j := by
  unfold word
  by_cases h0 : j = 0
  · rw [if_pos h0, if_pos h0, if_pos h0]; exact lift_xor _ _ _
  · rw [if_neg h0, if_neg h0, if_neg h0]
    by_cases h : j - 1 < n - 1
    · rw [dif_pos h, dif_pos h, dif_pos h]; rfl
    · rw [dif_neg h, dif_neg h, dif_neg h]
      exact (BitVec.xor_zero (x := (0 : BitVec w))).symm

/-- Shift by one word; `v` comes last. -/
def shift (s : S w n r) (v : BitVec w) : S w n r :=
  (Wd.of (hi r (word s 1)), fun j => if h : (j : ℕ) + 1 < n - 1 then s.2 ⟨j + 1, h⟩ else Wd.of v)

theorem shift_add (s t : S w n r) (u v : BitVec w) : shift (s + t) (u ^^^ v) = shift s u + shift t v := by
  unfold shift
  rw [word_add, hi_xor]
  refine Prod.ext rfl ?_
  funext j
  show (if h : (j : ℕ) + 1 < n - 1 then (s + t).2 ⟨j + 1, h⟩ else Wd.of (u ^^^ v)) =
    (if h : (j : ℕ) + 1 < n - 1 then s.2 ⟨j + 1, h⟩ else Wd.of u) +
    (if h : (j : ℕ) + 1 < n - 1 then t.2 ⟨j + 1, h⟩ else Wd.of v)
  by_cases h : (j : ℕ) + 1 < n - 1
  · rw [dif_pos h, dif_pos h, dif_pos h]; rfl
  · rw [dif_neg h, dif_neg h, dif_neg h]; rfl

/-- The effective part of a full vector of words. -/
def proj (n r : ℕ) (x : Fin n → Wd w) : S w n r :=
  (Wd.of (hi r (if h : 0 < n then (x ⟨0, h⟩).val else 0)),
    fun j => x ⟨(j : ℕ) + 1, by have := j.2; omega⟩)

theorem proj_add (x y : Fin n → Wd w) : proj n r (x + y) = proj n r x + proj n r y := by
  unfold proj
  refine Prod.ext ?_ rfl
  show Wd.of (hi r (if h : 0 < n then ((x + y) ⟨0, h⟩).val else 0)) = Wd.of (hi r _) + Wd.of (hi r _)
  by_cases h : 0 < n
  · rw [dif_pos h, dif_pos h, dif_pos h, ← Wd.of_xor, ← hi_xor]; rfl
  · rw [dif_neg h, dif_neg h, dif_neg h, ← Wd.of_xor, ← hi_xor]
    rw [show (0 : BitVec w) ^^^ 0 = 0 from BitVec.xor_zero]

theorem proj_zero : proj n r (0 : Fin n → Wd w) = 0 := by
  have := proj_add (r := r) (0 : Fin n → Wd w) 0
  rw [add_zero] at this
  exact left_eq_add.1 this

theorem word_proj0 (x : Fin n → Wd w) (hn : 0 < n) : word (proj n r x) 0 = (x ⟨0, hn⟩).val &&& upper w r := by
  unfold word proj
  rw [if_pos rfl, dif_pos hn]
  exact lift_hi _ _

theorem word_proj (x : Fin n → Wd w) {j : ℕ} (h1 : 1 ≤ j) (hj : j < n) :
    word (proj n r x) j = (x ⟨j, hj⟩).val := by
  unfold word proj
  rw [if_neg (by omega), dif_pos (by omega)]
  have e : (⟨j - 1 + 1, by omega⟩ : Fin n) = ⟨j, hj⟩ := Fin.ext (by show j - 1 + 1 = j; omega)
  show (x ⟨j - 1 + 1, _⟩).val = _
  rw [e]

theorem proj_shiftIn (hn : 2 ≤ n) (x : Fin n → Wd w) (v : BitVec w) :
    proj n r (shiftIn n x (Wd.of v)) = shift (proj n r x) v := by
  unfold shift
  rw [word_proj x le_rfl (by omega)]
  unfold proj shiftIn
  refine Prod.ext ?_ ?_
  · show Wd.of (hi r (dite _ _ _)) = _
    rw [dif_pos (show 0 < n by omega), dif_pos (show 0 + 1 < n by omega)]
  · funext j
    show (if h : (j : ℕ) + 1 + 1 < n then x ⟨j + 1 + 1, h⟩ else Wd.of v) =
      (if h : (j : ℕ) + 1 < n - 1 then x ⟨j + 1 + 1, by omega⟩ else Wd.of v)
    by_cases h : (j : ℕ) + 1 + 1 < n
    · rw [dif_pos h, dif_pos (by omega)]
    · rw [dif_neg h, dif_neg (by omega)]

/-- A state whose words are zero is zero. -/
theorem eq_zero (hr : r ≤ w) {s : S w n r} (h : ∀ j, j < n → word s j = 0) (hn : 0 < n) : s = 0 := by
  refine Prod.ext ?_ ?_
  · have := h 0 hn
    unfold word at this
    rw [if_pos rfl] at this
    have h0 : lift r (0 : BitVec (w - r)) = 0 := by
      apply BitVec.eq_of_getLsbD_eq
      intro i _
      rw [lift_bit]
      simp
    exact Wd.ext (lift_inj hr (this.trans h0.symm))
  · funext j
    have := h (j + 1) (by have := j.2; omega)
    unfold word at this
    rw [if_neg (by omega), dif_pos (by have := j.2; omega)] at this
    exact Wd.ext this

/-- A shift gives zero only if all words but the oldest bits are zero. -/
theorem shift_zero {s : S w n r} {v : BitVec w} (hn : 2 ≤ n) (h : shift s v = 0) :
    hi r (word s 1) = 0 ∧ (∀ j, 2 ≤ j → j < n → word s j = 0) ∧ v = 0 := by
  have h1 := congrArg Prod.fst h
  have h2 := congrArg Prod.snd h
  refine ⟨h1, ?_, ?_⟩
  · intro j hj hjn
    have := congrFun h2 ⟨j - 2, by omega⟩
    unfold shift at this
    dsimp only at this
    rw [dif_pos (by omega)] at this
    unfold word
    rw [if_neg (by omega), dif_pos (by omega)]
    have e : (⟨j - 2 + 1, by omega⟩ : Fin (n - 1)) = ⟨j - 1, by omega⟩ := Fin.ext (by show j - 2 + 1 = j - 1; omega)
    rw [e] at this
    rw [this]; rfl
  · have := congrFun h2 ⟨n - 2, by omega⟩
    unfold shift at this
    dsimp only at this
    rw [dif_neg (by omega)] at this
    exact this

end MTT.RingHi
