import Mathlib.Data.Nat.ModEq
import Mathlib.Logic.Function.Basic
import Mathlib.Data.List.Range
import Mathlib.Tactic.Common

/-!
# Ring buffers (helper lemmas)

`rel n a i j` is the word `j` places behind the index `i` in a ring buffer `a` of `n` words.
-/

namespace MTT.Ring

variable {α : Type}

/-- The word `j` places behind index `i`. -/
def rel (n : ℕ) (a : ℕ → α) (i j : ℕ) : α := a ((i + j) % n)

theorem rel_mod (n : ℕ) (a : ℕ → α) (i j : ℕ) : rel n a i (j % n) = rel n a i j := by
  unfold rel; rw [Nat.add_mod_mod]

theorem rel_self (n : ℕ) (a : ℕ → α) (i : ℕ) : rel n a i n = rel n a i 0 := by
  unfold rel; rw [Nat.add_mod_right, Nat.add_zero]

theorem rel_next (n : ℕ) (a : ℕ → α) (i j : ℕ) : rel n a ((i + 1) % n) j = rel n a i (j + 1) := by
  unfold rel; rw [Nat.mod_add_mod]; congr 2; omega

theorem pos_inj {n i j k : ℕ} (hj : j < n) (hk : k < n) (h : (i + j) % n = (i + k) % n) : j = k := by
  have := Nat.ModEq.add_left_cancel' i (show i + j ≡ i + k [MOD n] from h)
  unfold Nat.ModEq at this
  rwa [Nat.mod_eq_of_lt hj, Nat.mod_eq_of_lt hk] at this

/-- Writing the word at place `k`. -/
theorem rel_write {n : ℕ} (a : ℕ → α) (i : ℕ) {k : ℕ} (hk : k < n) (v : α) {j : ℕ} (hj : j < n) :
    rel n (Function.update a ((i + k) % n) v) i j = if j = k then v else rel n a i j := by
  unfold rel
  by_cases h : j = k
  · rw [if_pos h, h, Function.update_self]
  · rw [if_neg h, Function.update_of_ne]
    exact fun e => h (pos_inj hj hk e)

/-- Writing the word at the index. -/
theorem rel_write0 {n : ℕ} (a : ℕ → α) {i : ℕ} (hi : i < n) (v : α) {j : ℕ} (hj : j < n) :
    rel n (Function.update a i v) i j = if j = 0 then v else rel n a i j := by
  have := rel_write a i (k := 0) (by omega) v hj
  rwa [Nat.add_zero, Nat.mod_eq_of_lt hi] at this

/-- A loop which changes place after place. -/
theorem rel_fold {n : ℕ} (g : ℕ → α → α) (i : ℕ) (a : ℕ → α) : ∀ m, m ≤ n → ∀ j, j < n →
    rel n ((List.range m).foldl
      (fun a k => Function.update a ((i + k) % n) (g k (a ((i + k) % n)))) a) i j =
      if j < m then g j (rel n a i j) else rel n a i j
  | 0, _, j, _ => by rw [List.range_zero, List.foldl_nil, if_neg (by omega)]
  | m + 1, hm, j, hj => by
    rw [List.range_succ, List.foldl_append, List.foldl_cons, List.foldl_nil,
      rel_write _ i (k := m) (by omega) _ hj]
    have ih := rel_fold (n := n) g i a m (by omega)
    by_cases h : j = m
    · subst h
      rw [if_pos rfl, if_pos (by omega)]
      have := ih j hj
      rw [if_neg (by omega)] at this
      rw [← this]; rfl
    · rw [if_neg h, ih j hj]
      by_cases h2 : j < m
      · rw [if_pos h2, if_pos (by omega)]
      · rw [if_neg h2, if_neg (by omega)]

end MTT.Ring
