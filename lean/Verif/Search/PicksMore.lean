import Verif.Search.Picks

/-!
# Lemmas on repeated searches
-/

namespace MTT.Search

theorem picks_cases {Q : ℕ → Prop} {lim : ℕ} (idx idx' : List ℕ) : ∀ {k k1 k1' : ℕ}, Picks Q lim k idx k1 →
    Picks Q lim k idx' k1' → TakesNone Q lim k1' → idx.length ≤ idx'.length := by
  induction idx generalizing idx' with
  | nil => exact fun _ _ _ => Nat.zero_le _
  | cons m idx ih =>
    intro k k1 k1' h h' hn
    cases idx' with
    | nil =>
      obtain rfl : k1' = k := h'
      exact (takes_none h.1 hn).elim
    | cons m' idx' =>
      obtain rfl := takes_unique h.1 h'.1
      exact Nat.succ_le_succ (ih idx' h.2 h'.2 hn)

/-- If one part of the entries determines another part, a list that begins like another one in the first part does so in the
second. -/
theorem map_prefix {α β γ : Type} {a : α → β} {b : α → γ} (L L' : List α) (h : L.map a <+: L'.map a)
    (hab : ∀ l ∈ L, ∀ l' ∈ L', a l = a l' → b l = b l') : L.map b <+: L'.map b := by
  induction L generalizing L' with
  | nil => exact List.nil_prefix
  | cons l L ih =>
    cases L' with
    | nil => exact absurd (List.prefix_nil.1 h) (by simp)
    | cons l' L' =>
      rw [List.map_cons, List.map_cons, List.cons_prefix_cons] at h ⊢
      exact ⟨hab l (by simp) l' (by simp) h.1, ih L' h.2 fun x hx y hy => hab x (by simp [hx]) y (by simp [hy])⟩

end MTT.Search
