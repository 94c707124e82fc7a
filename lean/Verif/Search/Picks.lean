import Mathlib.Data.Nat.Find
import Mathlib.Data.List.Basic

/-!
# Which numbers of a sequence a repeated search takes

Vocabulary of C121: the sets of a parameter source are numbered; `Q i` says that set `i` is good.
-/

namespace MTT.Search

/-- A search that looks at no more than `lim` sets, starting with set `k`, takes set `m`: it is the first good one. -/
def Takes (Q : ℕ → Prop) (lim k m : ℕ) : Prop := k ≤ m ∧ m < k + lim ∧ Q m ∧ ∀ i, k ≤ i → i < m → ¬ Q i

/-- It takes none. -/
def TakesNone (Q : ℕ → Prop) (lim k : ℕ) : Prop := ∀ i, k ≤ i → i < k + lim → ¬ Q i

/-- Search after search, each going on behind the set that the one before has taken: the first starts with set `k`, they take
the sets `idx`, and the next search will start with set `k'`. -/
def Picks (Q : ℕ → Prop) (lim : ℕ) : ℕ → List ℕ → ℕ → Prop
  | k, [], k' => k' = k
  | k, m :: idx, k' => Takes Q lim k m ∧ Picks Q lim (m + 1) idx k'

/-- A search takes a set or none. -/
theorem takes_or (Q : ℕ → Prop) (lim k : ℕ) : (∃ m, Takes Q lim k m) ∨ TakesNone Q lim k := by
  classical
  by_cases h : ∃ j, j < lim ∧ Q (k + j)
  · refine .inl ⟨k + Nat.find h, Nat.le_add_right _ _, ?_, (Nat.find_spec h).2, fun i h1 h2 hQ => ?_⟩
    · have := (Nat.find_spec h).1
      omega
    · have hlt : i - k < Nat.find h := by omega
      refine Nat.find_min h hlt ⟨?_, by rw [show k + (i - k) = i by omega]; exact hQ⟩
      have := (Nat.find_spec h).1
      omega
  · refine .inr fun i h1 h2 hQ => h ⟨i - k, by omega, by rw [show k + (i - k) = i by omega]; exact hQ⟩

theorem takes_unique {Q : ℕ → Prop} {lim k m m' : ℕ} (h : Takes Q lim k m) (h' : Takes Q lim k m') : m = m' := by
  obtain ⟨a1, -, a3, a4⟩ := h
  obtain ⟨b1, -, b3, b4⟩ := h'
  by_contra hne
  rcases Nat.lt_or_gt_of_ne hne with hl | hl
  · exact b4 m a1 hl a3
  · exact a4 m' b1 hl b3

theorem takes_none {Q : ℕ → Prop} {lim k m : ℕ} (h : Takes Q lim k m) (h' : TakesNone Q lim k) : False :=
  h' m h.1 h.2.1 h.2.2.1

/-- The sets taken are determined: of two runs one continues the other. -/
theorem picks_prefix {Q : ℕ → Prop} {lim : ℕ} (idx idx' : List ℕ) : ∀ {k k1 k1' : ℕ}, Picks Q lim k idx k1 →
    Picks Q lim k idx' k1' → idx.length ≤ idx'.length → idx <+: idx' := by
  induction idx generalizing idx' with
  | nil => exact fun _ _ _ => List.nil_prefix
  | cons m idx ih =>
    intro k k1 k1' h h' hl
    cases idx' with
    | nil => simp at hl
    | cons m' idx' =>
      obtain rfl := takes_unique h.1 h'.1
      obtain ⟨t, ht⟩ := ih idx' h.2 h'.2 (by simpa using hl)
      exact ⟨t, by rw [← ht]; rfl⟩

end MTT.Search
