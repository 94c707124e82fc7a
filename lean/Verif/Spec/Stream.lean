import Mathlib.SetTheory.Cardinal.Finite

/-!
# Streams of returned values (specification)
-/

namespace MTT

/-- What the calls number 0, 1, 2, … of `gen` return, from the object `s` on. -/
def stream {σ α : Type} (gen : σ → σ × α) (s : σ) (k : ℕ) : α := (gen ((fun t => (gen t).1)^[k] s)).2

/-- The least period of the stream is `p`, already and still so after any number of initial terms is dropped. -/
def HasPeriod {α : Type} (y : ℕ → α) (p : ℕ) : Prop :=
  ∀ K N, (∀ k, K ≤ k → y (k + N) = y k) ↔ p ∣ N

/-- Occurrences of the tuple `v 0, …, v (d-1)` that begin at a time below `p`. -/
noncomputable def occurrences {α : Type} (y : ℕ → α) (p d : ℕ) (v : ℕ → α) : ℕ :=
  Nat.card {k : ℕ // k < p ∧ ∀ j, j < d → y (k + j) = v j}

end MTT
