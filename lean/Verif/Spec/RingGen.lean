import Verif.Spec.Ring
import Verif.Spec.Shift

/-!
# Generators on a ring buffer of words (specification and helper lemmas)

A ring buffer of `n` words with its index is seen as the vector of its words, oldest first; the index points
to the newest word.
-/

namespace MTT

/-- Shift by one place; the new word comes last. -/
def shiftIn {α : Type} (n : ℕ) (x : Fin n → α) (v : α) : Fin n → α :=
  fun j => if h : (j : ℕ) + 1 < n then x ⟨j + 1, h⟩ else v

theorem shiftIn_add {α : Type} [Add α] {n : ℕ} (x y : Fin n → α) (u v : α) :
    shiftIn n (x + y) (u + v) = shiftIn n x u + shiftIn n y v := by
  funext j
  unfold shiftIn
  rw [Pi.add_apply]
  by_cases h : (j : ℕ) + 1 < n
  · rw [dif_pos h, dif_pos h, dif_pos h]; rfl
  · rw [dif_neg h, dif_neg h, dif_neg h]

namespace Ring

variable {w n : ℕ}

/-- The words of a ring buffer, oldest first. -/
def vec (n : ℕ) (a : ℕ → BitVec w) (i : ℕ) : Fin n → Wd w := fun j => Wd.of (rel n a i (j + 1))

/-- Reading `k` places behind the incremented index. -/
theorem read (a : ℕ → BitVec w) (i : ℕ) (k : Fin n) :
    a (((i + 1) % n + k) % n) = (vec n a i k).val := by
  show a (((i + 1) % n + k) % n) = a ((i + (k + 1)) % n)
  rw [Nat.mod_add_mod]; congr 2; omega

/-- Reading at the incremented index. -/
theorem read0 (a : ℕ → BitVec w) (i : ℕ) (hn : 0 < n) : a ((i + 1) % n) = (vec n a i ⟨0, hn⟩).val := by
  have := read a i (⟨0, hn⟩ : Fin n)
  rwa [show (((⟨0, hn⟩ : Fin n) : ℕ)) = 0 from rfl, Nat.add_zero, Nat.mod_mod] at this

/-- Reading at the index: the newest word. -/
theorem read_last (a : ℕ → BitVec w) {i : ℕ} (hi : i < n) :
    a i = (vec n a i ⟨n - 1, by omega⟩).val := by
  show a i = a ((i + (n - 1 + 1)) % n)
  rw [show n - 1 + 1 = n by omega, Nat.add_mod_right, Nat.mod_eq_of_lt hi]

/-- Storing at the incremented index. -/
theorem vec_store (a : ℕ → BitVec w) (i : ℕ) (v : BitVec w) :
    vec n (Function.update a ((i + 1) % n) v) ((i + 1) % n) = shiftIn n (vec n a i) (Wd.of v) := by
  funext j
  have hn : 0 < n := by have := j.2; omega
  have hi : (i + 1) % n < n := Nat.mod_lt _ hn
  unfold vec shiftIn
  by_cases h : (j : ℕ) + 1 < n
  · rw [dif_pos h, rel_write0 _ hi _ h, if_neg (by omega), rel_next]
  · rw [dif_neg h, show (j : ℕ) + 1 = n by have := j.2; omega, rel_self, rel_write0 _ hi _ hn, if_pos rfl]

/-- The addition loop. -/
theorem vec_add (a b : ℕ → BitVec w) (i k : ℕ) :
    vec n ((List.range n).foldl (fun a j => Function.update a ((i + j) % n)
      (a ((i + j) % n) ^^^ b ((k + j) % n))) a) i = vec n a i + vec n b k := by
  funext j
  have hn : 0 < n := by have := j.2; omega
  have hm : ((j : ℕ) + 1) % n < n := Nat.mod_lt _ hn
  have h := rel_fold (n := n) (fun j x => x ^^^ b ((k + j) % n)) i a n le_rfl (((j : ℕ) + 1) % n) hm
  rw [if_pos hm, rel_mod, rel_mod] at h
  show Wd.of (rel n _ i (j + 1)) = Wd.of (rel n a i (j + 1)) + Wd.of (rel n b k (j + 1))
  rw [h, Wd.of_xor]
  congr 1
  show Wd.of (b _) = Wd.of (b _)
  rw [Nat.add_mod_mod]

/-- Every cell is one of the words. -/
theorem cell (a : ℕ → BitVec w) {i : ℕ} {k : ℕ} (hk : k < n) :
    ∃ j : Fin n, (vec n a i j).val = a k := by
  refine ⟨⟨(k + n * (i + 1) - (i + 1)) % n, Nat.mod_lt _ (by omega)⟩, ?_⟩
  show a ((i + ((k + n * (i + 1) - (i + 1)) % n + 1)) % n) = a k
  congr 1
  rw [show i + ((k + n * (i + 1) - (i + 1)) % n + 1) = (k + n * (i + 1) - (i + 1)) % n + (i + 1) by omega,
    Nat.mod_add_mod]
  have : i + 1 ≤ n * (i + 1) := Nat.le_mul_of_pos_left _ (by omega)
  rw [show k + n * (i + 1) - (i + 1) + (i + 1) = k + n * (i + 1) by omega, Nat.add_mul_mod_self_left,
    Nat.mod_eq_of_lt hk]

/-- All cells are zero iff the vector is zero. -/
theorem vec_eq_zero (a : ℕ → BitVec w) (i : ℕ) : vec n a i = 0 ↔ ∀ k, k < n → a k = 0 := by
  constructor
  · intro h k hk
    obtain ⟨j, hj⟩ := cell a (i := i) hk
    rw [← hj, h]; rfl
  · intro h
    funext j
    have hn : 0 < n := by have := j.2; omega
    show Wd.of (a _) = Wd.of 0
    rw [h _ (Nat.mod_lt _ hn)]

/-- The loop that clears the cells. -/
theorem clear (m : ℕ) (a : ℕ → BitVec w) {i : ℕ} (h : i < m) :
    (List.range m).foldl (fun a i => Function.update a i 0) a i = 0 := by
  induction m with
  | zero => omega
  | succ m ih =>
    rw [List.range_succ, List.foldl_append, List.foldl_cons, List.foldl_nil]
    by_cases hm : i = m
    · rw [hm, Function.update_self]
    · rw [Function.update_of_ne hm]
      exact ih (by omega)

theorem vec_clear (a : ℕ → BitVec w) (i : ℕ) :
    vec n ((List.range n).foldl (fun a i => Function.update a i 0) a) i = 0 :=
  (vec_eq_zero _ _).2 fun _ hk => clear n a hk

/-- `n` words of `w` bits form a space of dimension `n * w`. -/
theorem finrank (n w : ℕ) : Module.finrank (ZMod 2) (Fin n → Wd w) = n * w := by
  rw [Module.finrank_pi_fintype]
  simp [Wd.finrank]

end Ring

end MTT
