import Mathlib.NumberTheory.LucasLehmer

/-!
# The Lucas–Lehmer test in a form the kernel computes quickly

`run` iterates `s ↦ s² - 2` modulo `2^p - 1` on natural numbers; `Good` relates its values to Mathlib's sequence.
-/

namespace MTT.Mexp

open LucasLehmer

/-- Reduction of `y` modulo `2^p - 1` (`M = 2^p - 1`), not complete. -/
def fold (M p y : Nat) : Nat := Nat.add (Nat.land y M) (Nat.shiftRight y p)

/-- One step of the sequence (`c = M - 2`). -/
def step (M c p s : Nat) : Nat := fold M p (fold M p (Nat.add (Nat.mul s s) c))

/-- `k x`, where `x` is evaluated first. -/
def force {α : Type} (x : Nat) (k : Nat → α) : α :=
  Nat.rec (motive := fun _ => α) (k 0) (fun n _ => k (Nat.succ n)) x

/-- `k` steps. -/
def run (M c p k : Nat) : Nat → Nat :=
  Nat.rec (motive := fun _ => Nat → Nat) (fun s => s) (fun _ ih s => force (step M c p s) ih) k

/-- `k` steps from `s`. -/
def steps (p k s : Nat) : Nat := force (2 ^ p - 1) fun M => force (M - 2) fun c => run M c p k s

/-- The residue of the test. -/
def residue (p : Nat) : Nat := force (2 ^ p - 1) fun M => force (M - 2) fun c => Nat.mod (run M c p (p - 2) 4) M

theorem force_eq {α : Type} (x : ℕ) (k : ℕ → α) : force x k = k x := by cases x <;> rfl

theorem run_succ (M c p k s : ℕ) : run M c p (k + 1) s = run M c p k (step M c p s) :=
  force_eq _ _

theorem fold_cast (p y : ℕ) : ((fold (2 ^ p - 1) p y : ℕ) : ZMod (2 ^ p - 1)) = y := by
  have h1 : fold (2 ^ p - 1) p y = y % 2 ^ p + y / 2 ^ p := by
    show (y &&& (2 ^ p - 1)) + (y >>> p) = _
    rw [Nat.and_two_pow_sub_one_eq_mod, Nat.shiftRight_eq_div_pow]
  have h2 : ((2 ^ p : ℕ) : ZMod (2 ^ p - 1)) = 1 := by
    have h := ZMod.natCast_self (2 ^ p - 1)
    rwa [Nat.cast_sub Nat.one_le_two_pow, sub_eq_zero, Nat.cast_one] at h
  conv_rhs => rw [← Nat.mod_add_div y (2 ^ p)]
  rw [h1, Nat.cast_add, Nat.cast_add, Nat.cast_mul, h2, one_mul]

theorem step_cast {p : ℕ} (hp : 2 ≤ p) (s : ℕ) :
    ((step (2 ^ p - 1) (2 ^ p - 1 - 2) p s : ℕ) : ZMod (2 ^ p - 1)) = (s : ZMod (2 ^ p - 1)) ^ 2 - 2 := by
  unfold step
  rw [fold_cast, fold_cast]
  show ((s * s + (2 ^ p - 1 - 2) : ℕ) : ZMod (2 ^ p - 1)) = _
  have h : 2 ^ 2 ≤ 2 ^ p := Nat.pow_le_pow_right (by decide) hp
  rw [Nat.cast_add, Nat.cast_sub (by omega), ZMod.natCast_self, Nat.cast_mul, pow_two, zero_sub,
    sub_eq_add_neg, Nat.cast_ofNat]

/-- `s` is element `i` of the Lucas–Lehmer sequence modulo `2^p - 1`. -/
def Good (p i s : ℕ) : Prop := (s : ZMod (2 ^ p - 1)) = sZMod p i

theorem good_zero (p : ℕ) : Good p 0 4 := by
  show ((4 : ℕ) : ZMod (2 ^ p - 1)) = 4
  rfl

theorem run_good {p : ℕ} (hp : 2 ≤ p) (k : ℕ) : ∀ i s, Good p i s →
    Good p (i + k) (run (2 ^ p - 1) (2 ^ p - 1 - 2) p k s) := by
  induction k with
  | zero => intro i s h; exact h
  | succ k ih =>
    intro i s h
    rw [run_succ, show i + (k + 1) = (i + 1) + k by omega]
    refine ih _ _ ?_
    unfold Good at h ⊢
    rw [step_cast hp, h]
    rfl

theorem Good.next {p i s k t : ℕ} (h : Good p i s) (hp : Nat.ble 2 p = true) (e : Nat.beq (steps p k s) t = true) :
    Good p (i + k) t := by
  rw [← Nat.eq_of_beq_eq_true e]
  unfold steps
  rw [force_eq, force_eq]
  exact run_good (Nat.le_of_ble_eq_true hp) k i s h

/-- Every element of the sequence modulo `2^p - 1` that is a multiple of it shows that it is prime. -/
theorem Good.prime {p i s : ℕ} (h : Good p i s) (hp : Nat.ble 2 p = true) (hi : Nat.beq (p - 2) i = true)
    (hs : Nat.beq (Nat.mod s (2 ^ p - 1)) 0 = true) : (2 ^ p - 1).Prime := by
  have hp := Nat.le_of_ble_eq_true hp
  refine lucas_lehmer_sufficiency p (by omega) ?_
  show sZMod p (p - 2) = 0
  rw [Nat.eq_of_beq_eq_true hi]
  rw [← show ((s : ℕ) : ZMod (2 ^ p - 1)) = sZMod p i from h]
  exact (ZMod.natCast_eq_zero_iff _ _).2 (Nat.dvd_of_mod_eq_zero (Nat.eq_of_beq_eq_true hs))

theorem residue_eq (p : ℕ) : residue p = run (2 ^ p - 1) (2 ^ p - 1 - 2) p (p - 2) 4 % (2 ^ p - 1) := by
  unfold residue; rw [force_eq, force_eq]; rfl

theorem prime_of_residue {p : ℕ} (hp : Nat.ble 2 p = true) (h : Nat.beq (residue p) 0 = true) : (2 ^ p - 1).Prime := by
  have hg := run_good (Nat.le_of_ble_eq_true hp) (p - 2) 0 4 (good_zero p)
  rw [Nat.zero_add] at hg
  exact hg.prime hp (Nat.beq_refl _) (by rw [← h, residue_eq]; rfl)

theorem not_prime_of_residue {p : ℕ} (hp : Nat.ble 3 p = true) (h : Nat.beq (residue p) 0 = false) :
    ¬ (2 ^ p - 1).Prime := by
  intro hm
  have hp := Nat.le_of_ble_eq_true hp
  have h0 : sZMod p (p - 2) = 0 := lucas_lehmer_necessity p hp hm
  have hg := run_good (by omega) (p - 2) 0 4 (good_zero p)
  rw [Nat.zero_add] at hg
  have hg : ((run (2 ^ p - 1) (2 ^ p - 1 - 2) p (p - 2) 4 : ℕ) : ZMod (2 ^ p - 1)) = sZMod p (p - 2) := hg
  rw [h0, ZMod.natCast_eq_zero_iff] at hg
  have h1 : residue p = 0 := by rw [residue_eq]; exact Nat.mod_eq_zero_of_dvd hg
  rw [h1] at h
  exact absurd h (by decide)

theorem not_prime_of_factor {p q : ℕ} (h : (Nat.ble 2 q && Nat.ble (q + 1) (2 ^ p - 1) && Nat.beq ((2 ^ p - 1) % q) 0) = true) :
    ¬ (2 ^ p - 1).Prime := by
  simp only [Bool.and_eq_true] at h
  obtain ⟨⟨h1, h2⟩, h3⟩ := h
  have h1 := Nat.le_of_ble_eq_true h1
  have h2 := Nat.le_of_ble_eq_true h2
  intro hm
  rcases (Nat.dvd_prime hm).1 (Nat.dvd_of_mod_eq_zero (Nat.eq_of_beq_eq_true h3)) with h | h <;> omega

end MTT.Mexp
