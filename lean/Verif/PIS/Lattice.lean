import Mathlib.LinearAlgebra.Span.Basic
import Mathlib.LinearAlgebra.Pi
import Mathlib.Algebra.Module.Submodule.Map
import Mathlib.Data.ZMod.Basic
import Mathlib.Algebra.BigOperators.Intervals
import Mathlib.Algebra.BigOperators.Pi
import Mathlib.Tactic.Ring
import Mathlib.Tactic.Linarith
import Mathlib.Tactic.Abel

/-!
# Lattices of formal sequences (helper theory for the PIS algorithm)

A sequence `f : ℤ → V` stands for the formal Laurent series `∑ₜ f t · x^(-t)` with
coefficients in `V = ℕ → ZMod 2` (bit `i` counted from the most significant bit).
Multiplication by `x` is `shift 1`.  This file contains the mathematics only; no part of the
code is modelled here.
-/

namespace MTT.PIS

open Finset

/-- Output words as GF(2) vectors; coordinate `i` is the bit at distance `i` from the MSB. -/
abbrev V := ℕ → ZMod 2

/-- Formal series, coefficient of `x^(-t)` at `t`. -/
abbrev Ser := ℤ → V

/-- Multiplication of a series by `x^j`. -/
def shift (j : ℕ) : Ser →ₗ[ZMod 2] Ser where
  toFun f := fun t => f (t + j)
  map_add' _ _ := rfl
  map_smul' _ _ := rfl

@[simp] theorem shift_apply (j : ℕ) (f : Ser) (t : ℤ) : shift j f t = f (t + j) := rfl

theorem shift_shift (i j : ℕ) (f : Ser) : shift i (shift j f) = shift (i + j) f := by
  funext t; simp [add_assoc]

theorem shift_zero (f : Ser) : shift 0 f = f := by funext t; simp

/-- `i` is the last (least significant) one bit of `x`. -/
def Low (x : V) (i : ℕ) : Prop := x i = 1 ∧ ∀ j, i < j → x j = 0

/-- Keep the first `v` coordinates. -/
def mask (v : ℕ) : V →ₗ[ZMod 2] V where
  toFun x := fun i => if i < v then x i else 0
  map_add' x y := by funext i; by_cases h : i < v <;> simp [h]
  map_smul' c x := by funext i; by_cases h : i < v <;> simp [h]

theorem mask_apply (v : ℕ) (x : V) (i : ℕ) : mask v x i = if i < v then x i else 0 := rfl

theorem mask_eq_self {v : ℕ} {x : V} : mask v x = x ↔ ∀ i, v ≤ i → x i = 0 := by
  constructor
  · intro h i hi
    have := congrFun h i
    rw [mask_apply, if_neg (by omega)] at this
    exact this.symm
  · intro h; funext i
    rw [mask_apply]
    split
    · rfl
    · rw [h i (by omega)]

theorem mask_mask (a b : ℕ) (x : V) : mask a (mask b x) = mask (min a b) x := by
  funext i
  simp only [mask_apply]
  by_cases h1 : i < a <;> by_cases h2 : i < b <;> simp [h1, h2]

theorem two_cases (a : ZMod 2) : a = 0 ∨ a = 1 := by
  revert a; decide

/-! ## Triangular families -/

/-- A triangular family spans all vectors supported below `m`. -/
theorem tri_span (n : ℕ → V) (m : ℕ) (h : ∀ i < m, Low (n i) i) (a : V)
    (ha : ∀ j, m ≤ j → a j = 0) : ∃ α : ℕ → ZMod 2, a = ∑ i ∈ range m, α i • n i := by
  induction m generalizing a with
  | zero => exact ⟨fun _ => 0, by funext j; simpa using ha j (Nat.zero_le _)⟩
  | succ m ih =>
    have hm := h m (by omega)
    obtain ⟨α, hα⟩ := ih (fun i hi => h i (by omega)) (a - a m • n m) (by
      intro j hj
      rcases Nat.lt_or_ge m j with hj' | hj'
      · simp [ha j hj', hm.2 j hj']
      · obtain rfl : j = m := by omega
        simp [hm.1])
    refine ⟨fun i => if i = m then a m else α i, ?_⟩
    rw [sum_range_succ]
    beta_reduce
    rw [if_pos rfl]
    have : ∑ i ∈ range m, (if i = m then a m else α i) • n i = ∑ i ∈ range m, α i • n i := by
      apply sum_congr rfl
      intro i hi
      rw [mem_range] at hi
      rw [if_neg (by omega)]
    rw [this, ← hα]; abel

/-- A triangular family is linearly independent. -/
theorem tri_indep (n : ℕ → V) (m : ℕ) (h : ∀ i < m, Low (n i) i) (α : ℕ → ZMod 2)
    (hs : ∑ i ∈ range m, α i • n i = 0) : ∀ i < m, α i = 0 := by
  induction m with
  | zero => intro i hi; omega
  | succ m ih =>
    have hm := h m (by omega)
    have hc := congrFun hs m
    rw [sum_range_succ, Pi.add_apply, Finset.sum_apply] at hc
    have h0 : ∑ i ∈ range m, (α i • n i) m = 0 := by
      apply sum_eq_zero
      intro i hi
      rw [mem_range] at hi
      simp [(h i (by omega)).2 m hi]
    rw [h0] at hc
    have hαm : α m = 0 := by simpa [hm.1] using hc
    rw [sum_range_succ, hαm, zero_smul, add_zero] at hs
    intro i hi
    rcases Nat.lt_or_ge i m with h' | h'
    · exact ih (fun i hi => h i (by omega)) hs i h'
    · obtain rfl : i = m := by omega
      exact hαm

/-! ## Modules generated under shifting -/

/-- The `GF(2)[x]`-module generated by `e 0 … e (m-1)`. -/
def gens (e : ℕ → Ser) (m : ℕ) : Submodule (ZMod 2) Ser :=
  Submodule.span (ZMod 2) {f | ∃ i < m, ∃ j : ℕ, f = shift j (e i)}

theorem mem_gens (e : ℕ → Ser) {m i : ℕ} (hi : i < m) (j : ℕ) : shift j (e i) ∈ gens e m :=
  Submodule.subset_span ⟨i, hi, j, rfl⟩

theorem mem_gens' (e : ℕ → Ser) {m i : ℕ} (hi : i < m) : e i ∈ gens e m := by
  have := mem_gens e hi 0
  rwa [shift_zero] at this

theorem gens_le {e : ℕ → Ser} {m : ℕ} {N : Submodule (ZMod 2) Ser}
    (hsh : ∀ j, ∀ f ∈ N, shift j f ∈ N) (h : ∀ i < m, e i ∈ N) : gens e m ≤ N := by
  apply Submodule.span_le.2
  rintro f ⟨i, hi, j, rfl⟩
  exact hsh j _ (h i hi)

theorem gens_shift (e : ℕ → Ser) (m : ℕ) (k : ℕ) : ∀ f ∈ gens e m, shift k f ∈ gens e m := by
  intro f hf
  have : gens e m ≤ (gens e m).comap (shift k) := by
    apply Submodule.span_le.2
    rintro f ⟨i, hi, j, rfl⟩
    show shift k (shift j (e i)) ∈ gens e m
    rw [shift_shift]
    exact mem_gens e hi _
  exact this hf

theorem gens_le_gens {e e' : ℕ → Ser} {m m' : ℕ} (h : ∀ i < m, e i ∈ gens e' m') :
    gens e m ≤ gens e' m' :=
  gens_le (gens_shift e' m') h

/-- Elements of `gens` are finite combinations of shifted generators. -/
theorem gens_comb {e : ℕ → Ser} {m : ℕ} {f : Ser} (hf : f ∈ gens e m) :
    ∃ (J : ℕ) (α : ℕ → ℕ → ZMod 2), (∀ i j, J ≤ j → α i j = 0) ∧
      f = ∑ i ∈ range m, ∑ j ∈ range J, α i j • shift j (e i) := by
  induction hf using Submodule.span_induction with
  | mem f h =>
    obtain ⟨i, hi, j, rfl⟩ := h
    refine ⟨j + 1, fun a b => if a = i ∧ b = j then 1 else 0, ?_, ?_⟩
    · intro a b hb
      exact if_neg (by omega)
    · rw [sum_eq_single i, sum_eq_single j]
      · simp
      · intro b _ hb; simp [hb]
      · intro h; exact absurd (mem_range.2 (Nat.lt_succ_self j)) h
      · intro a _ ha
        apply sum_eq_zero
        intro b _; simp [ha]
      · intro h; exact absurd (mem_range.2 hi) h
  | zero => exact ⟨0, fun _ _ => 0, fun _ _ _ => rfl, by simp⟩
  | add f g _ _ ihf ihg =>
    obtain ⟨J, α, hα, rfl⟩ := ihf
    obtain ⟨K, β, hβ, rfl⟩ := ihg
    refine ⟨J + K, fun i j => α i j + β i j, ?_, ?_⟩
    · intro i j hj
      simp only []
      rw [hα i j (by omega), hβ i j (by omega), add_zero]
    · rw [← sum_add_distrib]
      apply sum_congr rfl
      intro i _
      simp only [add_smul, sum_add_distrib]
      congr 1
      · apply sum_subset (range_mono (by omega))
        intro j _ hj
        rw [mem_range, not_lt] at hj
        rw [hα i j hj, zero_smul]
      · apply sum_subset (range_mono (by omega))
        intro j _ hj
        rw [mem_range, not_lt] at hj
        rw [hβ i j hj, zero_smul]
  | smul c f _ ih =>
    obtain ⟨J, α, hα, rfl⟩ := ih
    refine ⟨J, fun i j => c * α i j, ?_, ?_⟩
    · intro i j hj
      simp only []
      rw [hα i j hj, mul_zero]
    · simp only [smul_sum, smul_smul]

/-! ## Reduced bases -/

/-- `e i` starts at position `c i` with leading coefficient `n i`. -/
structure Lead (e : ℕ → Ser) (c : ℕ → ℕ) (n : ℕ → V) (m : ℕ) : Prop where
  below : ∀ i < m, ∀ t : ℤ, t < c i → e i t = 0
  at' : ∀ i < m, e i (c i) = n i
  tri : ∀ i < m, Low (n i) i

/-- A combination vanishing up to position `k` has at position `k+1` a value in the span of those
leading coefficients whose generator starts at `k+1` or later. -/
theorem lead_value {e : ℕ → Ser} {c : ℕ → ℕ} {n : ℕ → V} {m : ℕ} (h : Lead e c n m)
    {f : Ser} (hf : f ∈ gens e m) (k : ℤ) (hz : ∀ t ≤ k, f t = 0) :
    ∃ β : ℕ → ZMod 2, (∀ i < m, (c i : ℤ) < k + 1 → β i = 0) ∧
      f (k + 1) = ∑ i ∈ range m, β i • n i := by
  obtain ⟨J, α, hα, rfl⟩ := gens_comb hf
  set F : Ser := ∑ i ∈ range m, ∑ j ∈ range J, α i j • shift j (e i) with hF
  -- value at `p` once all terms starting before `p` vanish
  have val : ∀ p : ℤ, (∀ i < m, ∀ j : ℕ, (c i : ℤ) - j < p → α i j = 0) →
      F p = ∑ i ∈ range m, (if p ≤ c i then α i ((c i : ℤ) - p).toNat else 0) • n i := by
    intro p hp
    rw [hF, Finset.sum_apply]
    apply sum_congr rfl
    intro i hi
    rw [mem_range] at hi
    rw [Finset.sum_apply]
    have hterm : ∀ j ∈ range J, j ≠ ((c i : ℤ) - p).toNat ∨ ¬ p ≤ c i →
        (α i j • shift j (e i)) p = 0 := by
      intro j _ hj
      rw [Pi.smul_apply, shift_apply]
      rcases lt_trichotomy ((c i : ℤ) - j) p with h1 | h1 | h1
      · rw [hp i hi j h1, zero_smul]
      · exfalso; rcases hj with hj | hj
        · apply hj; omega
        · apply hj; omega
      · rw [h.below i hi _ (by omega), smul_zero]
    by_cases hpc : p ≤ c i
    · rw [if_pos hpc]
      by_cases hJ : ((c i : ℤ) - p).toNat < J
      · rw [sum_eq_single ((c i : ℤ) - p).toNat]
        · rw [Pi.smul_apply, shift_apply]
          have : p + (((c i : ℤ) - p).toNat : ℤ) = c i := by omega
          rw [this, h.at' i hi]
        · intro j hj hne; exact hterm j hj (Or.inl hne)
        · intro hh; exact absurd (mem_range.2 hJ) hh
      · rw [hα i _ (by omega), zero_smul]
        apply sum_eq_zero
        intro j hj
        apply hterm j hj
        left; rw [mem_range] at hj; omega
    · rw [if_neg hpc, zero_smul]
      apply sum_eq_zero
      intro j hj
      exact hterm j hj (Or.inr hpc)
  -- all terms starting at or before `k` vanish
  have van : ∀ d : ℕ, (d : ℤ) ≤ k + 1 + J → ∀ i < m, ∀ j : ℕ, (c i : ℤ) - j < d - J → α i j = 0 := by
    intro d
    induction d with
    | zero =>
      intro _ i _ j hj
      apply hα; omega
    | succ d ih =>
      intro hd i hi j hj
      have ih' := ih (by push_cast at hd ⊢; omega)
      rcases lt_or_ge ((c i : ℤ) - j) (d - J) with h1 | h1
      · exact ih' i hi j h1
      · have hv := val (d - J) ih'
        rw [hz _ (by push_cast at hd; omega)] at hv
        have := tri_indep n m h.tri _ hv.symm i hi
        have h2 : (d : ℤ) - J ≤ c i := by omega
        rw [if_pos h2] at this
        have h3 : ((c i : ℤ) - (d - J)).toNat = j := by push_cast at hj; omega
        rwa [h3] at this
  by_cases hk : 0 ≤ k + 1 + J
  · have hvan : ∀ i < m, ∀ j : ℕ, (c i : ℤ) - j < k + 1 → α i j = 0 := by
      intro i hi j hj
      apply van (k + 1 + J).toNat (by omega) i hi j
      omega
    have hv := val (k + 1) hvan
    refine ⟨_, ?_, hv⟩
    intro i hi hc
    rw [if_neg (by omega)]
  · have hvan : ∀ i < m, ∀ j : ℕ, (c i : ℤ) - j < k + 1 → α i j = 0 := by
      intro i hi j hj
      apply hα; omega
    have hv := val (k + 1) hvan
    refine ⟨_, ?_, hv⟩
    intro i hi hc
    rw [if_neg (by omega)]

/-- Upper bound: if some generator starts at `k`, not every value is possible at `k+1` for elements
vanishing up to `k`. -/
theorem lead_upper {e : ℕ → Ser} {c : ℕ → ℕ} {n : ℕ → V} {m : ℕ} (h : Lead e c n m)
    {i₀ : ℕ} (hi₀ : i₀ < m) {f : Ser} (hf : f ∈ gens e m) (hz : ∀ t ≤ (c i₀ : ℤ), f t = 0) :
    f ((c i₀ : ℤ) + 1) ≠ n i₀ := by
  intro heq
  obtain ⟨β, hβ, hv⟩ := lead_value h hf (c i₀) hz
  rw [heq] at hv
  have hb0 : β i₀ = 0 := hβ i₀ hi₀ (by omega)
  have hs : ∑ i ∈ range m, (β i - if i = i₀ then 1 else 0) • n i = 0 := by
    simp only [sub_smul, sum_sub_distrib, ite_smul, one_smul, zero_smul]
    rw [← hv, Finset.sum_ite_eq' (range m) i₀ n, if_pos (mem_range.2 hi₀), sub_self]
  have := tri_indep n m h.tri _ hs i₀ hi₀
  rw [hb0] at this
  simp at this

/-- Lower bound: prescribed values at positions `1 … k` can be realised when all generators start at
`k` or later. -/
theorem lead_lower {e : ℕ → Ser} {c : ℕ → ℕ} {n : ℕ → V} {m : ℕ} (h : Lead e c n m)
    (hm : ∀ f ∈ gens e m, ∀ t, ∀ i, m ≤ i → f t i = 0)
    (k : ℕ) (hk : ∀ i < m, k ≤ c i) (a : ℕ → V) (ha : ∀ t i, m ≤ i → a t i = 0) :
    ∃ f ∈ gens e m, (∀ t : ℤ, t ≤ 0 → f t = 0) ∧ ∀ t : ℕ, 1 ≤ t → t ≤ k → f t = a t := by
  induction k with
  | zero =>
    exact ⟨0, Submodule.zero_mem _, fun _ _ => rfl, fun t h1 h2 => by omega⟩
  | succ k ih =>
    obtain ⟨f, hf, hf0, hfa⟩ := ih (fun i hi => by have := hk i hi; omega)
    obtain ⟨α, hα⟩ := tri_span n m h.tri (a (k + 1) - f ((k + 1 : ℕ) : ℤ)) (by
      intro j hj
      rw [Pi.sub_apply, ha _ j hj, hm f hf _ j hj, sub_zero])
    refine ⟨f + ∑ i ∈ range m, α i • shift (c i - (k + 1)) (e i), ?_, ?_, ?_⟩
    · apply Submodule.add_mem _ hf
      apply Submodule.sum_mem
      intro i hi
      exact Submodule.smul_mem _ _ (mem_gens e (mem_range.1 hi) _)
    · intro t ht
      rw [Pi.add_apply, hf0 t ht, zero_add, Finset.sum_apply]
      apply sum_eq_zero
      intro i hi
      have hi' := mem_range.1 hi
      have := hk i hi'
      rw [Pi.smul_apply, shift_apply, h.below i hi' _ (by omega), smul_zero]
    · intro t h1 h2
      rw [Pi.add_apply, Finset.sum_apply]
      rcases Nat.lt_or_ge t (k + 1) with h3 | h3
      · rw [hfa t h1 (by omega)]
        rw [sum_eq_zero, add_zero]
        intro i hi
        have hi' := mem_range.1 hi
        have := hk i hi'
        rw [Pi.smul_apply, shift_apply, h.below i hi' _ (by omega), smul_zero]
      · obtain rfl : t = k + 1 := by omega
        have : ∑ i ∈ range m, (α i • shift (c i - (k + 1)) (e i)) ((k + 1 : ℕ) : ℤ)
            = ∑ i ∈ range m, α i • n i := by
          apply sum_congr rfl
          intro i hi
          have hi' := mem_range.1 hi
          have := hk i hi'
          rw [Pi.smul_apply, shift_apply]
          have h5 : (((k + 1 : ℕ) : ℤ) + ((c i - (k + 1) : ℕ) : ℤ)) = c i := by omega
          rw [h5, h.at' i hi']
        rw [this, ← hα]; abel

end MTT.PIS
