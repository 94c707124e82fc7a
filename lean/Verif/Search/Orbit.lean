import Verif.Search.Props

/-!
# Maximal period means one orbit
-/

namespace MTT.Search

open Polynomial PIS

variable {S : Type} [AddCommGroup S] [Module (ZMod 2) S] {T : S →ₗ[ZMod 2] S}

theorem card_space [Module.Finite (ZMod 2) S] : Nat.card S = 2 ^ Module.finrank (ZMod 2) S := by
  have := Module.natCard_eq_pow_finrank (K := ZMod 2) (V := S)
  rwa [Nat.card_zmod] at this

/-- If a vector has period exactly `2^n-1` in a space of dimension `n ≥ 1`, its orbit contains every
non-zero vector. -/
theorem orbit_all [Module.Finite (ZMod 2) S] {n : ℕ} (hn : 1 ≤ n) (hdim : Module.finrank (ZMod 2) S = n)
    {x : S} (hx : x ≠ 0) (hper : ∀ k, (T ^ k) x = x ↔ 2 ^ n - 1 ∣ k) {y : S} (hy : y ≠ 0) :
    ∃ k, 1 ≤ k ∧ (T ^ k) x = y := by
  have hfin : Finite S := Module.finite_of_finite (ZMod 2)
  have hpos := one_le_two_pow_sub hn
  have hN : (T ^ (2 ^ n - 1)) x = x := (hper _).2 (dvd_refl _)
  have hret : ∀ k, k < 2 ^ n - 1 → (T ^ (2 ^ n - 1 - k)) ((T ^ k) x) = x := fun k hk => by
    rw [← Module.End.mul_apply, ← pow_add, show 2 ^ n - 1 - k + k = 2 ^ n - 1 by omega, hN]
  let φ : Fin (2 ^ n - 1) → {z : S // z ≠ 0} := fun i => ⟨(T ^ (i : ℕ)) x, fun h0 => hx (by
    rw [← hret i i.2, h0, map_zero])⟩
  have hφ : Function.Injective φ := by
    have key : ∀ i j : Fin (2 ^ n - 1), (T ^ (i : ℕ)) x = (T ^ (j : ℕ)) x → (i : ℕ) ≤ j → i = j := by
      intro i j e hle
      have h1 : (T ^ (2 ^ n - 1 - i.1 + j.1)) x = x := by
        rw [pow_add, Module.End.mul_apply, ← e, hret i i.2]
      rw [hper] at h1
      have hi := i.2
      have hj := j.2
      apply Fin.ext
      obtain ⟨c, hc⟩ := h1
      rcases c with _ | _ | c
      · omega
      · omega
      · exfalso
        have : (2 ^ n - 1) * 2 ≤ (2 ^ n - 1) * (c + 1 + 1) := Nat.mul_le_mul_left _ (by omega)
        omega
    intro i j hij
    have e : (T ^ (i : ℕ)) x = (T ^ (j : ℕ)) x := congrArg Subtype.val hij
    rcases le_total (i : ℕ) j with h | h
    · exact key i j e h
    · exact (key j i e.symm h).symm
  have hc : Nat.card {z : S // z ≠ 0} = 2 ^ n - 1 := by
    classical
    have := Fintype.ofFinite S
    rw [Nat.card_eq_fintype_card, Fintype.card_subtype_compl, Fintype.card_subtype_eq,
      ← Nat.card_eq_fintype_card, card_space, hdim]
  have hbij : Function.Bijective φ := by
    apply (Nat.bijective_iff_injective_and_card φ).2
    exact ⟨hφ, by rw [Nat.card_fin, hc]⟩
  obtain ⟨i, hi⟩ := hbij.2 ⟨y, hy⟩
  have e : (T ^ (i : ℕ)) x = y := congrArg Subtype.val hi
  refine ⟨i + (2 ^ n - 1), by omega, ?_⟩
  rw [pow_add, Module.End.mul_apply, hN, e]

theorem cyc_top [Module.Finite (ZMod 2) S] {n : ℕ} (hn : 1 ≤ n) (hdim : Module.finrank (ZMod 2) S = n)
    {x : S} (hx : x ≠ 0) (hper : ∀ k, (T ^ k) x = x ↔ 2 ^ n - 1 ∣ k) : cyc T x = ⊤ := by
  rw [eq_top_iff]
  rintro y -
  by_cases hy : y = 0
  · rw [hy]; exact Submodule.zero_mem _
  · obtain ⟨k, _, hk⟩ := orbit_all hn hdim hx hper hy
    rw [← hk]
    exact Submodule.subset_span ⟨k, rfl⟩

end MTT.Search
