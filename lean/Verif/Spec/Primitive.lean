import Mathlib.RingTheory.AdjoinRoot
import Mathlib.FieldTheory.Finite.Basic
import Mathlib.GroupTheory.OrderOfElement
import Mathlib.Algebra.CharP.Frobenius
import Mathlib.Algebra.CharP.Algebra
import Mathlib.RingTheory.PowerBasis

/-!
# Primitive polynomials over GF(2): specification and field theory

`Primitive2 p n` is the specification: `p` has degree `n` and `x^k ≡ 1 (mod p)` exactly for the multiples
`k` of `2^n - 1`.
-/

namespace MTT

open Polynomial

/-- Primitive polynomial of degree `n`: the order of `x` modulo `p` is `2^n-1`. -/
def Primitive2 (p : (ZMod 2)[X]) (n : ℕ) : Prop :=
  p.natDegree = n ∧ ∀ k : ℕ, p ∣ X ^ k - 1 ↔ 2 ^ n - 1 ∣ k

theorem z2_eq_one {c : ZMod 2} (h : c ≠ 0) : c = 1 := by
  revert h; revert c; decide

theorem monic_of_ne {p : (ZMod 2)[X]} (h : p ≠ 0) : p.Monic :=
  z2_eq_one (leadingCoeff_ne_zero.2 h)

theorem isUnit_iff_one {p : (ZMod 2)[X]} : IsUnit p ↔ p = 1 := by
  constructor
  · intro h
    exact (monic_of_ne h.ne_zero).isUnit_iff.1 h
  · rintro rfl; exact isUnit_one

theorem eq_of_associated {p q : (ZMod 2)[X]} (h : Associated p q) : p = q := by
  obtain ⟨u, hu⟩ := h
  rw [← hu, isUnit_iff_one.1 u.isUnit, mul_one]

theorem eq_of_dvd_dvd {p q : (ZMod 2)[X]} (h : p ∣ q) (h' : q ∣ p) : p = q :=
  eq_of_associated (associated_of_dvd_dvd h h')

/-- The number of residues modulo `p`. -/
theorem adjoin_finite {p : (ZMod 2)[X]} (h : p ≠ 0) : Finite (AdjoinRoot p) := by
  have := (monic_of_ne h).finite_adjoinRoot
  exact Module.finite_of_finite (ZMod 2)

theorem adjoin_card {p : (ZMod 2)[X]} (h : p ≠ 0) : Nat.card (AdjoinRoot p) = 2 ^ p.natDegree := by
  have := (monic_of_ne h).finite_adjoinRoot
  have := (monic_of_ne h).free_adjoinRoot
  have h2 := Module.natCard_eq_pow_finrank (K := ZMod 2) (V := AdjoinRoot p)
  rw [Nat.card_zmod] at h2
  rw [h2]
  congr 1
  have := (AdjoinRoot.powerBasis h).finrank
  rw [this, AdjoinRoot.powerBasis_dim]

theorem root_pow_eq_one {p : (ZMod 2)[X]} {k : ℕ} : AdjoinRoot.root p ^ k = 1 ↔ p ∣ X ^ k - 1 := by
  rw [← AdjoinRoot.mk_X, ← map_pow, ← (AdjoinRoot.mk p).map_one, AdjoinRoot.mk_eq_mk]

theorem one_le_two_pow_sub {n : ℕ} (hn : 1 ≤ n) : 0 < 2 ^ n - 1 := by
  have := Nat.pow_le_pow_right (n := 2) (by omega) hn
  omega

theorem two_pow_ge {n : ℕ} (hn : 2 ≤ n) : 4 ≤ 2 ^ n := by
  have := Nat.pow_le_pow_right (n := 2) (by omega) hn
  omega

/-- An irreducible polynomial of degree at least two does not divide `X`. -/
theorem not_dvd_X {p : (ZMod 2)[X]} (hd : 2 ≤ p.natDegree) : ¬ p ∣ X := by
  intro h
  have := natDegree_le_of_dvd h X_ne_zero
  rw [natDegree_X] at this
  omega

/-- Modulo an irreducible polynomial of degree `n ≥ 2`, `x^(2^n-1) = 1`. -/
theorem irreducible_pow {p : (ZMod 2)[X]} (hp : Irreducible p) (hd : 2 ≤ p.natDegree) :
    p ∣ X ^ (2 ^ p.natDegree - 1) - 1 := by
  have := Fact.mk hp
  have hfin := adjoin_finite hp.ne_zero
  have := Fintype.ofFinite (AdjoinRoot p)
  rw [← root_pow_eq_one]
  have hne : AdjoinRoot.root p ≠ 0 := by
    rw [← AdjoinRoot.mk_X, Ne, AdjoinRoot.mk_eq_zero]
    exact not_dvd_X hd
  have := FiniteField.pow_card_sub_one_eq_one (AdjoinRoot.root p) hne
  rwa [← Nat.card_eq_fintype_card, adjoin_card hp.ne_zero] at this

/-- Irreducible and passing the tests for all prime divisors of `2^n-1`: primitive. -/
theorem primitive_of_tests {p : (ZMod 2)[X]} (hp : Irreducible p) {n : ℕ} (hn : p.natDegree = n)
    (hn2 : 2 ≤ n)
    (ht : ∀ q, q.Prime → q ∣ 2 ^ n - 1 → ¬ p ∣ X ^ ((2 ^ n - 1) / q) - 1) : Primitive2 p n := by
  refine ⟨hn, fun k => ?_⟩
  have hord : orderOf (AdjoinRoot.root p) = 2 ^ n - 1 := by
    apply orderOf_eq_of_pow_and_pow_div_prime (one_le_two_pow_sub (by omega))
    · rw [root_pow_eq_one, ← hn]
      exact irreducible_pow hp (by omega)
    · intro q hq hq2
      rw [Ne, root_pow_eq_one]
      exact ht q hq hq2
  rw [← root_pow_eq_one, ← orderOf_dvd_iff_pow_eq_one, hord]

/-- A primitive polynomial is irreducible. -/
theorem Primitive2.irreducible {p : (ZMod 2)[X]} {n : ℕ} (hn : 1 ≤ n) (h : Primitive2 p n) :
    Irreducible p := by
  obtain ⟨hd, hk⟩ := h
  have hp0 : p ≠ 0 := by rintro rfl; rw [natDegree_zero] at hd; omega
  have hm := monic_of_ne hp0
  have hfin := adjoin_finite hp0
  have hcard := adjoin_card hp0
  rw [hd] at hcard
  have hpos := one_le_two_pow_sub hn
  have hord : orderOf (AdjoinRoot.root p) = 2 ^ n - 1 := by
    apply Nat.dvd_antisymm
    · rw [orderOf_dvd_iff_pow_eq_one, root_pow_eq_one, hk]
    · rw [← hk, ← root_pow_eq_one, pow_orderOf_eq_one]
  have hnt : Nontrivial (AdjoinRoot p) := by
    apply AdjoinRoot.nontrivial
    rw [degree_eq_natDegree hp0, hd]
    intro h0
    have : n = 0 := by exact_mod_cast h0
    omega
  have hunit : IsUnit (AdjoinRoot.root p) :=
    IsUnit.of_pow_eq_one (pow_orderOf_eq_one _) (by omega)
  -- every non-zero residue is a power of the root
  have hall : ∀ y : AdjoinRoot p, y ≠ 0 → IsUnit y := by
    let φ : Fin (2 ^ n - 1) → {y : AdjoinRoot p // y ≠ 0} := fun i =>
      ⟨AdjoinRoot.root p ^ (i : ℕ), (hunit.pow _).ne_zero⟩
    have hφ : Function.Injective φ := by
      intro i j hij
      have h1 : AdjoinRoot.root p ^ (i : ℕ) = AdjoinRoot.root p ^ (j : ℕ) := congrArg Subtype.val hij
      apply Fin.ext
      exact pow_injOn_Iio_orderOf (by rw [hord]; exact i.2) (by rw [hord]; exact j.2) h1
    have hc : Nat.card {y : AdjoinRoot p // y ≠ 0} = 2 ^ n - 1 := by
      classical
      have := Fintype.ofFinite (AdjoinRoot p)
      rw [Nat.card_eq_fintype_card, Fintype.card_subtype_compl, Fintype.card_subtype_eq,
        ← Nat.card_eq_fintype_card, hcard]
    have hb : Function.Bijective φ := by
      apply hφ.bijective_of_nat_card_le
      rw [Nat.card_fin, hc]
    intro y hy
    obtain ⟨i, hi⟩ := hb.2 ⟨y, hy⟩
    have : AdjoinRoot.root p ^ (i : ℕ) = y := congrArg Subtype.val hi
    rw [← this]
    exact hunit.pow _
  refine ⟨fun hu => ?_, fun a b hab => ?_⟩
  · rw [isUnit_iff_one] at hu
    rw [hu, natDegree_one] at hd
    omega
  · by_contra hcon
    push Not at hcon
    have ha0 : a ≠ 0 := fun h0 => hp0 (by rw [hab, h0, zero_mul])
    have hb0 : b ≠ 0 := fun h0 => hp0 (by rw [hab, h0, mul_zero])
    have hda : a.natDegree ≠ 0 := fun h0 => hcon.1 (by
      rw [isUnit_iff_one]; exact (monic_of_ne ha0).natDegree_eq_zero.1 h0)
    have hdb : b.natDegree ≠ 0 := fun h0 => hcon.2 (by
      rw [isUnit_iff_one]; exact (monic_of_ne hb0).natDegree_eq_zero.1 h0)
    have hdeg : p.natDegree = a.natDegree + b.natDegree := by rw [hab, natDegree_mul ha0 hb0]
    have hna : AdjoinRoot.mk p a ≠ 0 := AdjoinRoot.mk_ne_zero_of_natDegree_lt hm ha0 (by omega)
    have hnb : AdjoinRoot.mk p b ≠ 0 := AdjoinRoot.mk_ne_zero_of_natDegree_lt hm hb0 (by omega)
    have h0 : AdjoinRoot.mk p a * AdjoinRoot.mk p b = 0 := by
      rw [← map_mul, ← hab, AdjoinRoot.mk_self]
    exact hnb ((hall _ hna).mul_right_eq_zero.1 h0)

/-- An irreducible polynomial of degree `m` divides `X^(2^m) + X`. -/
theorem irreducible_dvd_frob {q : (ZMod 2)[X]} (hq : Irreducible q) :
    q ∣ X ^ 2 ^ q.natDegree - X := by
  have := Fact.mk hq
  have hfin := adjoin_finite hq.ne_zero
  have := Fintype.ofFinite (AdjoinRoot q)
  rw [← AdjoinRoot.mk_eq_mk, map_pow, AdjoinRoot.mk_X]
  have := FiniteField.pow_card (AdjoinRoot.root q)
  rwa [← Nat.card_eq_fintype_card, adjoin_card hq.ne_zero] at this

/-- An irreducible polynomial of degree greater than `m ≥ 1` does not divide `X^(2^m) + X`. -/
theorem irreducible_not_dvd_frob {q : (ZMod 2)[X]} (hq : Irreducible q) {m : ℕ} (hm1 : 1 ≤ m)
    (hm : m < q.natDegree) : ¬ q ∣ X ^ 2 ^ m - X := by
  intro h
  have := Fact.mk hq
  have hfin := adjoin_finite hq.ne_zero
  have := Fintype.ofFinite (AdjoinRoot q)
  have hchar : CharP (AdjoinRoot q) 2 := charP_of_injective_algebraMap
    (algebraMap (ZMod 2) (AdjoinRoot q)).injective 2
  have hroot : AdjoinRoot.root q ^ 2 ^ m = AdjoinRoot.root q := by
    rw [← AdjoinRoot.mk_X, ← map_pow, AdjoinRoot.mk_eq_mk]; exact h
  have hfix : ∀ y : AdjoinRoot q, y ^ 2 ^ m = y := by
    have he : (iterateFrobenius (AdjoinRoot q) 2 m) = RingHom.id _ := by
      apply AdjoinRoot.ringHom_ext
      · exact RingHom.ext_zmod _ _
      · simpa [iterateFrobenius_def] using hroot
    intro y
    have := congrArg (fun f : AdjoinRoot q →+* AdjoinRoot q => f y) he
    simpa [iterateFrobenius_def] using this
  have hne : (X ^ 2 ^ m - X : (AdjoinRoot q)[X]) ≠ 0 :=
    FiniteField.X_pow_card_pow_sub_X_ne_zero _ (by omega) (by omega)
  have hcard := card_roots' (X ^ 2 ^ m - X : (AdjoinRoot q)[X])
  rw [FiniteField.X_pow_card_pow_sub_X_natDegree_eq _ (by omega) (by omega)] at hcard
  classical
  have h2 : Finset.univ ⊆ (X ^ 2 ^ m - X : (AdjoinRoot q)[X]).roots.toFinset := by
    intro y _
    rw [Multiset.mem_toFinset, mem_roots hne]
    simp [hfix]
  have h3 := (Finset.card_le_card h2).trans ((Multiset.toFinset_card_le _).trans hcard)
  rw [Finset.card_univ, ← Nat.card_eq_fintype_card, adjoin_card hq.ne_zero] at h3
  have := Nat.pow_lt_pow_right (a := 2) (by omega) hm
  omega

end MTT
