import Verif.GF2.Cert
import Verif.Spec.Primitive

/-!
# Certificates for the order of `X` and for irreducibility
-/

namespace MTT.GF2

open Polynomial

/-- The result of `powX` modulo the polynomial. -/
def powCheck (s n mu N k e : Nat) : Nat :=
  force (sp s (n + 1) N) fun P => force (sp s (n + 1) mu) fun mu => force (mask s (2 * n)) fun M => force (2 ^ s) fun B =>
    powX (s * n) M mu P B k e

section

variable {s n mu N : ℕ}

theorem powCheck_spec (hs : 1 ≤ s) (hn : 2 ≤ n) (hns : n + 3 ≤ 2 ^ s) {k e : ℕ} (he : e < 2 ^ k) (h : powCheck s n mu N k e ≠ 0) :
    ∃ f, Rep s n (powCheck s n mu N k e) f ∧ bitPoly (n + 1) N ∣ f - X ^ e := by
  unfold powCheck at h ⊢
  rw [force_eq, force_eq, force_eq, force_eq] at h ⊢
  exact powX_spec ⟨hs, hns, sp_rep _ _⟩ hn k e he h

theorem rep_natDegree_lt {r : ℕ} {f : (ZMod 2)[X]} (hf : Rep s n r f) (hn : 1 ≤ n) : f.natDegree < n := by
  by_cases h0 : f = 0
  · rw [h0, natDegree_zero]; omega
  · exact hf.natDegree_lt h0

/-- A power of `X` that is one. -/
theorem pow_one_of_check (hs : 1 ≤ s) (hn : 2 ≤ n) (hns : n + 3 ≤ 2 ^ s) {k e : ℕ} (he : e < 2 ^ k)
    (h : powCheck s n mu N k e = 1) : bitPoly (n + 1) N ∣ X ^ e - 1 := by
  obtain ⟨f, hf, hd⟩ := powCheck_spec hs hn hns he (by rw [h]; exact one_ne_zero)
  rw [h] at hf
  rw [hf.unique hs (rep_one (n := n) (by omega)), ← dvd_neg, neg_sub] at hd
  exact hd

/-- A power of `X` that is not one. -/
theorem pow_ne_one_of_check (hs : 1 ≤ s) (hn : 2 ≤ n) (hns : n + 3 ≤ 2 ^ s) (ht : N.testBit n = true) {k e : ℕ} (he : e < 2 ^ k)
    (h0 : powCheck s n mu N k e ≠ 0) (h1 : powCheck s n mu N k e ≠ 1) : ¬ bitPoly (n + 1) N ∣ X ^ e - 1 := by
  obtain ⟨f, hf, hd⟩ := powCheck_spec hs hn hns he h0
  intro hc
  have h6 : bitPoly (n + 1) N ∣ f - 1 := by
    have := dvd_add hd hc
    rwa [sub_add_sub_cancel] at this
  have h7 : f - 1 = 0 := by
    by_contra hne
    have h8 := natDegree_le_of_dvd h6 hne
    rw [bitPoly_natDegree ht] at h8
    have h9 := rep_natDegree_lt hf (by omega)
    have h10 := natDegree_sub_le f 1
    rw [natDegree_one] at h10
    omega
  rw [sub_eq_zero] at h7
  rw [h7] at hf
  exact h1 (rep_one_unique hf)

/-- What the kernel has to evaluate for irreducibility: `X^(2^n) = X`, and `X^(2^m) - X` has the inverse `u`. -/
def irredCheck (s n mu N m u : Nat) : Bool :=
  Nat.testBit N n && Nat.beq (powCheck s n mu N (n + 1) (2 ^ n)) (2 ^ s) &&
    force (powCheck s n mu N (m + 1) (2 ^ m)) fun a => !Nat.beq a 0 &&
      force (mask s (2 * n)) fun M => force (mask s n) fun M1 =>
      force (sp s (n + 1) N) fun P => force (sp s (n + 1) mu) fun mu => force (sp s n u) fun u =>
        Nat.beq (mulMod (s * n) M mu P (Nat.land (a + 2 ^ s) M1) u) 1

theorem frob_dvd {g : (ZMod 2)[X]} {a b : ℕ} (h : g ∣ X ^ 2 ^ a - X) (hab : a ∣ b) : g ∣ X ^ 2 ^ b - X := by
  obtain ⟨c, rfl⟩ := hab
  induction c with
  | zero => rw [mul_zero, pow_zero, pow_one, sub_self]; exact dvd_zero _
  | succ c ih =>
    have e : (X ^ 2 ^ (a * (c + 1)) - X : (ZMod 2)[X]) = ((X ^ 2 ^ (a * c)) ^ 2 ^ a - X ^ 2 ^ a) + (X ^ 2 ^ a - X) := by
      rw [← pow_mul, ← pow_add, mul_add, mul_one]; ring
    rw [e]
    exact dvd_add (ih.trans (sub_dvd_pow_sub_pow _ _ _)) h

theorem degree_dvd {g : (ZMod 2)[X]} (hg : Irreducible g) {n : ℕ} (h : g ∣ X ^ 2 ^ n - X) : g.natDegree ∣ n := by
  have h1 := frob_dvd (irreducible_dvd_frob hg) (b := g.natDegree * (n / g.natDegree)) (dvd_mul_right _ _)
  by_contra hd
  have hd0 : 1 ≤ n % g.natDegree := by
    rcases Nat.eq_zero_or_pos (n % g.natDegree) with h0 | h0
    · exact absurd (Nat.dvd_of_mod_eq_zero h0) hd
    · exact h0
  have hg1 : 1 ≤ g.natDegree := by
    by_contra hc
    exact hg.not_isUnit (isUnit_iff_one.2 ((monic_of_ne hg.ne_zero).natDegree_eq_zero.1 (by omega)))
  refine irreducible_not_dvd_frob hg hd0 (Nat.mod_lt _ (by omega)) ?_
  have e : (X ^ 2 ^ n : (ZMod 2)[X]) = (X ^ 2 ^ (g.natDegree * (n / g.natDegree))) ^ 2 ^ (n % g.natDegree) := by
    rw [← pow_mul, ← pow_add, Nat.div_add_mod]
  have h2 := h1.trans (sub_dvd_pow_sub_pow (X ^ 2 ^ (g.natDegree * (n / g.natDegree))) X (2 ^ (n % g.natDegree)))
  rw [← e] at h2
  have := dvd_sub h h2
  rwa [sub_sub_sub_cancel_left] at this

theorem irreducible_of_check {m u : ℕ} (hs : 2 ≤ s) (hn : 2 ≤ n) (hns : n + 3 ≤ 2 ^ s) (hm : ∀ d, d ∣ n → d ≠ n → d ∣ m)
    (h : irredCheck s n mu N m u = true) : Irreducible (bitPoly (n + 1) N) ∧ (bitPoly (n + 1) N).natDegree = n := by
  unfold irredCheck at h
  rw [Bool.and_eq_true, Bool.and_eq_true, force_eq, Bool.and_eq_true, force_eq, force_eq, force_eq, force_eq, force_eq,
    Bool.not_eq_true'] at h
  obtain ⟨⟨ht, h1⟩, h2, h3⟩ := h
  have h1 := Nat.eq_of_beq_eq_true h1
  have h2 := Nat.ne_of_beq_eq_false h2
  have h3 := Nat.eq_of_beq_eq_true h3
  have hdeg := bitPoly_natDegree ht
  have hP : Mod s n (sp s (n + 1) N) (bitPoly (n + 1) N) := ⟨by omega, hns, sp_rep _ _⟩
  obtain ⟨f, hf, hd⟩ := powCheck_spec (by omega) hn hns (Nat.pow_lt_pow_right (by omega) (Nat.lt_succ_self n))
    (by rw [h1]; exact (Nat.two_pow_pos s).ne')
  rw [h1] at hf
  rw [hf.unique (by omega) (rep_X hn), ← dvd_neg, neg_sub] at hd
  obtain ⟨a, ha, hda⟩ := powCheck_spec (by omega) hn hns (Nat.pow_lt_pow_right (by omega) (Nat.lt_succ_self m)) h2
  have h4 : 2 < 2 ^ s := by
    calc 2 < 2 ^ 2 := by decide
      _ ≤ 2 ^ s := Nat.pow_le_pow_right (by omega) hs
  have hw := (ha.add (rep_X hn)).and_mask (by omega) h4
  obtain ⟨v, hv, hdv⟩ := mulMod_spec hP hw (sp_rep n u) (by
    intro e0
    have : (1 : ℕ) = 0 := h3.symm.trans e0
    omega)
  have hv' : Rep s n 1 v := h3 ▸ hv
  rw [hv'.unique (by omega) (rep_one (n := n) (by omega))] at hdv
  refine ⟨?_, hdeg⟩
  have hne : ¬ IsUnit (bitPoly (n + 1) N) := by
    intro hu
    rw [isUnit_iff_one] at hu
    rw [hu, natDegree_one] at hdeg
    omega
  obtain ⟨g, hg, hgd⟩ := WfDvdMonoid.exists_irreducible_factor hne (by intro h0; rw [h0, natDegree_zero] at hdeg; omega)
  have hgn : g.natDegree = n := by
    by_contra hc
    have hgm := hm _ (degree_dvd hg (hgd.trans hd)) hc
    have h5 : g ∣ X ^ 2 ^ m - X := frob_dvd (irreducible_dvd_frob hg) hgm
    have h6 : g ∣ a + X := by
      have := dvd_add (hgd.trans hda) h5
      rw [sub_add_sub_cancel] at this
      have e : a + X = a - X := by
        rw [sub_eq_add_neg, CharTwo.neg_eq]
      rwa [e]
    have h7 : g ∣ 1 := by
      have := dvd_add (hgd.trans hdv) (h6.mul_right (bitPoly n u))
      rwa [sub_add_cancel] at this
    exact hg.not_isUnit (isUnit_of_dvd_one h7)
  obtain ⟨c, hc⟩ := hgd
  have hc0 : c ≠ 0 := by
    rintro rfl
    rw [hc, mul_zero, natDegree_zero] at hdeg; omega
  have : c.natDegree = 0 := by
    have h8 := natDegree_mul hg.ne_zero hc0
    rw [← hc, hdeg] at h8
    omega
  rw [hc, (monic_of_ne hc0).natDegree_eq_zero.1 this, mul_one]
  exact hg

end

end MTT.GF2
