import Verif.GF2.Irred

/-!
# Irreducibility by a list of checks

The check of `Irred` with one exponent for each maximal divisor of the degree.
-/

namespace MTT.GF2

open Polynomial PIS

noncomputable section

variable {s n mu N : ℕ}

/-- One check excludes the factors with a degree that divides `m`. -/
theorem no_factor_of_check {m u : ℕ} (hs : 2 ≤ s) (hn : 2 ≤ n) (hns : n + 3 ≤ 2 ^ s) (h : irredCheck s n mu N m u = true) :
    (bitPoly (n + 1) N).natDegree = n ∧ bitPoly (n + 1) N ∣ X ^ 2 ^ n - X ∧
    ∀ g, Irreducible g → g ∣ bitPoly (n + 1) N → ¬ g.natDegree ∣ m := by
  unfold irredCheck at h
  rw [Bool.and_eq_true, Bool.and_eq_true, force_eq, Bool.and_eq_true, force_eq, force_eq, force_eq, force_eq, force_eq,
    Bool.not_eq_true'] at h
  obtain ⟨⟨ht, h1⟩, h2, h3⟩ := h
  have h1 := Nat.eq_of_beq_eq_true h1
  have h2 := Nat.ne_of_beq_eq_false h2
  have h3 := Nat.eq_of_beq_eq_true h3
  have hP : Mod s n (sp s (n + 1) N) (bitPoly (n + 1) N) := ⟨by omega, hns, sp_rep _ _⟩
  obtain ⟨f, hf, hd⟩ := powCheck_spec (by omega) hn hns (Nat.pow_lt_pow_right (by omega) (Nat.lt_succ_self n))
    (by rw [h1]; exact (Nat.two_pow_pos s).ne')
  rw [h1] at hf
  rw [hf.unique (by omega) (rep_X hn), ← dvd_neg, neg_sub] at hd
  obtain ⟨a, ha, hda⟩ := powCheck_spec (by omega) hn hns (Nat.pow_lt_pow_right (by omega) (Nat.lt_succ_self m)) h2
  have h4 : 2 < 2 ^ s := by
    calc 2 < 2 ^ 2 := by decide
      _ ≤ 2 ^ s := Nat.pow_le_pow_right (by omega) hs
  have hw := (ha.add (rep_X hn)).and_mask (by omega) h4
  obtain ⟨v, hv, hdv⟩ := mulMod_spec hP hw (sp_rep n u) (by
    intro e0
    have : (1 : ℕ) = 0 := h3.symm.trans e0
    omega)
  have hv' : Rep s n 1 v := h3 ▸ hv
  rw [hv'.unique (by omega) (rep_one (n := n) (by omega))] at hdv
  refine ⟨bitPoly_natDegree ht, hd, fun g hg hgd hgm => ?_⟩
  have h5 : g ∣ X ^ 2 ^ m - X := frob_dvd (irreducible_dvd_frob hg) hgm
  have h6 : g ∣ a + X := by
    have := dvd_add (hgd.trans hda) h5
    rw [sub_add_sub_cancel] at this
    have e : a + X = a - X := by
      rw [sub_eq_add_neg, CharTwo.neg_eq]
    rwa [e]
  have h7 : g ∣ 1 := by
    have := dvd_add (hgd.trans hdv) (h6.mul_right (bitPoly n u))
    rwa [sub_add_cancel] at this
  exact hg.not_isUnit (isUnit_of_dvd_one h7)

/-- The polynomial is irreducible if every proper divisor of the degree divides the exponent of one of the checks. -/
theorem irreducible_of_checks (hs : 2 ≤ s) (hn : 2 ≤ n) (hns : n + 3 ≤ 2 ^ s)
    (h : ∀ d, d ∣ n → d ≠ n → ∃ m u, d ∣ m ∧ irredCheck s n mu N m u = true) :
    Irreducible (bitPoly (n + 1) N) ∧ (bitPoly (n + 1) N).natDegree = n := by
  obtain ⟨m, u, -, h1⟩ := h 1 (one_dvd _) (by omega)
  obtain ⟨hdeg, hd, -⟩ := no_factor_of_check hs hn hns h1
  refine ⟨?_, hdeg⟩
  have hne : ¬ IsUnit (bitPoly (n + 1) N) := by
    intro hu
    rw [isUnit_iff_one] at hu
    rw [hu, natDegree_one] at hdeg
    omega
  obtain ⟨g, hg, hgd⟩ := WfDvdMonoid.exists_irreducible_factor hne (by intro h0; rw [h0, natDegree_zero] at hdeg; omega)
  have hgn : g.natDegree = n := by
    by_contra hc
    obtain ⟨m, u, h2, h3⟩ := h _ (degree_dvd hg (hgd.trans hd)) hc
    exact (no_factor_of_check hs hn hns h3).2.2 g hg hgd h2
  obtain ⟨c, hc⟩ := hgd
  have hc0 : c ≠ 0 := by
    rintro rfl
    rw [hc, mul_zero, natDegree_zero] at hdeg; omega
  have : c.natDegree = 0 := by
    have h8 := natDegree_mul hg.ne_zero hc0
    rw [← hc, hdeg] at h8
    omega
  rw [hc, (monic_of_ne hc0).natDegree_eq_zero.1 this, mul_one]
  exact hg

end

end MTT.GF2
