import Verif.Period.Props

/-!
# C31: `hasFactorOfDegree`
-/

namespace MTT.Period

open Polynomial

theorem deg_of_ne {p : (ZMod 2)[X]} (h : p ≠ 0) : deg p = p.natDegree := if_neg h

/-- The inner loop removes from `poly` a factor all of whose irreducible factors divide `t`; it stops with
`poly` coprime to `t`, or with a polynomial of small degree.  It never runs out of fuel. -/
theorem innerLoop_spec (t : (ZMod 2)[X]) (degree : ℕ) : ∀ (fuel : ℕ) (poly : (ZMod 2)[X]),
    poly ≠ 0 → poly.natDegree < fuel →
    (∃ r, innerLoop t degree fuel poly = .small r ∧ r ≠ 0 ∧ r ∣ poly ∧ r.natDegree < degree ∧
      ∀ q, Irreducible q → ¬ q ∣ t → q ∣ poly → q ∣ r) ∨
    (∃ r, innerLoop t degree fuel poly = .done r ∧ r ≠ 0 ∧ r ∣ poly ∧ IsCoprime r t ∧
      (r = poly ∨ degree ≤ r.natDegree) ∧
      ∀ q, Irreducible q → ¬ q ∣ t → q ∣ poly → q ∣ r) := by
  intro fuel
  induction fuel with
  | zero => intro poly _ h; omega
  | succ fuel ih =>
    intro poly hp0 hfuel
    unfold innerLoop
    set alpha := EuclideanDomain.gcd poly t with halpha
    have hdvd : alpha ∣ poly := EuclideanDomain.gcd_dvd_left _ _
    have hdvdt : alpha ∣ t := EuclideanDomain.gcd_dvd_right _ _
    have ha0 : alpha ≠ 0 := fun h => hp0 (by rw [h] at hdvd; exact zero_dvd_iff.1 hdvd)
    by_cases h1 : alpha = 1
    · right
      refine ⟨poly, by simp only [h1, if_true], hp0, dvd_refl _, ?_, Or.inl rfl, ?_⟩
      · rw [← EuclideanDomain.gcd_isUnit_iff, isUnit_iff_one]; exact h1
      · intro q _ _ h; exact h
    · obtain ⟨r, hr⟩ := hdvd
      have hr0 : r ≠ 0 := fun h => hp0 (by rw [hr, h, mul_zero])
      have hdiv : poly / alpha = r := by
        rw [hr]; exact mul_div_cancel_left₀ _ ha0
      have hdeg : poly.natDegree = alpha.natDegree + r.natDegree := by
        rw [hr, natDegree_mul ha0 hr0]
      have hda : alpha.natDegree ≠ 0 := fun h =>
        h1 ((monic_of_ne ha0).natDegree_eq_zero.1 h)
      have hkeep : ∀ q, Irreducible q → ¬ q ∣ t → q ∣ poly → q ∣ r := by
        intro q hq hqt hh
        have : q ∣ alpha * r := by rw [← hr]; exact hh
        rcases hq.prime.dvd_or_dvd this with h2 | h2
        · exact absurd (h2.trans hdvdt) hqt
        · exact h2
      simp only [if_neg h1, hdiv, deg_of_ne hr0]
      by_cases h2 : r.natDegree < degree
      · left
        exact ⟨r, by rw [if_pos (by exact_mod_cast h2)], hr0, ⟨alpha, by rw [hr]; ring⟩, h2, hkeep⟩
      · rw [if_neg (by exact_mod_cast h2)]
        have hrp : r ∣ poly := ⟨alpha, by rw [hr]; ring⟩
        rcases ih r hr0 (by omega) with ⟨r', e1, e2, e3, e4, e5⟩ | ⟨r', e1, e2, e3, e4, e5, e6⟩
        · left
          refine ⟨r', e1, e2, e3.trans hrp, e4, fun q hq hqt hh => ?_⟩
          exact e5 q hq hqt (hkeep q hq hqt hh)
        · right
          refine ⟨r', e1, e2, e3.trans hrp, e4, Or.inr ?_, fun q hq hqt hh => ?_⟩
          · rcases e5 with rfl | h3
            · omega
            · exact h3
          · exact e6 q hq hqt (hkeep q hq hqt hh)

theorem two_eq_zero' : (2 : (ZMod 2)[X]) = 0 := CharTwo.two_eq_zero

/-- Invariant of the outer loop at iteration `m`. -/
structure OInv (f : (ZMod 2)[X]) (degree m : ℕ) (poly t2m t : (ZMod 2)[X]) : Prop where
  ne : poly ≠ 0
  dvd : poly ∣ f
  ge : degree ≤ poly.natDegree
  t2 : poly ∣ t2m - X ^ 2 ^ m
  tt : poly ∣ t - (X ^ 2 ^ m - X)
  small : ∀ q, Irreducible q → q.natDegree < m → ¬ q ∣ poly
  keep : ∀ q, Irreducible q → m ≤ q.natDegree → q ∣ f → q ∣ poly

theorem outerLoop_spec (f : (ZMod 2)[X]) (hf : f ≠ 0) {degree : ℕ} (hd : 1 ≤ degree) :
    ∀ (fuel m : ℕ) (poly t2m t : (ZMod 2)[X]), 1 ≤ m → f.natDegree + 2 ≤ fuel + m → 1 ≤ fuel →
    OInv f degree m poly t2m t →
    ∃ b r, outerLoop degree fuel poly t2m t = some (b, r) ∧ r ∣ f ∧
      (b = true → Irreducible r ∧ r.natDegree = degree) ∧
      (∀ g h, f = g * h → Irreducible g → g.natDegree = degree →
        (∀ q, Irreducible q → q ∣ h → q.natDegree < degree) → b = true) := by
  intro fuel
  induction fuel with
  | zero => intro m _ _ _ _ _ h; omega
  | succ fuel ih =>
    intro m poly t2m t hm hfuel _ I
    unfold outerLoop
    rw [deg_of_ne I.ne]
    have hle : poly.natDegree ≤ f.natDegree := natDegree_le_of_dvd I.dvd hf
    -- an irreducible factor that divides `t` and `poly` divides `X^(2^m) - X`
    have hqt : ∀ q, q ∣ poly → (q ∣ t ↔ q ∣ X ^ 2 ^ m - X) := by
      intro q hq
      exact (dvd_iff_dvd_of_dvd_sub (hq.trans I.tt))
    -- in the good case, `g` divides `poly` while `m ≤ degree`, and `poly/g` divides `h`
    have hgood : ∀ g h, f = g * h → Irreducible g → g.natDegree = degree →
        (∀ q, Irreducible q → q ∣ h → q.natDegree < degree) → degree < poly.natDegree →
        m < degree := by
      intro g h hfg hg hgd hh hlt
      by_contra hcon
      -- every irreducible factor of poly has degree ≥ m ≥ degree, so it divides g
      have h0 : h ≠ 0 := fun h0 => hf (by rw [hfg, h0, mul_zero])
      have hcop : IsCoprime poly h := by
        rw [← EuclideanDomain.gcd_isUnit_iff]
        by_contra hnu
        have hne : EuclideanDomain.gcd poly h ≠ 0 := by
          rw [Ne, EuclideanDomain.gcd_eq_zero_iff]; tauto
        obtain ⟨q, hq, hqd⟩ := WfDvdMonoid.exists_irreducible_factor hnu hne
        have h1 := hh q hq (hqd.trans (EuclideanDomain.gcd_dvd_right _ _))
        exact I.small q hq (by omega) (hqd.trans (EuclideanDomain.gcd_dvd_left _ _))
      have hpg : poly ∣ g := hcop.dvd_of_dvd_mul_right (by rw [← hfg]; exact I.dvd)
      have := natDegree_le_of_dvd hpg hg.ne_zero
      omega
    by_cases h1 : degree < poly.natDegree
    · rw [if_pos (by exact_mod_cast h1)]
      rcases innerLoop_spec t degree (poly.natDegree + 1) poly I.ne (by omega) with
        ⟨r, e1, e2, e3, e4, e5⟩ | ⟨r, e1, e2, e3, e4, e5, e6⟩
      · rw [e1]
        refine ⟨false, r, rfl, e3.trans I.dvd, by simp, ?_⟩
        intro g h hfg hg hgd hh
        exfalso
        have hmd := hgood g h hfg hg hgd hh h1
        have hgp : g ∣ poly := I.keep g hg (by omega) ⟨h, hfg⟩
        have hgt : ¬ g ∣ t := by
          rw [hqt g hgp]; exact irreducible_not_dvd_frob hg hm (by omega)
        have := natDegree_le_of_dvd (e5 g hg hgt hgp) e2
        omega
      · rw [e1]
        have hr1 : degree ≤ r.natDegree := by
          rcases e5 with rfl | h2
          · exact h1.le
          · exact h2
        -- some irreducible factor of `poly`, so `m` is at most the degree of `f`
        have hmle : m ≤ f.natDegree := by
          have hnu : ¬ IsUnit poly := by
            rw [isUnit_iff_one]; rintro rfl; rw [natDegree_one] at h1; omega
          obtain ⟨q, hq, hqd⟩ := WfDvdMonoid.exists_irreducible_factor hnu I.ne
          by_contra hcon
          have := natDegree_le_of_dvd hqd I.ne
          exact I.small q hq (by omega) hqd
        have hstep : r ∣ (t2m * t2m) % r - X ^ 2 ^ (m + 1) := by
          have h2 : r ∣ t2m * t2m - (t2m * t2m) % r := by
            have := EuclideanDomain.div_add_mod (t2m * t2m) r
            exact ⟨t2m * t2m / r, by linear_combination -this⟩
          have h3 : r ∣ t2m * t2m - X ^ 2 ^ (m + 1) := by
            obtain ⟨c, hc⟩ := e3.trans I.t2
            refine ⟨c * (t2m + X ^ 2 ^ m), ?_⟩
            have e : (X : (ZMod 2)[X]) ^ 2 ^ (m + 1) = X ^ 2 ^ m * X ^ 2 ^ m := by
              rw [← pow_add]; congr 1; rw [pow_succ]; ring
            rw [e]
            linear_combination (t2m + X ^ 2 ^ m) * hc
          have := dvd_sub h3 h2
          have e : t2m * t2m - X ^ 2 ^ (m + 1) - (t2m * t2m - t2m * t2m % r)
            = t2m * t2m % r - X ^ 2 ^ (m + 1) := by ring
          rwa [e] at this
        have I' : OInv f degree (m + 1) r ((t2m * t2m) % r) ((t2m * t2m) % r + X) :=
          { ne := e2
            dvd := e3.trans I.dvd
            ge := hr1
            t2 := hstep
            tt := by
              have e : (t2m * t2m) % r + X - (X ^ 2 ^ (m + 1) - X)
                = (t2m * t2m) % r - X ^ 2 ^ (m + 1) := by
                linear_combination X * two_eq_zero'
              rw [e]; exact hstep
            small := by
              intro q hq hqm hqr
              have hqp := hqr.trans e3
              rcases Nat.lt_or_ge q.natDegree m with h2 | h2
              · exact I.small q hq h2 hqp
              · have h3 : q.natDegree = m := by omega
                have h4 : q ∣ t := by
                  rw [hqt q hqp, ← h3]; exact irreducible_dvd_frob hq
                exact hq.not_isUnit (e4.isUnit_of_dvd' hqr h4)
            keep := by
              intro q hq hqm hqf
              have hqp := I.keep q hq (by omega) hqf
              apply e6 q hq _ hqp
              rw [hqt q hqp]
              exact irreducible_not_dvd_frob hq hm (by omega) }
        exact ih (m + 1) r _ _ (by omega) (by omega) (by omega) I'
    · have heq : poly.natDegree = degree := le_antisymm (by omega) I.ge
      rw [if_neg (by exact_mod_cast h1), if_neg (by rw [heq]; simp)]
      refine ⟨_, poly, rfl, I.dvd, fun hb => ⟨by simpa [isIrreducible] using hb, heq⟩, ?_⟩
      intro g h hfg hg hgd hh
      have hgp : g ∣ poly := by
        by_cases hmd : m ≤ degree
        · exact I.keep g hg (by omega) ⟨h, hfg⟩
        · exfalso
          have hnu : ¬ IsUnit poly := by
            rw [isUnit_iff_one]; rintro rfl; rw [natDegree_one] at heq; omega
          obtain ⟨q, hq, hqd⟩ := WfDvdMonoid.exists_irreducible_factor hnu I.ne
          have := natDegree_le_of_dvd hqd I.ne
          exact I.small q hq (by omega) hqd
      have : poly = g := by
        obtain ⟨c, hc⟩ := hgp
        have hc0 : c ≠ 0 := fun h0 => I.ne (by rw [hc, h0, mul_zero])
        have h3 : poly.natDegree = g.natDegree + c.natDegree := by rw [hc, natDegree_mul hg.ne_zero hc0]
        have h4 : c = 1 := (monic_of_ne hc0).natDegree_eq_zero.1 (by omega)
        rw [hc, h4, mul_one]
      simp [isIrreducible, this, hg]

/-- **C31.**  `hasFactorOfDegree(poly, degree)`, `degree ≥ 1`, terminates for every polynomial; what it
leaves in `poly` divides the original; if it returns true that is an irreducible polynomial of the
requested degree; and it does return true whenever the original is the product of an irreducible
polynomial of that degree and a cofactor whose irreducible factors all have smaller degree. -/
theorem hasFactorOfDegree_correct (f : (ZMod 2)[X]) {degree : ℕ} (hd : 1 ≤ degree) {fuel : ℕ}
    (hfuel : f.natDegree + 1 ≤ fuel) :
    ∃ b r, hasFactorOfDegree fuel f degree = some (b, r) ∧ r ∣ f ∧
      (b = true → Irreducible r ∧ r.natDegree = degree) ∧
      (∀ g h, f = g * h → Irreducible g → g.natDegree = degree →
        (∀ q, Irreducible q → q ∣ h → q.natDegree < degree) → f ≠ 0 → b = true) := by
  unfold hasFactorOfDegree
  by_cases hf : f = 0
  · subst hf
    rw [if_pos (by simp [deg]; omega)]
    exact ⟨false, 0, rfl, dvd_refl _, by simp, fun _ _ _ _ _ _ h => absurd rfl h⟩
  · rw [deg_of_ne hf]
    by_cases h1 : f.natDegree < degree
    · rw [if_pos (by exact_mod_cast h1)]
      refine ⟨false, f, rfl, dvd_refl _, by simp, ?_⟩
      intro g h hfg hg hgd _ _
      have := natDegree_le_of_dvd (⟨h, hfg⟩ : g ∣ f) hf
      omega
    · rw [if_neg (by exact_mod_cast h1)]
      have I : OInv f degree 1 f (X ^ 2) (X + X ^ 2) :=
        { ne := hf
          dvd := dvd_refl _
          ge := by omega
          t2 := by simp
          tt := by
            have e : (X + X ^ 2 - (X ^ 2 ^ 1 - X) : (ZMod 2)[X]) = 0 := by
              rw [pow_one]; linear_combination X * two_eq_zero'
            rw [e]; exact dvd_zero _
          small := by
            intro q hq hq1 _
            exact hq.not_isUnit (isUnit_iff_one.2
              ((monic_of_ne hq.ne_zero).natDegree_eq_zero.1 (by omega)))
          keep := fun q _ _ h => h }
      obtain ⟨b, r, e1, e2, e3, e4⟩ :=
        outerLoop_spec f hf hd fuel 1 f (X ^ 2) (X + X ^ 2) le_rfl (by omega) (by omega) I
      exact ⟨b, r, e1, e2, e3, fun g h a1 a2 a3 a4 _ => e4 g h a1 a2 a3 a4⟩

/-- **C31**, the case the library relies on: a factor of more than half the degree is always found, and
is the polynomial left in the variable. -/
theorem hasFactorOfDegree_half (f g : (ZMod 2)[X]) (hf : f ≠ 0) {degree fuel : ℕ} (hd : 1 ≤ degree)
    (hfuel : f.natDegree + 1 ≤ fuel) (hg : Irreducible g) (hgf : g ∣ f) (hgd : g.natDegree = degree)
    (hhalf : f.natDegree < 2 * degree) : hasFactorOfDegree fuel f degree = some (true, g) := by
  obtain ⟨b, r, e1, e2, e3, e4⟩ := hasFactorOfDegree_correct f hd hfuel
  obtain ⟨h, hh⟩ := hgf
  have h0 : h ≠ 0 := fun h0 => hf (by rw [hh, h0, mul_zero])
  have hdeg : f.natDegree = g.natDegree + h.natDegree := by rw [hh, natDegree_mul hg.ne_zero h0]
  have hb := e4 g h hh hg hgd (fun q _ hqh => by
    have := natDegree_le_of_dvd hqh h0; omega) hf
  obtain ⟨e5, e6⟩ := e3 hb
  have : r = g := by
    rw [hh] at e2
    rcases e5.prime.dvd_or_dvd e2 with h1 | h1
    · exact eq_of_associated (e5.associated_of_dvd hg h1)
    · have := natDegree_le_of_dvd h1 h0; omega
  rw [e1, hb, this]

/-- The proviso is needed (as the comment in the code, period.cpp:163-164, says): `X^2` has an irreducible
factor of degree 1, but the answer is false. -/
theorem hasFactorOfDegree_square (fuel : ℕ) (hfuel : 1 ≤ fuel) :
    hasFactorOfDegree fuel (X * X) 1 = some (false, 1) ∧ Irreducible (X : (ZMod 2)[X]) ∧
      (X : (ZMod 2)[X]).natDegree = 1 ∧ (X : (ZMod 2)[X]) ∣ X * X := by
  refine ⟨?_, irreducible_X, natDegree_X, dvd_mul_right _ _⟩
  have hX : (X : (ZMod 2)[X]) ≠ 0 := X_ne_zero
  have hne : (X : (ZMod 2)[X]) ≠ 1 := fun h => by
    have := congrArg natDegree h; rw [natDegree_X, natDegree_one] at this; omega
  have hd2 : (X * X : (ZMod 2)[X]).natDegree = 2 := by rw [natDegree_mul hX hX, natDegree_X]
  have h1 : EuclideanDomain.gcd (X * X : (ZMod 2)[X]) (X + X ^ 2) = X := by
    apply eq_of_dvd_dvd
    · have := dvd_sub (EuclideanDomain.gcd_dvd_right (X * X : (ZMod 2)[X]) (X + X ^ 2))
        (EuclideanDomain.gcd_dvd_left (X * X : (ZMod 2)[X]) (X + X ^ 2))
      have e : (X + X ^ 2 - X * X : (ZMod 2)[X]) = X := by ring
      rwa [e] at this
    · exact EuclideanDomain.dvd_gcd (dvd_mul_right _ _) ⟨1 + X, by ring⟩
  have h2 : EuclideanDomain.gcd (X : (ZMod 2)[X]) (X + X ^ 2) = X :=
    eq_of_dvd_dvd (EuclideanDomain.gcd_dvd_left _ _)
      (EuclideanDomain.dvd_gcd (dvd_refl _) ⟨1 + X, by ring⟩)
  have h3 : (X * X / X : (ZMod 2)[X]) = X := mul_div_cancel_left₀ _ hX
  have h4 : (X / X : (ZMod 2)[X]) = 1 := EuclideanDomain.div_self hX
  obtain ⟨k, rfl⟩ : ∃ k, fuel = k + 1 := ⟨fuel - 1, by omega⟩
  unfold hasFactorOfDegree outerLoop
  simp only [deg_of_ne (mul_ne_zero hX hX), hd2]
  rw [if_neg (by norm_num), if_pos (by norm_num)]
  have h5 : innerLoop (X + X ^ 2 : (ZMod 2)[X]) 1 (2 + 1) (X * X) = .small 1 := by
    unfold innerLoop
    simp only [h1, if_neg hne, h3]
    rw [if_neg (by rw [deg_of_ne hX, natDegree_X]; norm_num)]
    unfold innerLoop
    simp only [h2, if_neg hne, h4]
    rw [if_pos (by rw [deg_of_ne one_ne_zero, natDegree_one]; norm_num)]
  rw [h5]

/-- The hypotheses of the theorems are met by `X^2 · (X^3 + X + 1)`-like products: here `f = X · g` with
`g` any irreducible polynomial of degree 3. -/
example (g : (ZMod 2)[X]) (hg : Irreducible g) (hgd : g.natDegree = 3) :
    hasFactorOfDegree 10 (X * g) 3 = some (true, g) :=
  hasFactorOfDegree_half (X * g) g (mul_ne_zero X_ne_zero hg.ne_zero) (by norm_num)
    (by rw [natDegree_mul X_ne_zero hg.ne_zero, natDegree_X]; omega) hg (dvd_mul_left _ _) hgd
    (by rw [natDegree_mul X_ne_zero hg.ne_zero, natDegree_X]; omega)

end MTT.Period
