import Verif.Parity.Fix
import Verif.Parity.SFMT

/-!
# C50, and C48 for dSFMT: the fixed point and the certified affine generator
-/

namespace MTT.DSFMT

open Polynomial PIS W128 Parity

/-- Specification of `NTL::XGCD`: a greatest common divisor and a linear combination that gives it. -/
structure XgcdSpec (xgcd : XgcdFn) : Prop where
  dvd : ∀ f g, (xgcd f g).1 ∣ f ∧ (xgcd f g).1 ∣ g
  eq : ∀ f g, (xgcd f g).1 = (xgcd f g).2.1 * f + (xgcd f g).2.2 * g

/-- The specification can be met. -/
theorem exists_xgcd : ∃ xgcd, XgcdSpec xgcd := by
  classical
  refine ⟨fun f g => (EuclideanDomain.gcd f g, EuclideanDomain.gcdA f g, EuclideanDomain.gcdB f g),
    fun f g => ⟨EuclideanDomain.gcd_dvd_left _ _, EuclideanDomain.gcd_dvd_right _ _⟩, fun f g => ?_⟩
  show EuclideanDomain.gcd f g = EuclideanDomain.gcdA f g * f + EuclideanDomain.gcdB f g * g
  rw [EuclideanDomain.gcd_eq_gcd_ab f g]; ring

variable {n : ℕ}

/-- The recursion forgets the previous word. -/
theorem aeval_fst (c : Cfg) (p : (ZMod 2)[X]) (x : S n) : (aeval (T n c) p x).1 = aeval (T1 n c.p) p x.1 := by
  induction p using Polynomial.induction_on' with
  | add p q hp hq => rw [map_add, map_add, LinearMap.add_apply, LinearMap.add_apply, ← hp, ← hq]; rfl
  | monomial k a =>
    rw [aeval_monomial, aeval_monomial, Module.End.mul_apply, Module.End.mul_apply, Module.algebraMap_end_apply,
      Module.algebraMap_end_apply]
    have : ∀ k, ((T n c ^ k) x).1 = (T1 n c.p ^ k) x.1 := by
      intro k
      induction k with
      | zero => rfl
      | succ k ih =>
        rw [pow_succ', pow_succ', Module.End.mul_apply, Module.End.mul_apply, ← ih]; rfl
    rw [← this]; rfl

theorem low_aeval {p : Par} (hp : MskOK p) (f : (ZMod 2)[X]) {x : (Fin n → Wd 128) × Wd 128} (hx : x ∈ Low n) :
    aeval (T1 n p) f x ∈ Low n := by
  induction f using Polynomial.induction_on' with
  | add p q hp hq => rw [map_add, LinearMap.add_apply]; exact Submodule.add_mem _ hp hq
  | monomial k a =>
    rw [aeval_monomial, Module.End.mul_apply, Module.algebraMap_end_apply]
    refine Submodule.smul_mem _ _ ?_
    induction k with
    | zero => exact hx
    | succ k ih => rw [pow_succ', Module.End.mul_apply]; exact T1_low hp ih

theorem deg_zero_one {d : (ZMod 2)[X]} (h : ¬ Period.deg d ≠ 0) : d = 1 := by
  have h := not_not.1 h
  unfold Period.deg at h
  by_cases h0 : d = 0
  · rw [if_pos h0] at h; exact absurd h (by decide)
  · rw [if_neg h0] at h
    have h1 : d.natDegree = 0 := by exact_mod_cast h
    rw [eq_C_of_natDegree_eq_zero h1] at h0 ⊢
    have : ∀ a : ZMod 2, a = 0 ∨ a = 1 := by decide
    rcases this (d.coeff 0) with h2 | h2
    · rw [h2] at h0; exact absurd C_0 h0
    · rw [h2, C_1]

/-- **C50.**  For every dSFMT object and every pair of polynomials whose product annihilates the affine constant `c`:
whenever `calc_fixpoint` returns, its value is the lung of a state `z` of the large part (annihilated by the irreducible
factor) with `z = T z + c_large`, where `c = c_large + c_small` is the decomposition of the constant. -/
theorem calcFixpoint_correct {xgcd : XgcdFn} (hX : XgcdSpec xgcd) {g : St} (hg : Inv n g) {f q : (ZMod 2)[X]}
    (hann : aeval (T1 n g.param) (f * q) (core n (setConst g)) = 0) {v : W128}
    (hrun : calcFixpoint xgcd n g f q = some v) :
    ∃ z large small, v = z.2.val ∧ aeval (T1 n g.param) f z = 0 ∧ z = T1 n g.param z + large ∧
      core n (setConst g) = large + small ∧ aeval (T1 n g.param) f large = 0 ∧ aeval (T1 n g.param) q small = 0 ∧
      (MskOK g.param → z ∈ Low n) := by
  unfold calcFixpoint at hrun
  dsimp only at hrun
  split at hrun
  · exact absurd hrun (by simp)
  next h1 =>
  split at hrun
  · exact absurd hrun (by simp)
  next h2 =>
  have h1 := deg_zero_one h1
  have h2 := deg_zero_one h2
  have e1 := hX.eq f q
  have e2 := hX.eq f (X + 1)
  rw [h1] at e1
  rw [h2] at e2
  generalize (xgcd f q).2.1 = a at *
  generalize (xgcd f q).2.2 = b at *
  generalize (xgcd f (X + 1)).2.1 = a' at *
  generalize (xgcd f (X + 1)).2.2 = b' at *
  obtain ⟨s1, s2, -⟩ := setConst_spec hg
  have hL := linGen (n := n) (cfg g)
  obtain ⟨t1, t2⟩ := Lin.annihilate_correct hL (b * q) (g := setConst g) ⟨s1, s2⟩
  obtain ⟨u1, u2⟩ := Lin.annihilate_correct hL b' t1
  have hz : core n (Lin.annihilate (ops n) b' (Lin.annihilate (ops n) (b * q) (setConst g))) =
      aeval (T1 n g.param) b' (aeval (T1 n g.param) (b * q) (core n (setConst g))) := by
    have := congrArg Prod.fst u2
    rw [t2, aeval_fst, aeval_fst] at this
    exact this
  have hmul : ∀ (p r : (ZMod 2)[X]) x, aeval (T1 n g.param) p (aeval (T1 n g.param) r x) = aeval (T1 n g.param) (p * r) x := by
    intro p r x; rw [map_mul, Module.End.mul_apply]
  have hlarge : aeval (T1 n g.param) f (aeval (T1 n g.param) (b * q) (core n (setConst g))) = 0 := by
    rw [hmul, show f * (b * q) = b * (f * q) by ring, ← hmul, hann, map_zero]
  refine ⟨_, aeval (T1 n g.param) (b * q) (core n (setConst g)), aeval (T1 n g.param) (a * f) (core n (setConst g)),
    ((Option.some.inj hrun).symm.trans
      (congrArg (fun x : (Fin n → Wd 128) × Wd 128 => x.2.val) hz)), ?_, ?_, ?_, hlarge, ?_, fun hp => ?_⟩
  · rw [hmul, mul_comm, ← hmul, hlarge, map_zero]
  · generalize aeval (T1 n g.param) (b * q) (core n (setConst g)) = l at hlarge
    have h : aeval (T1 n g.param) (a' * f + b' * (X + 1)) l = l := by rw [← e2, map_one]; rfl
    rw [map_add, LinearMap.add_apply, ← hmul, hlarge, map_zero, zero_add, mul_comm, ← hmul, map_add, map_one, aeval_X] at h
    have h' : T1 n g.param (aeval (T1 n g.param) b' l) + aeval (T1 n g.param) b' l = l := h
    generalize aeval (T1 n g.param) b' l = z at *
    rw [← h', ← add_assoc, add_self', zero_add]
  · rw [← LinearMap.add_apply, ← map_add, add_comm, ← e1, map_one]; rfl
  · rw [hmul, show q * (a * f) = a * (f * q) by ring, ← hmul, hann, map_zero]
  · exact low_aeval hp _ (low_aeval hp _ (setConst_affine hg hp).1)

/-- **C50.**  `calc_fixpoint` returns whenever the factors are coprime and the large factor is not divisible by
`x + 1`. -/
theorem calcFixpoint_total {xgcd : XgcdFn} (hX : XgcdSpec xgcd) (g : St) {f q : (ZMod 2)[X]} (h1 : IsCoprime f q)
    (h2 : IsCoprime f (X + 1)) : ∃ v, calcFixpoint xgcd n g f q = some v := by
  have key : ∀ p r : (ZMod 2)[X], IsCoprime p r → ¬ Period.deg (xgcd p r).1 ≠ 0 := by
    intro p r h
    have hu : IsUnit (xgcd p r).1 := h.isUnit_of_dvd' (hX.dvd p r).1 (hX.dvd p r).2
    rw [MTT.isUnit_iff_one] at hu
    rw [hu, not_not]
    unfold Period.deg
    rw [if_neg one_ne_zero, natDegree_one]; rfl
  unfold calcFixpoint
  dsimp only
  rw [if_neg (key _ _ h1), if_neg (key _ _ h2)]
  exact ⟨_, rfl⟩

/-- The fixed point is determined by the two factors: no other state of the large part satisfies the equation. -/
theorem fixpoint_unique {T : Module.End (ZMod 2) ((Fin n → Wd 128) × Wd 128)} {f : (ZMod 2)[X]}
    (h : IsCoprime f (X + 1)) {z z' l : (Fin n → Wd 128) × Wd 128} (hz : aeval T f z = 0) (hz' : aeval T f z' = 0)
    (e : z = T z + l) (e' : z' = T z' + l) : z = z' := by
  obtain ⟨a, b, hab⟩ := h
  have h0 : ∀ z, z = T z + l → aeval T (X + 1 : (ZMod 2)[X]) z = l := by
    intro z e
    rw [map_add (aeval T), map_one, aeval_X]
    show T z + z = l
    generalize T z = t at e ⊢
    rw [e, ← add_assoc, add_self', zero_add]
  have h1 : aeval T (X + 1 : (ZMod 2)[X]) (z + z') = 0 := by
    rw [map_add (aeval T (X + 1 : (ZMod 2)[X])), h0 z e, h0 z' e', add_self']
  have h2 : aeval T (a * f + b * (X + 1)) (z + z') = z + z' := by rw [hab, map_one]; rfl
  rw [map_add (aeval T), LinearMap.add_apply, map_mul, map_mul, Module.End.mul_apply, Module.End.mul_apply, h1,
    map_add (aeval T f), hz, hz', add_zero, map_zero, map_zero, add_zero] at h2
  calc z = z + (z' + z') := by rw [add_self', add_zero]
    _ = z' := by rw [← add_assoc, ← h2, zero_add]

/-! ## C48 for dSFMT -/

theorem core_stateAt {s : St} (hs : Inv n s) (l : ℕ) :
    core n (stateAt (ops n) s l) = (T1 n s.param ^ l) (core n s) := by
  have := congrArg Prod.fst (stateAt_spec (linGen (n := n) (cfg s)) ⟨hs, rfl⟩ l).2
  rw [show T n (cfg s) ^ l = aeval (T n (cfg s)) (X ^ l : (ZMod 2)[X]) by rw [map_pow, aeval_X], aeval_fst, map_pow,
    aeval_X] at this
  exact this

theorem periodCertification_inv {s : St} (hs : Inv n s) (hp : parity s ≠ 0) :
    Inv n (periodCertification false s).1 ∧ cfg (periodCertification false s).1 = cfg s ∧
      fix (periodCertification false s).1 = fix s ∧
      (core n (periodCertification false s).1).1 = (core n s).1 := by
  obtain ⟨h1, h2, -, -⟩ := periodCertification_correct false s hp
  rcases two_cases (dot (certified false s) (parity s)) with h | h
  · obtain ⟨b, -, -, e⟩ := h2 h
    rw [e]
    exact ⟨⟨hs.two, hs.size, hs.index, hs.pos_pos, hs.pos, hs.sl1⟩, rfl, rfl, rfl⟩
  · rw [h1 h]; exact ⟨hs, rfl, rfl, rfl⟩

/-- Two cofactors of `f` give fixed points that differ by the lung of a state of the small part. -/
theorem calcFixpoint_shift {xgcd : XgcdFn} (hX : XgcdSpec xgcd) {g : St} (hg : Inv n g) (hp : MskOK g.param)
    {f q q' : (ZMod 2)[X]} {v v' : W128} (hrun : calcFixpoint xgcd n g f q = some v)
    (hrun' : calcFixpoint xgcd n g f q' = some v') :
    ∃ x ∈ Low n, v = v' ^^^ (aeval (T1 n g.param) f x).2.val := by
  have key : ∀ {r : (ZMod 2)[X]} {w : W128}, calcFixpoint xgcd n g f r = some w → ∃ a b : (ZMod 2)[X],
      1 = a * f + b * r ∧ w = (aeval (T1 n g.param) (xgcd f (X + 1)).2.2
        (aeval (T1 n g.param) (b * r) (core n (setConst g)))).2.val := by
    intro r w hrun
    unfold calcFixpoint at hrun
    dsimp only at hrun
    split at hrun
    · exact absurd hrun (by simp)
    next h1 =>
    split at hrun
    · exact absurd hrun (by simp)
    next h2 =>
    have h1 := deg_zero_one h1
    have e1 := hX.eq f r
    rw [h1] at e1
    refine ⟨_, _, e1, ?_⟩
    obtain ⟨s1, s2, -⟩ := setConst_spec hg
    have hL := linGen (n := n) (cfg g)
    obtain ⟨t1, t2⟩ := Lin.annihilate_correct hL ((xgcd f r).2.2 * r) (g := setConst g) ⟨s1, s2⟩
    obtain ⟨u1, u2⟩ := Lin.annihilate_correct hL (xgcd f (X + 1)).2.2 t1
    have hz := congrArg Prod.fst u2
    rw [t2, aeval_fst, aeval_fst] at hz
    exact (Option.some.inj hrun).symm.trans (congrArg (fun x : (Fin n → Wd 128) × Wd 128 => x.2.val) hz)
  obtain ⟨a, b, h1, h2⟩ := key hrun
  obtain ⟨a', b', h3, h4⟩ := key hrun'
  generalize (xgcd f (X + 1)).2.2 = d at *
  have hcst := (setConst_affine hg hp).1
  refine ⟨aeval (T1 n g.param) (d * (a + a')) (core n (setConst g)), low_aeval hp _ hcst, ?_⟩
  have hmul : ∀ (p r : (ZMod 2)[X]) x, aeval (T1 n g.param) p (aeval (T1 n g.param) r x) = aeval (T1 n g.param) (p * r) x := by
    intro p r x; rw [map_mul, Module.End.mul_apply]
  have hpoly : d * (b * q) = d * (b' * q') + f * (d * (a + a')) := by
    have h5 : b * q = 1 + a * f := by
      rw [h1, add_comm (a * f), add_assoc, CharTwo.add_self_eq_zero, add_zero]
    have h6 : b' * q' = 1 + a' * f := by
      rw [h3, add_comm (a' * f), add_assoc, CharTwo.add_self_eq_zero, add_zero]
    rw [h5, h6, show d * (1 + a' * f) + f * (d * (a + a')) = d * (1 + a * f) + (d * a' * f + d * a' * f) by ring,
      CharTwo.add_self_eq_zero, add_zero]
  rw [h2, h4, hmul, hmul, hmul, hpoly, map_add (aeval (T1 n g.param))]
  rfl

/-- A word is a fixed point of the recursion with the parameters `p`, up to what does not matter for the component of `f`:
it is the lung of a state, with the exponent bits of 1.0 in its words, that the recursion carries to itself plus a state in
the image of `f`. -/
def FixPoint (n : ℕ) (p : Par) (f : (ZMod 2)[X]) (fx : W128) : Prop :=
  ∃ z ∈ Low n, ∃ e ∈ Low n, z.2.val = fx ∧ T1 n p (ones n + z) = ones n + z + aeval (T1 n p) f e

/-- The word that `calc_fixpoint` returns is a fixed point, whatever multiple of the minimal polynomials of the states it
is given, and also for a proper divisor of it. -/
theorem calcFixpoint_fixPoint {xgcd : XgcdFn} (hX : XgcdSpec xgcd) {g : St} (hg : Inv n g) (hp : MskOK g.param)
    {f q q' : (ZMod 2)[X]} (hq : IsCoprime f q') (hf : IsCoprime f (X + 1))
    (hann : ∀ x ∈ Low n, aeval (T1 n g.param) (f * q') x = 0) {v : W128} (hrun : calcFixpoint xgcd n g f q = some v) :
    FixPoint n g.param f v := by
  obtain ⟨hc1, hc2⟩ := setConst_affine hg hp
  obtain ⟨v', hrun'⟩ := calcFixpoint_total (n := n) hX g hq hf
  obtain ⟨x, hx, rfl⟩ := calcFixpoint_shift hX hg hp hrun hrun'
  obtain ⟨z, large, small, rfl, z2, z3, z4, z5, z6, z7⟩ := calcFixpoint_correct hX hg (hann _ hc1) hrun'
  have z7 := z7 hp
  obtain ⟨a, b, hab⟩ := hq
  have hmul : ∀ (p r : (ZMod 2)[X]) x, aeval (T1 n g.param) p (aeval (T1 n g.param) r x) = aeval (T1 n g.param) (p * r) x := by
    intro p r x; rw [map_mul, Module.End.mul_apply]
  have hT : ∀ y ∈ Low n, T1 n g.param y ∈ Low n := fun y hy => by
    have := low_aeval hp X hy
    rwa [aeval_X] at this
  have hlarge : large = z + T1 n g.param z := by
    conv_rhs => lhs; rw [z3]
    rw [show T1 n g.param z + large + T1 n g.param z = large + (T1 n g.param z + T1 n g.param z) by abel, add_self', add_zero]
  have hll : large ∈ Low n := by rw [hlarge]; exact Submodule.add_mem _ z7 (hT z z7)
  have hsl : small ∈ Low n := by
    have : small = core n (setConst g) + large := by
      rw [z4, show large + small + large = small + (large + large) by abel, add_self', add_zero]
    rw [this]; exact Submodule.add_mem _ hc1 hll
  have hsmall : small = aeval (T1 n g.param) f (aeval (T1 n g.param) a small) := by
    have h : aeval (T1 n g.param) (a * f + b * q') small = small := by rw [hab, map_one]; rfl
    rw [map_add (aeval (T1 n g.param)), LinearMap.add_apply, ← hmul b, z6, map_zero, add_zero] at h
    rw [hmul, mul_comm f a, h]
  refine ⟨z + aeval (T1 n g.param) f x, Submodule.add_mem _ z7 (low_aeval hp f hx),
    T1 n g.param x + x + aeval (T1 n g.param) a small,
    Submodule.add_mem _ (Submodule.add_mem _ (hT x hx) hx) (low_aeval hp a hsl), rfl, ?_⟩
  have hz : T1 n g.param z + large = z := z3.symm
  rw [hc2, z4, map_add (T1 n g.param), map_add (aeval (T1 n g.param) f), map_add (aeval (T1 n g.param) f), ← hsmall,
    show aeval (T1 n g.param) f (T1 n g.param x) = T1 n g.param (aeval (T1 n g.param) f x) from aeval_comm _ _ _]
  generalize aeval (T1 n g.param) f x = y
  rw [show T1 n g.param z + T1 n g.param y + (large + small) = (T1 n g.param z + large) + (T1 n g.param y + small) by abel, hz,
    show ones n + (z + y) + (T1 n g.param y + y + small) = ones n + (z + (T1 n g.param y + small)) + (y + y) by abel, add_self',
    add_zero]

theorem calcFixpoint_coprime {xgcd : XgcdFn} (hX : XgcdSpec xgcd) {g : St} {f q : (ZMod 2)[X]} {v : W128}
    (hrun : calcFixpoint xgcd n g f q = some v) : IsCoprime f (X + 1) := by
  unfold calcFixpoint at hrun
  dsimp only at hrun
  split at hrun
  · exact absurd hrun (by simp)
  split at hrun
  · exact absurd hrun (by simp)
  next h2 =>
  have e := hX.eq f (X + 1)
  rw [deg_zero_one h2] at e
  exact ⟨_, _, e.symm⟩

/-- **C48, C50.**  The dSFMT generator proper keeps the exponent bits of 1.0 in its words and is affine.  Take any object
in weight mode 2 whose words have these bits, with the parity vector found by `searchParity` and a fixed point: the state
after `periodCertification` recurs only after a multiple of `2^mexp - 1` steps. -/
theorem certified_period_fix {c : Cfg} {mexp : ℕ} (h2 : c.weight = 2) (hp : MskOK c.p) {kernel : KernelFn}
    (hK : KernelSpec kernel) {f q : (ZMod 2)[X]} (hf : Irreducible f)
    (hdeg : f.natDegree = mexp) (hm : (2 ^ mexp - 1).Prime)
    (hx : ∃ x ∈ Low n, x ≠ 0 ∧ aeval (T1 n c.p) f x = 0) (hq : IsCoprime f q)
    (hann : ∀ x ∈ Low n, aeval (T1 n c.p) (f * q) x = 0) {fuel : ℕ} {junk : W128} {g1 g' : St}
    (hg1 : Inv n g1 ∧ cfg g1 = c) {v : W128}
    (hrun : searchParity (rops n mexp) words128 fuel kernel junk g1 f = .ok (v, g'))
    {s : St} (hs : Inv n s) (hsc : cfg s = c) (hs1 : core n s + ones n ∈ Low n) (hv : parity s = v)
    (hfx : FixPoint n c.p f (fix s))
    {l : ℕ} (hl : core n (stateAt (ops n) (periodCertification false s).1 l) = core n (periodCertification false s).1) :
    2 ^ mexp - 1 ∣ l := by
  have hn : 0 < n := by have := hs.two; omega
  have hR := redGen (n := n) c mexp h2 (by rw [← hg1.2]; exact hg1.1.pos_pos) (by rw [← hg1.2]; exact hg1.1.pos) hp
  have hM : ∀ x : S n, x ∈ M (rops n mexp).bitSize (unit n) ↔ x.1 ∈ Low n ∧ x.2 = 0 := fun x => by
    rw [show M (rops n mexp).bitSize (unit n) = Full n from M_full hn, mem_full]
  have hM1 : ∀ (r : (ZMod 2)[X]) (x : (Fin n → Wd 128) × Wd 128), x ∈ Low n →
      aeval (T n c) r (x, 0) = (aeval (T1 n c.p) r x, 0) := by
    intro r x hx
    exact Prod.ext (aeval_fst c r _) ((hM _).1 (aeval_M hR r ((hM (x, 0)).2 ⟨hx, rfl⟩))).2
  have hx' : ∃ x ∈ M (rops n mexp).bitSize (unit n), x ≠ 0 ∧ aeval (T n c) f x = 0 := by
    obtain ⟨x, h1, h2, h3⟩ := hx
    refine ⟨(x, 0), (hM _).2 ⟨h1, rfl⟩, fun h => h2 (congrArg Prod.fst h), ?_⟩
    rw [hM1 f x h1, h3]; rfl
  obtain ⟨hv0, -, horth⟩ := searchParity_vector hR wordsOK128 hK hf hdeg hx' hg1 hrun
  obtain ⟨p1, p2, p3, p4⟩ := periodCertification_inv hs (by rw [hv]; exact hv0)
  have hodd := (periodCertification_correct false s (by rw [hv]; exact hv0)).2.2.1
  generalize (periodCertification false s).1 = t at *
  rw [core_stateAt p1, show t.param = c.p by rw [← hsc, ← p2]; rfl] at hl
  have hgp : g1.param = c.p := by rw [← hg1.2]; rfl
  have hcst := setConst_affine hg1.1 (by rw [hgp]; exact hp)
  rw [hgp] at hcst
  generalize core n (setConst g1) = cst at *
  obtain ⟨a, b, hab⟩ := hq
  have hmul : ∀ (p r : (ZMod 2)[X]) x, aeval (T1 n c.p) p (aeval (T1 n c.p) r x) = aeval (T1 n c.p) (p * r) x := by
    intro p r x; rw [map_mul, Module.End.mul_apply]
  have hone : ∀ x, aeval (T1 n c.p) (a * f) x + aeval (T1 n c.p) (b * q) x = x := by
    intro x
    rw [← LinearMap.add_apply, ← map_add, hab, map_one]; rfl
  -- the component of the constant
  have hfix' : ∀ x, aeval (T1 n c.p) f x = 0 → aeval (T1 n c.p) (b * q) x = x := by
    intro x h
    have := hone x
    rwa [← hmul, h, map_zero, zero_add] at this
  -- the component of the fixed point
  obtain ⟨z', hz', e', he', z1, hfz⟩ := hfx
  have z7 : aeval (T1 n c.p) (b * q) z' ∈ Low n := low_aeval hp _ hz'
  have z2 : aeval (T1 n c.p) f (aeval (T1 n c.p) (b * q) z') = 0 := by
    rw [hmul, show f * (b * q) = b * (f * q) by ring, ← hmul, hann _ hz', map_zero]
  have z3 : aeval (T1 n c.p) (b * q) z' = T1 n c.p (aeval (T1 n c.p) (b * q) z') + aeval (T1 n c.p) (b * q) cst := by
    rw [hcst.2, add_assoc, add_right_inj] at hfz
    have h := congrArg (aeval (T1 n c.p) (b * q)) hfz
    rw [map_add (aeval (T1 n c.p) (b * q)), map_add (aeval (T1 n c.p) (b * q)) z', hmul (b * q) f,
      show b * q * f = b * (f * q) by ring, ← hmul b (f * q), hann _ he', map_zero, add_zero, aeval_comm] at h
    exact h.symm
  have hz : z' = aeval (T1 n c.p) (b * q) z' + aeval (T1 n c.p) f (aeval (T1 n c.p) a z') := by
    rw [hmul, mul_comm f a, add_comm, hone]
  have he : aeval (T1 n c.p) a z' ∈ Low n := low_aeval hp _ hz'
  generalize aeval (T1 n c.p) a z' = e at *
  generalize aeval (T1 n c.p) (b * q) z' = z at *
  have hfx : fix s = z.2.val ^^^ (aeval (T1 n c.p) f e).2.val := by rw [← z1, hz]; rfl
  -- the large component relative to the fixed point
  have hstep : ∀ y, aeval (T1 n c.p) (b * q) (T1 n c.p y + ones n) + z =
      T1 n c.p (aeval (T1 n c.p) (b * q) (y + ones n) + z) := by
    intro y
    have h1 : T1 n c.p y + ones n = T1 n c.p (y + ones n) + cst := by
      have h := hcst.2 (y + ones n)
      rw [show ones n + (y + ones n) = y + (ones n + ones n) by abel, add_self', add_zero] at h
      rw [h, show ones n + (T1 n c.p (y + ones n) + cst) + ones n =
        T1 n c.p (y + ones n) + cst + (ones n + ones n) by abel, add_self', add_zero]
    rw [h1, map_add (aeval (T1 n c.p) (b * q)), aeval_comm, map_add (T1 n c.p)]
    conv_lhs => rw [z3]
    rw [show ∀ u v w : (Fin n → Wd 128) × Wd 128, u + v + (w + v) = u + w + (v + v) from fun u v w => by abel,
      add_self', add_zero]
  have hiter : ∀ k, aeval (T1 n c.p) (b * q) ((T1 n c.p ^ k) (core n t) + ones n) + z =
      (T1 n c.p ^ k) (aeval (T1 n c.p) (b * q) (core n t + ones n) + z) := by
    intro k
    induction k with
    | zero => rfl
    | succ k ih => rw [pow_succ', Module.End.mul_apply, hstep, ih, ← Module.End.mul_apply, ← pow_succ']
  have hlow : core n t + ones n ∈ Low n := by
    intro j
    have := hs1 j
    rw [Prod.fst_add, ← p4, ← Prod.fst_add] at this
    exact this
  have hD := hiter l
  rw [hl] at hD
  set y := aeval (T1 n c.p) (b * q) (core n t + ones n) + z with hy
  have hfy : aeval (T1 n c.p) f y = 0 := by
    rw [hy, map_add, z2, add_zero, hmul, show f * (b * q) = b * (f * q) by ring, ← hmul, hann _ hlow, map_zero]
  have hy0 : y ≠ 0 := by
    intro h0
    have hyz : y = aeval (T1 n c.p) (b * q) (core n t + ones n + z) := by
      rw [map_add, hfix' z z2]
    have hYlow : core n t + ones n + z ∈ Low n := Submodule.add_mem _ hlow z7
    have h1 := hone (core n t + ones n + z)
    rw [← hyz, h0, add_zero] at h1
    have h3 := horth (core n t + ones n + z + aeval (T1 n c.p) f e, 0) ?_
    · have h4 : P n (core n t + ones n + z + aeval (T1 n c.p) f e, 0) = bits (certified false t) := by
        show bits (((t.lung ^^^ 0) ^^^ z.2.val) ^^^ (aeval (T1 n c.p) f e).2.val) = bits (t.lung ^^^ fix t)
        rw [p3, hfx, show t.lung ^^^ (0 : W128) = t.lung from BitVec.xor_zero, BitVec.xor_assoc]
      rw [h4, ← dot_bits, ← hv, hodd] at h3
      exact absurd h3 (by decide)
    · have hE : aeval (T1 n c.p) a (core n t + ones n + z) + e ∈ Low n := Submodule.add_mem _ (low_aeval hp a hYlow) he
      refine ⟨(aeval (T1 n c.p) a (core n t + ones n + z) + e, 0), (hM _).2 ⟨hE, rfl⟩, ?_⟩
      rw [hM1 f _ hE, map_add (aeval (T1 n c.p) f), hmul, mul_comm, h1]
  have hprim := Period.primitive_of_mersenne hf (by rw [hdeg]; exact hm)
  rw [hdeg] at hprim
  exact (Search.period_of_primitive (by rw [← hdeg]; exact hf.natDegree_pos) hprim hfy hy0 l).1 hD.symm

/-- **C48, C50.**  The same with the fixed point found by `calc_fixpoint`. -/
theorem certified_period {c : Cfg} {mexp : ℕ} (h2 : c.weight = 2) (hp : MskOK c.p) {kernel : KernelFn}
    (hK : KernelSpec kernel) {xgcd : XgcdFn} (hX : XgcdSpec xgcd) {f q : (ZMod 2)[X]} (hf : Irreducible f)
    (hdeg : f.natDegree = mexp) (hm : (2 ^ mexp - 1).Prime)
    (hx : ∃ x ∈ Low n, x ≠ 0 ∧ aeval (T1 n c.p) f x = 0) (hq : IsCoprime f q)
    (hann : ∀ x ∈ Low n, aeval (T1 n c.p) (f * q) x = 0) {fuel : ℕ} {junk : W128} {g g' : St}
    (hg : Inv n g ∧ cfg g = c) {v : W128} (hrun : searchParity (rops n mexp) words128 fuel kernel junk g f = .ok (v, g'))
    {fx : W128} (hfix : calcFixpoint xgcd n g f q = some fx)
    {s : St} (hs : Inv n s) (hsc : cfg s = c) (hs1 : core n s + ones n ∈ Low n) (hv : parity s = v) (hfx : fix s = fx)
    {l : ℕ} (hl : core n (stateAt (ops n) (periodCertification false s).1 l) = core n (periodCertification false s).1) :
    2 ^ mexp - 1 ∣ l := by
  have hgp : g.param = c.p := by rw [← hg.2]; rfl
  refine certified_period_fix h2 hp hK hf hdeg hm hx hq hann hg hrun hs hsc hs1 hv ?_ hl
  rw [hfx, ← hgp]
  refine calcFixpoint_fixPoint hX hg.1 (by rw [hgp]; exact hp) hq ?_ (by rw [hgp]; exact hann) hfix
  exact calcFixpoint_coprime hX hfix

end MTT.DSFMT
