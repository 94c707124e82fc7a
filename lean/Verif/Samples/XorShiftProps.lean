import Verif.Samples.XorShift
import Verif.Spec.Shift
import Verif.PIS.Uniform
import Verif.Util.Props
import Mathlib.LinearAlgebra.Dimension.Finrank

/-!
# C38, C39, C54 (xorshift): property theorems about the xorshift samples

Specification: the state space is `Wd 32 × Wd 32 × Wd 32 × Wd 32` (dimension 128), on which the object
must act linearly (`LinGen`).
-/

namespace MTT.XorShift

open PIS

/-- State space of xorshift128. -/
abbrev S := Wd 32 × Wd 32 × Wd 32 × Wd 32

/-- The state of an object, as a vector. -/
def den (s : St) : S := (Wd.of s.x, Wd.of s.y, Wd.of s.z, Wd.of s.w)

/-- Two objects have the same parameters. -/
def SamePar (p s : St) : Prop := s.pat = p.pat ∧ s.a = p.a ∧ s.b = p.b ∧ s.c = p.c

theorem g_xor (p : St) (t u : BitVec 32) : g p (t ^^^ u) = g p t ^^^ g p u := by
  unfold g
  split <;> simp only [shl_xor, shr_xor] <;> ac_rfl

theorem h_xor (p : St) (t u : BitVec 32) : h p (t ^^^ u) = h p t ^^^ h p u := by
  unfold h
  split <;> simp only [shl_xor, shr_xor] <;> ac_rfl

theorem g_par {p s : St} (hs : SamePar p s) : g s = g p := by
  obtain ⟨h1, h2, h3, h4⟩ := hs
  funext t; unfold g; rw [h1, h2, h3]

theorem h_par {p s : St} (hs : SamePar p s) : h s = h p := by
  obtain ⟨h1, h2, h3, h4⟩ := hs
  funext t; unfold h; rw [h1, h3, h4]

/-- The transition of the xorshift generator with the parameters of `p`. -/
def T (p : St) : S →ₗ[ZMod 2] S :=
  linOf (fun s => (s.2.1, s.2.2.1, s.2.2.2, Wd.of (g p s.2.2.2.val ^^^ h p s.1.val))) (by
    rintro ⟨x, y, z, w⟩ ⟨x', y', z', w'⟩
    simp only [Prod.mk_add_mk, Wd.val_add, g_xor, h_xor, ← Wd.of_xor, Prod.mk.injEq, true_and]
    congr 1; ac_rfl)

/-- The output of the xorshift generator with the parameters of `p`. -/
def O (p : St) : S →ₗ[ZMod 2] V := (Wd.bitsL 32).comp
  ((LinearMap.snd (ZMod 2) _ _).comp ((LinearMap.snd (ZMod 2) _ _).comp
    ((LinearMap.snd (ZMod 2) _ _).comp (T p))))

/-- **C38, C54.**  For every choice of pattern number and shift amounts the xorshift class satisfies the
contract of a linear generator, including `generate(v)` for `v = 1..32`. -/
theorem linGen (p : St) : LinGen ops (SamePar p) den (T p) (O p) where
  gen_inv s hs := hs
  gen_den s hs := by
    simp only [ops, generate, den, T, linOf_apply, Wd.val_of, g_par hs, h_par hs]
  gen_out s hs := by
    simp [ops, generate, O, den, T, g_par hs, h_par hs]
  genV_inv v s _ _ hs := hs
  genV_den v s _ _ hs := by
    simp only [ops, generateV, generate, den, T, linOf_apply, Wd.val_of, g_par hs, h_par hs]
  genV_out v s _ hv hs := by
    have e : (~~~ (0 : BitVec 32)) = BitVec.allOnes 32 := by decide
    simp only [ops, generateV, e]
    rw [bits_and_mask _ hv]
    simp [generate, O, den, T, g_par hs, h_par hs]
  add_inv a b ha _ := ha
  add_den a b _ _ := by simp only [ops, add, den, Wd.of_xor, Prod.mk_add_mk]
  zero_inv s hs := hs
  zero_den s _ := rfl

/-- **C38.**  `isZero` is exactly the zero test of the state. -/
theorem isZero_iff (s : St) : isZero s = true ↔ den s = 0 := by
  simp only [isZero, Bool.and_eq_true, beq_iff_eq, den, Prod.mk_eq_zero, and_assoc]
  rfl

/-- The shift amounts used on the oldest word are non-zero. -/
def GoodPar (p : St) : Prop := 1 ≤ p.c ∧ (4 ≤ p.pat → 1 ≤ p.b)

theorem h_inj {p : St} (hp : GoodPar p) {t u : BitVec 32} (e : h p t = h p u) : t = u := by
  obtain ⟨hc, hb⟩ := hp
  unfold h at e
  split at e
  · exact shl_inj hc e
  · exact shl_inj hc e
  · exact shr_inj hc e
  · exact shr_inj hc e
  · exact shr_inj (hb (by omega)) (shl_inj hc e)
  · exact shr_inj (hb (by omega)) (shl_inj hc e)
  · next n0 n2 n1 n3 n4 n6 =>
      have h4 : 4 ≤ p.pat := by
        by_contra h4
        have : p.pat = 0 ∨ p.pat = 1 ∨ p.pat = 2 ∨ p.pat = 3 := by omega
        rcases this with h5 | h5 | h5 | h5
        · exact n0 h5
        · exact n1 h5
        · exact n2 h5
        · exact n3 h5
      exact shl_inj (hb h4) (shr_inj hc e)

/-- **C38.**  When the shift amounts are not zero the transition is invertible. -/
theorem T_bijective {p : St} (hp : GoodPar p) : Function.Bijective (T p) := by
  rw [← Finite.injective_iff_bijective]
  rintro ⟨x, y, z, w⟩ ⟨x', y', z', w'⟩ e
  simp only [T, linOf_apply, Prod.mk.injEq] at e
  obtain ⟨e1, e2, e3, e4⟩ := e
  rw [e3] at e4
  have := h_inj hp (xor_left_cancel' e4)
  rw [e1, e2, e3, Wd.ext this]

/-- **C38.**  When the shift amounts are not zero a non-zero state never becomes zero, after any number of
calls of `generate()`. -/
theorem never_zero {s : St} (hp : GoodPar s) (h0 : isZero s = false) (n : ℕ) :
    isZero (stateAt ops s n) = false := by
  have h1 := (stateAt_spec (linGen s) (g := s) ⟨rfl, rfl, rfl, rfl⟩ n).2
  by_contra h2
  rw [Bool.not_eq_false, isZero_iff, h1] at h2
  have h3 : Function.Injective ((T s) ^ n) := by
    rw [Module.End.coe_pow]
    exact (T_bijective hp).1.iterate n
  have h4 := h3 (h2.trans (map_zero _).symm)
  rw [← isZero_iff, h0] at h4
  exact Bool.false_ne_true h4

/-- `GoodPar` is needed: with a zero shift on the oldest word there is a state that `generate()`
turns into the zero state. -/
theorem becomes_zero_of_bad : ∃ s : St, s.pat = 0 ∧ s.c = 0 ∧ isZero s = false ∧
    isZero (generate s).1 = true :=
  ⟨⟨0, 1, 1, 0, 1, 0, 0, 0⟩, rfl, rfl, by decide, by decide⟩

/-- **C38.**  `setUpParam` always leaves shift amounts below 32 (so no shift is undefined) and a pattern
below 8; two parameter numbers give the same parameters exactly if their low 18 bits agree. -/
theorem setUpParam_range (r : BitVec 32) (s : St) :
    (setUpParam r s).a < 32 ∧ (setUpParam r s).b < 32 ∧ (setUpParam r s).c < 32 ∧
      (setUpParam r s).pat < 8 := by
  simp only [setUpParam, BitVec.toNat_and, BitVec.toNat_ushiftRight, BitVec.reduceToNat]
  have h1 : ∀ n : ℕ, n &&& 31 < 32 := fun n => by have := Nat.and_le_right (n := n) (m := 31); omega
  have h2 : ∀ n : ℕ, n &&& 7 < 8 := fun n => by have := Nat.and_le_right (n := n) (m := 7); omega
  exact ⟨h1 _, h1 _, h1 _, h2 _⟩

/-- **C38, C13.**  See `setUpParam_range`. -/
theorem setUpParam_inj (r r' : BitVec 32) (s : St) :
    setUpParam r s = setUpParam r' s ↔ r.toNat % 2 ^ 18 = r'.toNat % 2 ^ 18 := by
  have e5 : ∀ n : ℕ, n &&& 31 = n % 32 := fun n => Nat.and_two_pow_sub_one_eq_mod n 5
  have e3 : ∀ n : ℕ, n &&& 7 = n % 8 := fun n => Nat.and_two_pow_sub_one_eq_mod n 3
  simp only [setUpParam, BitVec.toNat_and, BitVec.toNat_ushiftRight, BitVec.reduceToNat, e5, e3,
    Nat.shiftRight_eq_div_pow, St.mk.injEq, and_true]
  omega

/-- **C38.**  Seeding never produces the zero state. -/
theorem seed_not_zero (v : BitVec 32) (s : St) : isZero (seed v s) = false := by
  by_contra h
  simp only [isZero, seed, Bool.not_eq_false, Bool.and_eq_true, beq_iff_eq] at h
  rw [h.1.1.1] at h
  exact absurd h.2 (by decide)

/-- The fixed generators of xorshift-5.cpp, xorshift128.c and xorshift-1.cpp, xorshift-2.cpp are members
of the family, so all theorems of this file apply to them. -/
theorem generate5_eq (s : St) (h1 : s.pat = 7) (h2 : s.a = 20) (h3 : s.b = 11) (h4 : s.c = 7) :
    generate5 s = generate s := by
  simp [generate5, generate, g, h, h1, h2, h3, h4]

theorem generate1_eq (s : St) (h1 : s.pat = 5) (h2 : s.a = 1) (h3 : s.b = 5) (h4 : s.c = 14) :
    generate1 s = generate s := by
  simp [generate1, generate, g, h, h1, h2, h3, h4]

theorem finrank_S : Module.finrank (ZMod 2) S = 128 := by
  simp only [Module.finrank_prod, Wd.finrank]

/-- **C22–C24 for xorshift.**  Instance of the equidistribution theorem without any hypothesis on the
generator: for every parameter set and every state the calculation of xorshift-4.cpp:156-158 succeeds and
delivers the exact dimensions. -/
theorem equidist (s : St) (veq0 : ℕ → ℕ) :
    ∃ r, getAllEquidist ops Util.calc1posWrap32 s 32 128 (32 * (33 * 128) + 33) veq0 = .ok r ∧
      (∀ v, 1 ≤ v → v ≤ 32 →
        IsGreatest {k | Equidist (T s) (O s) (cyc (T s) (den s)) v k} (r.veq (v - 1))) ∧
      r.sum = ∑ v ∈ Finset.Icc 1 32, ((128 / v : ℕ) - (r.veq (v - 1) : ℤ)) := by
  obtain ⟨hm, h0, hd⟩ := charpoly_hyps (T s) (den s)
  rw [finrank_S] at hd
  obtain ⟨r, e1, e2, _, e4⟩ := getAllEquidist_correct (linGen s) (g := s) ⟨rfl, rfl, rfl, rfl⟩ hm h0
    (by rw [hd]; decide) (stateBitSize := 128) (by omega) Util.isCalc1pos_32 (bitLen := 32) (by omega)
    (by omega) (fuel := 32 * (33 * 128) + 33) (by rw [hd]) veq0
  exact ⟨r, e1, e2, e4⟩

/-! ### xorshift128.c (C39) -/

theorem init_eq (junk : Fin 4 → BitVec 32) (seed : BitVec 32) :
    ∃ v : BitVec 32, (init junk seed).z = v ∧
      (init junk seed).w = 1812433253 * (v ^^^ (v >>> 30)) + 7 := by
  refine ⟨_, rfl, ?_⟩
  simp [init, List.range', initStep, Function.update]

/-- **C39.**  `xorshift128_init` never leaves the zero state, for every seed and whatever the
uninitialised array contained. -/
theorem init_ne_zero (junk : Fin 4 → BitVec 32) (seed : BitVec 32) :
    ¬ ((init junk seed).x = 0 ∧ (init junk seed).y = 0 ∧ (init junk seed).z = 0 ∧
      (init junk seed).w = 0) := by
  rintro ⟨_, _, hz, hw⟩
  obtain ⟨v, h1, h2⟩ := init_eq junk seed
  rw [h1] at hz
  subst hz
  rw [hw] at h2
  exact absurd h2 (by decide)

/-- **C39.**  The result of `xorshift128_init` does not depend on the uninitialised array: it is a
function of the seed. -/
theorem init_junk (junk junk' : Fin 4 → BitVec 32) (seed : BitVec 32) :
    init junk seed = init junk' seed := by
  simp [init, List.range', initStep, Function.update]

/-- **C39, the second part is false of the code.**  `xorshift128_init_by_array` leaves the state
independent of the key: a non-zero state is not changed at all. -/
theorem initByArray_ignores_key (key key' : List (BitVec 32)) (s : X128) :
    initByArray key s = initByArray key' s ∧
      (¬ (s.x = 0 ∧ s.y = 0 ∧ s.z = 0 ∧ s.w = 0) → initByArray key s = s) := by
  refine ⟨rfl, fun h => ?_⟩
  unfold initByArray periodCertification
  rw [if_neg]
  simpa [and_assoc] using h

/-- **C39.**  What is left of the array initialisation: the state is never zero afterwards. -/
theorem initByArray_ne_zero_partial (key : List (BitVec 32)) (s : X128) :
    ¬ ((initByArray key s).x = 0 ∧ (initByArray key s).y = 0 ∧ (initByArray key s).z = 0 ∧
      (initByArray key s).w = 0) := by
  unfold initByArray periodCertification
  split
  · rintro ⟨h, _⟩; exact absurd h (by decide)
  · next h => simpa [and_assoc] using h

/-! ### Non-vacuity -/

/-- The published parameters 20, 11, 7. -/
def published : St := ⟨7, 20, 11, 7, 1, 1, 1, ~~~1⟩

example : GoodPar published ∧ isZero published = false ∧ SamePar published (generate published).1 := by
  refine ⟨⟨by decide, fun _ => by decide⟩, by decide, rfl, rfl, rfl, rfl⟩

example : (generate published).2 = 0x1ff7ef := by decide

example : initByArray [1] ⟨5, 0, 0, 0⟩ = initByArray [2] ⟨5, 0, 0, 0⟩ ∧
    initByArraySt [1] ≠ initByArraySt [2] := by decide

end MTT.XorShift
