import Verif.Parity.SFMT
import Mathlib.Algebra.Polynomial.SpecificDegree

/-!
# C48, C49: a generator that meets all hypotheses

A rotating register of three bits: `x^3 - 1 = (x^2 + x + 1) (x + 1)`, the large part has period `2^2 - 1`.
-/

namespace MTT.Parity.Toy

open Polynomial PIS

/-- Three bits and a place for the parity vector. -/
abbrev St : Type := BitVec 3 × BitVec 32

def rot (x : BitVec 3) : BitVec 3 := (x <<< 1) ||| (x >>> 2)

def rops : ROps St 32 where
  generate s := ((rot s.1, s.2), s.1.setWidth 32)
  generateV v s := ((rot s.1, s.2), s.1.setWidth 32 &&& (BitVec.allOnes 32 <<< (32 - v)))
  add a b := (a.1 ^^^ b.1, a.2)
  setZero s := (0, s.2)
  isZero s := s.1 == 0
  bitSize := 3
  getParity s := s.1.setWidth 32
  setParity v s := (s.1, v)
  setOneBit k s := ((1 : BitVec 3) <<< k, s.2)
  mexp := 2

def T : Wd 3 →ₗ[ZMod 2] Wd 3 := linOf (fun x => Wd.of (rot x.val)) (by
  show ∀ x y : BitVec 3, rot (x ^^^ y) = rot x ^^^ rot y
  decide +kernel)

def P : Wd 3 →ₗ[ZMod 2] V := linOf (fun x => bits (x.val.setWidth 32)) (fun x y => by
  rw [← bits_xor]; rfl)

def e (k : ℕ) : Wd 3 := Wd.of ((1 : BitVec 3) <<< k)

def bitF (k : ℕ) : Wd 3 →ₗ[ZMod 2] ZMod 2 := linOf (fun x => if x.val.getLsbD k then 1 else 0) (fun x y => by
  show (if (x.val ^^^ y.val).getLsbD k then (1 : ZMod 2) else 0) = _
  rw [BitVec.getLsbD_xor]
  cases x.val.getLsbD k <;> cases y.val.getLsbD k <;> decide)

theorem indep : LinearIndependent (ZMod 2) fun k : Fin 3 => e k := by
  refine dual_indep bitF fun i j hi hj => ?_
  have : ∀ i j : Fin 3, (if (e j).val.getLsbD i then (1 : ZMod 2) else 0) = if (i : ℕ) = j then 1 else 0 := by
    decide +kernel
  exact this ⟨i, hi⟩ ⟨j, hj⟩

theorem M_top : M 3 e = ⊤ :=
  M_eq indep ⊤ (by rw [finrank_top, Wd.finrank]) fun _ _ => Submodule.mem_top

theorem redGen : RedGen rops (fun _ => True) (fun s : St => Wd.of s.1) T P e P where
  gen_inv _ _ := trivial
  gen_den _ _ := rfl
  gen_out _ _ := rfl
  genV_inv _ _ _ _ _ := trivial
  genV_den _ _ _ _ _ := rfl
  genV_out v s _ hv _ := bits_and_mask _ hv
  add_inv _ _ _ _ := trivial
  add_den _ _ _ _ := rfl
  zero_inv _ _ := trivial
  zero_den _ _ := rfl
  one_inv _ _ _ _ := trivial
  one_den _ _ _ _ := rfl
  indep := indep
  closed x _ := by
    show T x ∈ M 3 e
    rw [M_top]; exact Submodule.mem_top
  inj x _ := by
    have : ∀ x : BitVec 3, rot x = 0 → x = 0 := by decide +kernel
    exact this x
  isZero_iff s _ _ := by
    show (s.1 == 0) = true ↔ s.1 = 0
    exact beq_iff_eq
  parity _ _ _ := rfl

/-- The large factor. -/
noncomputable def f : (ZMod 2)[X] := X ^ 2 + X + 1
/-- The cofactor. -/
noncomputable def q : (ZMod 2)[X] := X + 1

theorem f_deg : f.natDegree = 2 := by unfold f; compute_degree!

theorem f_irr : Irreducible f := by
  have hm : f.Monic := by unfold f; monicity!
  rw [hm.irreducible_iff_roots_eq_zero_of_degree_le_three (by rw [f_deg]) (by rw [f_deg]; decide)]
  refine Multiset.eq_zero_of_forall_notMem fun a ha => ?_
  have := (mem_roots'.1 ha).2
  unfold f IsRoot at this
  simp only [eval_add, eval_pow, eval_X, eval_one] at this
  have h : ∀ a : ZMod 2, a ^ 2 + a + 1 ≠ 0 := by decide
  exact h a this

theorem coprime : IsCoprime f q := by
  refine ⟨1, X, ?_⟩
  unfold f q
  have h : (X + X : (ZMod 2)[X]) = 0 := CharTwo.add_self_eq_zero X
  have h' : (X ^ 2 + X ^ 2 : (ZMod 2)[X]) = 0 := CharTwo.add_self_eq_zero _
  calc (1 * (X ^ 2 + X + 1) + X * (X + 1) : (ZMod 2)[X]) = (X ^ 2 + X ^ 2) + (X + X) + 1 := by ring
    _ = 1 := by rw [h, h', zero_add, zero_add]

theorem f_apply (x : Wd 3) : aeval T f x = T (T x) + T x + x := by
  unfold f
  rw [map_add, map_add, map_pow, aeval_X, map_one, pow_two]; rfl

theorem q_apply (x : Wd 3) : aeval T q x = T x + x := by
  unfold q
  rw [map_add, aeval_X, map_one]; rfl

theorem ann (x : Wd 3) : aeval T (f * q) x = 0 := by
  rw [map_mul, Module.End.mul_apply, q_apply, f_apply]
  have : ∀ x : BitVec 3, rot (rot (rot x ^^^ x)) ^^^ rot (rot x ^^^ x) ^^^ (rot x ^^^ x) = 0 := by decide +kernel
  exact this x

theorem large : ∃ x ∈ M rops.bitSize e, x ≠ 0 ∧ aeval T f x = 0 := by
  refine ⟨Wd.of 3, ?_, by decide, ?_⟩
  · show Wd.of 3 ∈ M 3 e
    rw [M_top]; exact Submodule.mem_top
  · rw [f_apply]; decide +kernel

/-- All hypotheses of `searchParity_total` and `searchParity_period` are met: the search returns a vector, and every state
whose bits have odd parity with it recurs exactly after multiples of 3 steps. -/
theorem example_parity : ∃ fuel kernel v g', searchParity rops words32 fuel kernel 0 (0, 0) f = .ok (v, g') ∧ v ≠ 0 ∧
    (∀ s : St, dot (s.1.setWidth 32) v = 1 →
      ∀ l, (stateAt rops.toGenOps s l).1 = s.1 → 3 ∣ l) := by
  obtain ⟨kernel, hK⟩ := exists_kernel
  obtain ⟨N, hN⟩ := searchParity_total redGen wordsOK32 hK f_irr f_deg large (by decide) (fun x _ hx0 => ⟨0, fun h => hx0 (by
    have h1 : bits (x.val.setWidth 32) = bits (0 : BitVec 32) := by rw [bits_zero]; exact h
    have h2 : ∀ x : BitVec 3, x.setWidth 32 = 0 → x = 0 := by decide +kernel
    exact h2 x (bits_inj h1))⟩)
  obtain ⟨v, hv⟩ := hN (N + 1) (by omega) 0 (0, 0) trivial
  refine ⟨N + 1, kernel, v, _, hv, (searchParity_orthogonal redGen wordsOK32 hK f_irr f_deg large trivial hv).1,
    fun s hs l hl => ?_⟩
  exact searchParity_period redGen wordsOK32 hK f_irr f_deg (by decide) large coprime (fun x _ => ann x) trivial hv
    (s := s) trivial (by show _ ∈ M 3 e; rw [M_top]; exact Submodule.mem_top) hs hl

end MTT.Parity.Toy
