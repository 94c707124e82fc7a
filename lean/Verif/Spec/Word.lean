import Verif.PIS.All
import Mathlib.Algebra.Module.ZMod
import Mathlib.Algebra.Field.ZMod
import Mathlib.FieldTheory.Finiteness
import Mathlib.LinearAlgebra.Charpoly.Basic
import Mathlib.LinearAlgebra.Dimension.Constructions
import Mathlib.LinearAlgebra.FiniteDimensional.Basic
import Mathlib.LinearAlgebra.FreeModule.Finite.Matrix

/-!
# Machine words as vectors over GF(2)

`Wd w` is `BitVec w` with exclusive or as addition; it is a vector space of dimension `w` over
`ZMod 2`.  Used to state the linear-generator contract for concrete generators.
-/

namespace MTT

open PIS Polynomial

/-- Words of `w` bits, as a vector space. -/
def Wd (w : ℕ) : Type := BitVec w

namespace Wd

variable {w : ℕ}

/-- The word, seen as a vector. -/
def of (x : BitVec w) : Wd w := x
/-- The vector, seen as a word. -/
def val (x : Wd w) : BitVec w := x

@[ext] theorem ext {x y : Wd w} (h : x.val = y.val) : x = y := h

instance : Add (Wd w) := ⟨fun x y => of (x.val ^^^ y.val)⟩
instance : Zero (Wd w) := ⟨of 0⟩
instance : Neg (Wd w) := ⟨fun x => x⟩

instance : AddCommGroup (Wd w) where
  add_assoc _ _ _ := BitVec.xor_assoc _ _ _
  zero_add x := BitVec.zero_xor (x := x.val)
  add_zero x := BitVec.xor_zero (x := x.val)
  add_comm _ _ := BitVec.xor_comm _ _
  neg_add_cancel x := BitVec.xor_self (x := x.val)
  nsmul := nsmulRec
  zsmul := zsmulRec

@[simp] theorem val_of (x : BitVec w) : (of x).val = x := rfl
@[simp] theorem of_val (x : Wd w) : of x.val = x := rfl
@[simp] theorem val_add (x y : Wd w) : (x + y).val = x.val ^^^ y.val := rfl
@[simp] theorem val_zero : (0 : Wd w).val = 0 := rfl
theorem of_xor (x y : BitVec w) : of (x ^^^ y) = of x + of y := rfl
theorem of_zero : of (0 : BitVec w) = 0 := rfl

instance : Module (ZMod 2) (Wd w) := AddCommGroup.zmodModule (n := 2) (fun x => by
  rw [two_nsmul]; exact BitVec.xor_self (x := x.val))

instance : DecidableEq (Wd w) := inferInstanceAs (DecidableEq (BitVec w))

/-- The words with `w` bits are equivalent to the numbers below `2^w`. -/
def equivFin : Wd w ≃ Fin (2 ^ w) := ⟨fun x => x.val.toFin, fun x => of ⟨x⟩, fun _ => rfl, fun _ => rfl⟩

instance : Finite (Wd w) := Finite.of_equiv _ equivFin.symm

theorem card : Nat.card (Wd w) = 2 ^ w := by
  rw [Nat.card_congr equivFin, Nat.card_eq_fintype_card, Fintype.card_fin]

instance : Module.Finite (ZMod 2) (Wd w) := Module.Finite.of_finite

theorem finrank : Module.finrank (ZMod 2) (Wd w) = w := by
  have h := Module.natCard_eq_pow_finrank (K := ZMod 2) (V := Wd w)
  rw [card, Nat.card_zmod] at h
  exact (Nat.pow_right_injective (le_refl 2) h).symm

/-- The bits of a word, most significant first, as a linear map. -/
def bitsL (w : ℕ) : Wd w →ₗ[ZMod 2] V :=
  AddMonoidHom.toZModLinearMap 2
    { toFun := fun x => bits x.val, map_zero' := bits_zero, map_add' := fun _ _ => bits_xor _ _ }

@[simp] theorem bitsL_apply (x : Wd w) : bitsL w x = bits x.val := rfl

end Wd

/-- An additive map between vector spaces over `ZMod 2`, as a linear map. -/
def linOf {S S' : Type} [AddCommGroup S] [Module (ZMod 2) S] [AddCommGroup S'] [Module (ZMod 2) S']
    (f : S → S') (hf : ∀ x y, f (x + y) = f x + f y) : S →ₗ[ZMod 2] S' :=
  AddMonoidHom.toZModLinearMap 2 (AddMonoidHom.mk' f hf)

@[simp] theorem linOf_apply {S S' : Type} [AddCommGroup S] [Module (ZMod 2) S] [AddCommGroup S']
    [Module (ZMod 2) S'] (f : S → S') (hf : ∀ x y, f (x + y) = f x + f y) (x : S) :
    linOf f hf x = f x := rfl

/-- On a finite-dimensional state space the characteristic polynomial satisfies every hypothesis that
the equidistribution theorems make about the annihilating polynomial. -/
theorem charpoly_hyps {S : Type} [AddCommGroup S] [Module (ZMod 2) S] [Module.Finite (ZMod 2) S]
    (T : S →ₗ[ZMod 2] S) (s : S) :
    T.charpoly.Monic ∧ aeval T T.charpoly s = 0 ∧
      T.charpoly.natDegree = Module.finrank (ZMod 2) S :=
  ⟨T.charpoly_monic, by rw [LinearMap.aeval_self_charpoly]; rfl, LinearMap.charpoly_natDegree T⟩

end MTT
