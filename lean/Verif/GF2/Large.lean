import Verif.Spec.LinSeq

/-!
# A criterion for a large factor of a minimal polynomial
-/

namespace MTT.GF2

open Polynomial

/-- An irreducible polynomial that annihilates a combination of the states, whose output is not zero, divides every polynomial that
annihilates the outputs. -/
theorem dvd_of_out {S : Type} [AddCommGroup S] [Module (ZMod 2) S] (T : S →ₗ[ZMod 2] S) (c : S →ₗ[ZMod 2] ZMod 2) {f h p : (ZMod 2)[X]}
    {z w : S} (hf : Irreducible f) (hw : w = aeval T h z) (hfw : aeval T f w = 0) (hc : c w ≠ 0) (hp : Ann p (outSeq T c z)) : f ∣ p := by
  by_contra hn
  obtain ⟨a, b, hab⟩ := (hf.coprime_iff_not_dvd).2 hn
  rw [ann_iff, aeval_outSeq] at hp
  have h1 : outSeq T c (aeval T p w) = 0 := by
    rw [hw, ← Module.End.mul_apply, ← map_mul, mul_comm, map_mul, Module.End.mul_apply, ← aeval_outSeq, hp, map_zero]
  have h2 : outSeq T c w = 0 := by
    have : w = aeval T a (aeval T f w) + aeval T b (aeval T p w) := by
      rw [← Module.End.mul_apply, ← map_mul, ← Module.End.mul_apply, ← map_mul, ← LinearMap.add_apply, ← map_add, hab, map_one]; rfl
    rw [this, hfw, map_zero, zero_add, ← aeval_outSeq, h1, map_zero]
  exact hc (congrFun h2 0)

end MTT.GF2
