import Verif.Search.ReducibleProps
import Verif.Parity.Example

/-!
# C74: a case that meets the hypotheses

The rotating register of three bits: its outputs have the minimal polynomial `(x^2 + x + 1) (x + 1)`.
-/

namespace MTT.Parity.Toy

open Polynomial PIS Search

theorem outputFactor (p : BitVec 32) : OutputFactor rops.toGenOps ((1, p) : St) f := by
  intro g hg
  by_contra hnd
  have h1 := obs_of_ann redGen.toLinGen (s := ((1, p) : St)) trivial hg
  have h2 : bits ((aeval T g (Wd.of (1 : BitVec 3))).val.setWidth 32) = bits (0 : BitVec 32) := by
    rw [bits_zero]; exact congrFun h1 0
  have h3 : aeval T g (Wd.of (1 : BitVec 3)) = 0 := by
    have h : ∀ x : BitVec 3, x.setWidth 32 = 0 → x = 0 := by decide +kernel
    exact h _ (bits_inj h2)
  obtain ⟨u, v, huv⟩ := (f_irr.coprime_iff_not_dvd).2 hnd
  have h4 : aeval T q (Wd.of (1 : BitVec 3)) = aeval T (u * (f * q) + q * v * g) (Wd.of (1 : BitVec 3)) := by
    rw [show u * (f * q) + q * v * g = q * (u * f + v * g) by ring, huv, mul_one]
  rw [map_add, LinearMap.add_apply, map_mul, Module.End.mul_apply, ann, map_zero, map_mul _ (q * v), Module.End.mul_apply, h3,
    map_zero, add_zero, q_apply] at h4
  revert h4
  decide +kernel

/-- The hypotheses of `reducibleAll_correct` are met. -/
example : ∃ (mps : MPS) (r : EquidistResult),
    reducibleAll mps rops.toGenOps (Util.calc1posWrap32) ((1, 0) : St) f 32 2 (32 * (33 * 2) + 33) (fun _ => 0) = some (.ok r) ∧
    IsGreatest {k | Equidist T P (Component T P f (Wd.of 1)) 2 k} (r.veq 1) := by
  obtain ⟨mps, hm⟩ := minPolySeqSpec_sat
  obtain ⟨r, h1, h2, -⟩ := reducibleAll_correct hm redGen.toLinGen (s := ((1, 0) : St)) trivial
    (by rw [Wd.finrank]; decide) f_irr f_deg le_rfl (outputFactor 0) Util.isCalc1pos_32 (bitLen := 32) (by decide) le_rfl
    (fuel := 32 * (33 * 2) + 33) (by decide) (fun _ => 0)
  exact ⟨mps, r, h1, h2 2 (by decide) (by decide)⟩

end MTT.Parity.Toy
