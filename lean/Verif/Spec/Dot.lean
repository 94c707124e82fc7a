import Mathlib.Data.ZMod.Basic
import Mathlib.Algebra.BigOperators.Group.Finset.Basic

/-!
# The inner product modulo 2 of two words (specification)
-/

namespace MTT

/-- Inner product modulo 2 of two words. -/
def dot {w : ℕ} (x y : BitVec w) : ZMod 2 := ∑ i ∈ Finset.range w, if x.getLsbD i && y.getLsbD i then 1 else 0

theorem dot_xor {w : ℕ} (x z y : BitVec w) : dot (x ^^^ z) y = dot x y + dot z y := by
  unfold dot
  rw [← Finset.sum_add_distrib]
  refine Finset.sum_congr rfl fun i _ => ?_
  rw [BitVec.getLsbD_xor]
  cases x.getLsbD i <;> cases z.getLsbD i <;> cases y.getLsbD i <;> decide

theorem dot_comm {w : ℕ} (x y : BitVec w) : dot x y = dot y x := by
  unfold dot
  refine Finset.sum_congr rfl fun i _ => ?_
  rw [Bool.and_comm]

end MTT
