import Verif.Samples.TinyMT

/-!
# C43: what a freshly seeded `tinymt32` does
-/

namespace MTT.TinyMT

theorem nextState_aux (s : St) (x y : BitVec 32)
    (hx : ((s.s0 &&& 0x7fffffff) ^^^ s.s1 ^^^ s.s2) ^^^ (((s.s0 &&& 0x7fffffff) ^^^ s.s1 ^^^ s.s2) <<< 1) = x)
    (hy : s.s3 ^^^ (s.s3 >>> 1 ^^^ x) = y) :
    nextState s = if y &&& 1 ≠ 0 then
      ⟨s.s1, s.s2 ^^^ s.mat1, x ^^^ y <<< 10 ^^^ s.mat2, y, s.id, s.mat1, s.mat2, s.tmat, s.rev⟩
      else ⟨s.s1, s.s2, x ^^^ y <<< 10, y, s.id, s.mat1, s.mat2, s.tmat, s.rev⟩ := by
  subst hx
  subst hy
  rfl

/-- **C43.**  `seed(v)` puts the number into the word that the recursion reads last and zeros into the
others, whatever was there before: after it, the first step of the recursion makes `y = v ^ (v >> 1)`, and
the matrices come in exactly if `y` is odd.  Parameters, tempering and the reverse flag stay. -/
theorem seed_first (v : BitVec 32) (s : St) :
    nextState (seed v s) =
      ⟨0, if (v ^^^ v >>> 1).getLsbD 0 then s.mat1 else 0,
        (v ^^^ v >>> 1) <<< 10 ^^^ (if (v ^^^ v >>> 1).getLsbD 0 then s.mat2 else 0),
        v ^^^ v >>> 1, s.id, s.mat1, s.mat2, s.tmat, s.rev⟩ := by
  rw [nextState_aux (seed v s) 0 (v ^^^ v >>> 1) (by simp [seed]) (by simp [seed]),
    show (1 : BitVec 32) = 1#32 from rfl, BitVec.and_one_eq_setWidth_ofBool_getLsbD]
  generalize v ^^^ v >>> 1 = y
  cases y.getLsbD 0 <;> simp [seed]

/-- Both cases occur, and the first output of the generator tinymt32dc seeds with 1 is not zero. -/
example : ((1 : BitVec 32) ^^^ 1 >>> 1).getLsbD 0 = true ∧ ((3 : BitVec 32) ^^^ 3 >>> 1).getLsbD 0 = false ∧
    (generate (seed 1 (setUpParam 3 (ctor 1)))).2 ≠ 0 := by
  decide +kernel

end MTT.TinyMT
