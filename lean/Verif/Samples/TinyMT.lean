import Verif.PIS.Model
import Verif.Util.Model

/-!
# Model of `class tinymt32` (`samples/TinyMTDC/tinymt32search.hpp`)
-/

namespace MTT.TinyMT

/-- Object: `status`, `param` and `reverse_bit_flag`, tinymt32search.hpp:439-442, 66-70. -/
structure St where
  s0 : BitVec 32
  s1 : BitVec 32
  s2 : BitVec 32
  s3 : BitVec 32
  id : BitVec 32
  mat1 : BitVec 32
  mat2 : BitVec 32
  tmat : BitVec 32
  rev : Bool
deriving DecidableEq

/-- `setZero`, tinymt32search.hpp:171-176. -/
def setZero (s : St) : St := { s with s0 := 0, s1 := 0, s2 := 0, s3 := 0 }

/-- The constructor from an id, tinymt32search.hpp:133-140 (`setZero` overwrites the uninitialised
status). -/
def ctor (id : BitVec 32) : St := ⟨0, 0, 0, 0, id, 0, 0, 0, false⟩

/-- The copy constructor and `clone`, tinymt32search.hpp:146-153, 164-166.  It clears
`reverse_bit_flag`. -/
def clone (s : St) : St := { s with rev := false }

/-- `seed`, tinymt32search.hpp:200-205. -/
def seed (v : BitVec 32) (s : St) : St := { s with s0 := 0, s1 := 0, s2 := 0, s3 := v }

/-- `next_state`, tinymt32search.hpp:446-462. -/
def nextState (s : St) : St :=
  let y := s.s3
  let x := (s.s0 &&& 0x7fffffff) ^^^ s.s1 ^^^ s.s2
  let x := x ^^^ (x <<< 1)
  let y := y ^^^ ((y >>> 1) ^^^ x)
  let s' := { s with s0 := s.s1, s1 := s.s2, s2 := x ^^^ (y <<< 10), s3 := y }
  if (y &&& 1) ≠ 0 then { s' with s1 := s'.s1 ^^^ s.mat1, s2 := s'.s2 ^^^ s.mat2 } else s'

/-- `temper`, tinymt32search.hpp:325-344 (neither `NO_TEMPER` nor `NON_LINEAR` is defined). -/
def temper (s : St) : BitVec 32 :=
  let t0 := s.s3
  let t1 := s.s0 ^^^ (s.s2 >>> 8)
  let t0 := t0 ^^^ t1
  if (t1 &&& 1) ≠ 0 then t0 ^^^ s.tmat else t0

/-- `generate()`, tinymt32search.hpp:237-240. -/
def generate (s : St) : St × BitVec 32 := (nextState s, temper (nextState s))

/-- `generate(int bit_len)`, tinymt32search.hpp:249-259 (`bit_len` from 1 to 32). -/
def generateV (v : Nat) (s : St) : St × BitVec 32 :=
  let r := generate s
  let u := if s.rev then Util.reverseBit32 r.2 else r.2
  let mask := (~~~ (0 : BitVec 32)) <<< (32 - v)
  (r.1, u &&& mask)

/-- `isZero`, tinymt32search.hpp:310-315. -/
def isZero (s : St) : Bool := (s.s0 &&& 0x7fffffff) == 0 && s.s1 == 0 && s.s2 == 0 && s.s3 == 0

/-- `add` with its check, tinymt32search.hpp:364-390; `none`: `invalid_argument`. -/
def addE (s t : St) : Option St :=
  if s.mat1 ≠ t.mat1 ∨ s.mat2 ≠ t.mat2 ∨ s.tmat ≠ t.tmat then none
  else some { s with s0 := s.s0 ^^^ t.s0, s1 := s.s1 ^^^ t.s1, s2 := s.s2 ^^^ t.s2, s3 := s.s3 ^^^ t.s3 }

/-- `add` for objects that pass the check (what happens otherwise does not matter here, `addE` has the
exception). -/
def add (s t : St) : St := (addE s t).getD s

/-- `setUpParam`, tinymt32search.hpp:266-277; `num` is the number delivered by the parameter source. -/
def setUpParam (num : BitVec 32) (s : St) : St :=
  let work := num ^^^ (num <<< 15) ^^^ (num <<< 23)
  let work := work <<< 1
  let mat1 := (work &&& 0xffff0000) ||| (s.id &&& 0xffff)
  let mat2 := (work &&& 0xffff) ||| (s.id &&& 0xffff0000)
  let mat1 := mat1 ^^^ (mat1 >>> 19)
  let mat2 := mat2 ^^^ (mat2 <<< 18)
  let mat2 := mat2 ^^^ 1
  { s with mat1 := mat1, mat2 := mat2, tmat := 0 }

/-- `setTemperingPattern`, tinymt32search.hpp:352-356. -/
def setTemperingPattern (mask pattern : BitVec 32) (_src_bit : Nat) (s : St) : St :=
  let tmat := s.tmat &&& ~~~ mask
  { s with tmat := tmat ||| (pattern &&& mask) }

/-- `setUpTempering`, tinymt32search.hpp:396-397. -/
def setUpTempering (s : St) : St := s

/-- `setReverseOutput`, `resetReverseOutput`, tinymt32search.hpp:423-433. -/
def setReverse (s : St) : St := { s with rev := true }
def resetReverse (s : St) : St := { s with rev := false }

/-- The interface of the class; `bitSize` is tinymt32search.hpp:182-184. -/
def ops : GenOps St 32 where
  generate := generate
  generateV := generateV
  add := add
  setZero := setZero
  isZero := isZero
  bitSize := 127

end MTT.TinyMT
