import Verif.Samples.XorShift
import Verif.Search.Model
import Verif.Period.Tables

/-!
# Model of the fixed xorshift generators: xorshift-1.cpp, xorshift-2.cpp, xorshift-5.cpp, xorshift128.c

The fields `pat`, `a`, `b`, `c` of `St` are not used here: the shift amounts are constants of the classes.
-/

namespace MTT.XorShift

/-- Interface of `class XorShift` of xorshift-2.cpp:13-59; xorshift-1.cpp:14-33 has `generate`, `seed` and
`bitSize` of it only.  `generate(int)` is xorshift-2.cpp:27-31; `isZero`, `setZero`, `add`, `bitSize` are
the same text as in xorshift-4.cpp. -/
def ops1 : GenOps St 32 where
  generate := generate1
  generateV v s := ((generate1 s).1, (generate1 s).2 &&& ((~~~ (0 : BitVec 32)) <<< (32 - v)))
  add := add
  setZero := setZero
  isZero := isZero
  bitSize := 128

/-- Interface of `class XorShift` of xorshift-5.cpp:13-60; `generate(int)` is xorshift-5.cpp:29-33. -/
def ops5 : GenOps St 32 where
  generate := generate5
  generateV v s := ((generate5 s).1, (generate5 s).2 &&& ((~~~ (0 : BitVec 32)) <<< (32 - v)))
  add := add
  setZero := setZero
  isZero := isZero
  bitSize := 128

/-- `main` of xorshift-1.cpp:35-46: the number printed after `degree = `, and whether the program prints
`period is 2^128 -1.`; `junk` is what the object holds before the constructor.  `none`: undefined behaviour. -/
noncomputable def main1 (mps : Search.MPS) (junk : St) : Option (ℤ × Bool) :=
  match Search.minpoly mps ops1 0 0 (seed 1 junk) with
  | none => none
  | some (_, poly) => (Period.isPrimeStr poly 128 Period.factors128).map fun b => (Period.deg poly, b)

/-- `xorshift128_generate`, xorshift128.c:11-20. -/
def generate128 (s : X128) : X128 × BitVec 32 :=
  let t := s.x ^^^ (s.x <<< 11)
  let t := t ^^^ (t >>> 7)
  let w' := (s.w ^^^ (s.w <<< 20)) ^^^ t
  (⟨s.y, s.z, s.w, w'⟩, w')

end MTT.XorShift
