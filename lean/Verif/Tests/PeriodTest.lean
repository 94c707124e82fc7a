import Verif.Tests.Gen
import Verif.Search.Model
import Verif.Period.Tables
import Verif.Period.Model

/-!
# Model of `test/test_period.cpp` and of the classes `Tiny32` and `Tiny64` as generators
-/

namespace MTT.Tests

open Search Period TinyRef

/-- `class Tiny32`, test_generator.hpp:18-110: `generate` 35-37, `generate(outBitLen)` 39-43 (the argument is from 1 to 32), `add` 53-68 for
an object with the same parameters (otherwise it throws), `setZero` 74-78, `isZero` 80-89, `bitSize` 49-51 (tinymt32.h:60-63).  The file
is compiled with `LINEARITY_CHECK`. -/
def t32Ops : GenOps T32 32 where
  generate := gen32 true
  generateV v s := ((gen32 true s).1, (gen32 true s).2 &&& ((~~~ (0 : BitVec 32)) <<< (32 - v)))
  add a b := { a with s0 := a.s0 ^^^ b.s0, s1 := a.s1 ^^^ b.s1, s2 := a.s2 ^^^ b.s2, s3 := a.s3 ^^^ b.s3 }
  setZero a := { a with s0 := 0, s1 := 0, s2 := 0, s3 := 0 }
  isZero a := (a.s0 &&& 0x7fffffff) == 0 && a.s1 == 0 && a.s2 == 0 && a.s3 == 0
  bitSize := 127

/-- `class Tiny64`, test_generator.hpp:113-131, as seen by `minpoly`: `generate` 121-123, `bitSize` 127-129 (tinymt64.h:60-63).  The class
has no other operations; the remaining fields are filled in because `GenOps` has them. -/
def t64Ops : GenOps T64 64 where
  generate := gen64 true
  generateV v s := ((gen64 true s).1, (gen64 true s).2 &&& ((~~~ (0 : BitVec 64)) <<< (64 - v)))
  add a b := { a with s0 := a.s0 ^^^ b.s0, s1 := a.s1 ^^^ b.s1 }
  setZero a := { a with s0 := 0, s1 := 0 }
  isZero a := (a.s0 &&& 0x7fffffffffffffff) == 0 && a.s1 == 0
  bitSize := 127

/-- The table of test_period.cpp:110-111; the same is in test_rtiny.cpp:20-21. -/
def testTable : List (Option (List Char)) := cTable
  ["3", "5", "17", "257", "641", "65537", "274177", "6700417", "672804213107211"]

noncomputable section

variable (mps : MPS) (fuel : ℕ) (junk1 junk2 : ℕ → BitVec 32)

/-- `minpoly(poly, generator)`: bit 0, `bitSize()`.  `none`: undefined behaviour. -/
def mp {σ : Type} {w : ℕ} (G : GenOps σ w) (s : σ) : Option (Polynomial (ZMod 2)) := (minpoly mps G 0 0 s).map Prod.snd

/-- `period_u32`, test_period.cpp:44-56: the text written and the result. -/
def periodU32 : Option (String × Bool) := do
  let poly ← mp mps t32Ops (tiny32 1234)
  if deg poly = t32Ops.bitSize then return ("testing period u32 ...ok\n", true)
  return ("testing period u32 ...NG\n", false)

/-- `period_u64`, test_period.cpp:58-70. -/
def periodU64 : Option (String × Bool) := do
  let poly ← mp mps t64Ops (tiny64 1234)
  if deg poly = t64Ops.bitSize then return ("testing period u64 ...ok\n", true)
  return ("testing period u64 ...NG\n", false)

/-- `is_irreducible`, test_period.cpp:72-91. -/
def irrTest : Option (String × Bool) := do
  let poly ← mp mps t64Ops (tiny64 1234)
  if !isIrreducible poly then return ("testing irreducible ...NG\n", false)
  let poly ← mp mps rtOps (rtNew ⟨0x59c94057, 0xfd77d893, 15, 16, 3, 9⟩ 1234)
  if isIrreducible poly then return ("testing irreducible ...NG\n", false)
  return ("testing irreducible ...", true)

/-- `is_prime`, test_period.cpp:93-105. -/
def primeTest : Option (String × Bool) := do
  let poly ← mp mps t64Ops (tiny64 1234)
  if !isPrime1 poly then return ("testing prime 2 ...NG\n", false)
  return ("testing prime 2 ...ok\n", true)

/-- `is_prime2`, test_period.cpp:107-128. -/
def primeTest2 : Option (String × Bool) := do
  let poly ← mp mps rtOps (rtDefault 1234)
  let b ← isPrimeStr poly 128 testTable
  if !b then return ("testing prime 2 ...NG\n", false)
  let poly ← mp mps rtOps (rtNew ⟨0x474ba8c4, 0x3039cd1a, 31, 16, 7, 4⟩ 1234)
  let b ← isPrimeStr poly 128 testTable
  if b then return ("testing prime 2 ...NG\n", false)
  return ("testing prime 2 ...", true)

/-- `has_factor`, test_period.cpp:130-149; `junk1`, `junk2`: what `new` left in the arrays of the two objects. -/
def factorTest : Option (String × Bool) := do
  let poly ← mp mps rlOps (rlNew junk1 ⟨0x80903834, 7, 1, 31, 26, 26⟩ 1234)
  let r ← hasFactorOfDegree fuel poly 521
  if !r.1 then return ("has factor ...NG\n", false)
  let poly ← mp mps rlOps (rlNew junk2 ⟨0xed6fdaa7, 7, 5, 27, 9, 12⟩ 1234)
  let r ← hasFactorOfDegree fuel poly 521
  if r.1 then return ("has factor ...NG\n", false)
  return ("has factor ...", true)

/-- The sequence of calls in a `main`: the text and the returned value.  The remaining functions are not called after one that returned
false. -/
def runTests : List (Option (String × Bool)) → Option (String × Int)
  | [] => some ("", 0)
  | t :: ts => do
    let r ← t
    if !r.2 then return (r.1, -1)
    let q ← runTests ts
    return (r.1 ++ q.1, q.2)

/-- `main` of test_period.cpp:20-42. -/
def testPeriod : Option (String × Int) := do
  let r ← runTests [periodU32 mps, periodU64 mps, irrTest mps, primeTest mps, primeTest2 mps, factorTest mps fuel junk1 junk2]
  return ("testing period\n" ++ r.1, r.2)

end

end MTT.Tests
