import Verif.Tests.EquidistTest
import Verif.Tests.RTinyTest
import Verif.Samples.Programs
import Verif.Search.RTModel
import Verif.Temper.Model
import Verif.Lin.Model

/-!
# Model of the other tests of `make check`

`test_mt.cpp`, `test_search.cpp`, `test_temper.cpp`, `test_search_temper.cpp`, `test_linearity.cpp`, `test_primefactors.cpp`,
`test_version.cpp`, and the class `Tiny32` of `test_temper_searcher.hpp`.

The class `Tiny32` of test_temper_searcher.hpp differs from the one of test_generator.hpp by the constructor with four arguments, by
`setTemperingPattern` and by the member `reverse`.  Nothing but `isReverseOutput` reads `reverse`, and nothing calls `isReverseOutput`;
therefore the member is left out.
-/

namespace MTT.Tests

open Search Period TinyRef PIS Temper

/-! ## `Tiny32` -/

/-- The constructor with four arguments, test_temper_searcher.hpp:29-35 (`tinymt32_init` overwrites `status`). -/
def tiny32p (m1 m2 t seed : BitVec 32) : T32 := init32 ⟨0, 0, 0, 0, m1, m2, t⟩ seed

/-- `getParamString`, test_temper_searcher.hpp:115-121, test_generator.hpp:101-107. -/
def t32Param (r : T32) : List Char :=
  "mat1:".toList ++ Text.hexW 0 r.mat1.toNat ++ "\nmat2:".toList ++ Text.hexW 0 r.mat2.toNat ++ "\ntmat:".toList ++
    Text.hexW 0 r.tmat.toNat ++ "\n".toList

/-- `setTemperingPattern`, test_temper_searcher.hpp:123-127. -/
def t32SetPat (mask pattern : BitVec 32) (_index : ℕ) (r : T32) : T32 := { r with tmat := (r.tmat &&& ~~~ mask) ||| (pattern &&& mask) }

/-- `AlgorithmEquidistribution<uint32_t> sb(rand, L); sb.get_all_equidist(veq)`; the constructor works on clones.  `veq` is an
uninitialised local array, AlgorithmPartialBitPattern.hpp:301, AlgorithmRecursionAndTempering.hpp:144. -/
def t32Measure (veq : ℕ → ℕ) (L : ℕ) (r : T32) : Option ℤ :=
  match getAllEquidist t32Ops Util.calc1posWrap32 r L 127 (L * ((L + 1) * 127) + L + 1) veq with
  | .ok q => some q.sum
  | .error _ => none

/-- What a tempering search uses of `Tiny32`, test_temper_searcher.hpp:63-65, 123-137. -/
def t32Temper (veq : ℕ → ℕ) : TemperOps T32 32 where
  setPat := t32SetPat
  setUp r := r
  setRev r := r
  resetRev r := r
  bitSize := 127
  delta := t32Measure veq
  countBit := Util.countBit32

/-- What the recursion search uses of `Tiny32`: `setUpParam` (test_temper_searcher.hpp:106-109, test_generator.hpp:92-95) takes two
numbers of the source, `f` being the numbers of the source, of which the second component of the state counts those used; `seed(1)`. -/
def t32Search (f : ℕ → BitVec 32) : SearchOps T32 ℕ 32 where
  gen := t32Ops
  setUp r k := some ({ r with mat1 := f k, mat2 := f (k + 1) }, k + 2)
  seedOne r := init32 r 1

/-- `AlgorithmPartialBitPattern<uint32_t, 32, 1, 23, 6, false>` and `<uint32_t, 32, 1, 9, 5, true>`, test_temper.cpp:17-18,
test_search_temper.cpp:18-19. -/
def st32 : PBPar := ⟨32, 1, 23, 6, false⟩
def stlsb32 : PBPar := ⟨32, 1, 9, 5, true⟩

/-- `str.find(pat) != npos`. -/
def hasText (pat : List Char) : List Char → Bool
  | [] => pat.isPrefixOf []
  | c :: s => pat.isPrefixOf (c :: s) || hasText pat s

/-! ## `test_linearity.cpp` -/

/-- `main`, test_linearity.cpp:12-23: the text written and the value returned. -/
def linearityTest : List Char × Int :=
  if !Lin.testLinearity t32Ops init32 (tiny32p 0x8f7011ee 0xfc78ff1f 0 1234) then ("testing linearity ...NG\n".toList, -1)
  else ("testing linearity ...ok\n".toList, 0)

/-! ## `test_primefactors.cpp` -/

/-- The array `primes`, test_primefactors.cpp:22-37. -/
def suiteTables : List (List (Option (List Char))) :=
  [factors128, factors160, factors192, factors224, factors256, factors288, factors320, factors352, factors384, factors416, factors448,
   factors480, factors512, factors544]

/-- `ctozz`, test_primefactors.cpp:13-17: the text is followed by a newline in a new stream.  `none`: NTL aborts. -/
def ctozz (s : List Char) : Option ℤ := (readZZ (s ++ ['\n'])).map Prod.fst

/-- The inner loop, test_primefactors.cpp:45-54: `some true`: all divide; `some false`: `return -1`; `none`: no number, division by zero, or
no end of the table. -/
def factorLoop (w : ℤ) : List (Option (List Char)) → Option Bool
  | [] => none
  | none :: _ => some true
  | some s :: rest =>
    match ctozz s with
    | none => none
    | some d => if d = 0 then none else if w.emod d ≠ 0 then some false else factorLoop w rest

/-- The outer loop, test_primefactors.cpp:40-55; `n` turns left, next `i`. -/
def factorsLoop : ℕ → ℕ → Option Bool
  | 0, _ => some true
  | n + 1, i =>
    match suiteTables[i - 4]? with
    | none => none
    | some p =>
      match factorLoop ((2 ^ 32 : ℤ) ^ i - 1) p with
      | none => none
      | some false => some false
      | some true => factorsLoop n (i + 1)

/-- `main`, test_primefactors.cpp:19-58. -/
def factorsTest : Option (List Char × Int) :=
  match factorsLoop 14 4 with
  | none => none
  | some false => some ("testing prime factors ...NG\n".toList, -1)
  | some true => some ("testing prime factors ...ok\n".toList, 0)

/-! ## `test_mt.cpp` -/

/-- The loop of `array_seed` and `single_seed`, test_mt.cpp:35-40, 57-62: is `success` still true afterwards?  `none`: undefined. -/
def mtLoop : List (BitVec 32) → MT.St 32 → Option Bool
  | [], _ => some true
  | r :: rs, s =>
    match MT.next32 s with
    | none => none
    | some (s, v) => if v ≠ r then some false else mtLoop rs s

/-- `array_seed`, test_mt.cpp:25-48; the memory of a new object is `MT.fresh` (not readable before it is written). -/
def arraySeedTest : Option (List Char × Bool) :=
  ((MT.seed32 5489 MT.fresh).bind fun mt => (MT.seedArr32 [0x123, 0x234, 0x345, 0x456] 4 mt).bind
    (mtLoop [1067595299, 955945823, 477289528, 4107218783, 4228976476])).map fun success =>
  if success then ("testing array_seed ...ok\n".toList, true) else ("testing array_seed ...NG\n".toList, false)

/-- `single_seed`, test_mt.cpp:50-70. -/
def singleSeedTest : Option (List Char × Bool) :=
  ((MT.seed32 5489 MT.fresh).bind (mtLoop [3499211612, 581869302, 3890346734, 3586334585, 545404204])).map fun success =>
  if success then ("testing single_seed ...ok\n".toList, true) else ("testing single_seed ...NG\n".toList, false)

/-- `main`, test_mt.cpp:13-23. -/
def mtTest : Option (List Char × Int) := do
  let out := "testing Mersenne Twister\n".toList
  let a ← arraySeedTest
  let out := out ++ a.1
  if !a.2 then return (out, -1)
  let b ← singleSeedTest
  let out := out ++ b.1
  if !b.2 then return (out, -1)
  return (out, 0)

/-! ## `test_version.cpp` -/

/-- `main`, test_version.cpp:5-15, for the text `VERSION` of config.h (lib/version.c:4-7). -/
def versionTest (version : List Char) : List Char × Int := (version ++ ['\n'], if version.length > 0 then 0 else 1)

noncomputable section

variable (mps : MPS) (veq : ℕ → ℕ) (f : ℕ → BitVec 32)

/-! ## `test_search.cpp` -/

/-- `main`, test_search.cpp:14-39; `f` are the numbers of `mt`, `seed` is 1234 in the program and `tries` is 10000.  `none`: undefined
behaviour or an exception. -/
def searchTest (seed : BitVec 32) (tries : ℕ) : Option (List Char × Int) :=
  let out := "tesing search ...".toList
  match start mps (t32Search f) (primitivityOp none) tries ⟨tiny32 seed, 0, 0, 0⟩ with
  | .ret true st =>
    if !hasText "mat1".toList (t32Param st.rand) then some (out ++ "NG\n".toList, -1)
    else if deg st.poly ≠ t32Ops.bitSize then some (out ++ "NG\n".toList, -1)
    else if st.count ≤ 0 then some (out ++ "NG\n".toList, -1)
    else some (out, 0)
  | .ret false _ => some (out, 77)
  | .threw _ => none
  | .undef => none

/-! ## `test_temper.cpp` -/

/-- `stlsb32(tiny, false); st32(tiny, false)`, test_temper.cpp:20-21. -/
def temperBoth (r : T32) : Option T32 :=
  (partialBitPattern (t32Temper veq) stlsb32 10 r).bind (partialBitPattern (t32Temper veq) st32 24)

/-- `main`, test_temper.cpp:13-29. -/
def temperTest : Option (List Char × Int) :=
  (temperBoth veq (tiny32p 0x8f7011ee 0xfc78ff1f 0 1234)).map fun r =>
    if !hasText "tmat".toList (t32Param r) then ("testing temper search ...NG\n".toList, -1)
    else ("testing temper search ...ok\n".toList, 0)

/-! ## `test_search_temper.cpp` -/

/-- `searcher.search(tiny, st32, stlsb32, false)`, test_search_temper.cpp:23. -/
def searchBoth (fuel : ℕ) (r : T32) : Option (RTRes T32 ℕ) :=
  rtSearch mps (t32Search f) (primitivityOp none) (partialBitPattern (t32Temper veq) st32 24)
    (partialBitPattern (t32Temper veq) stlsb32 10) (t32Measure veq 32) false fuel r 0

/-- `main`, test_search_temper.cpp:14-44; `none`: undefined behaviour, an exception, or `fuel` rounds of the search were not enough. -/
def searchTemperTest (fuel : ℕ) : Option (List Char × Int) :=
  let out := "testing recursion search and temper ...".toList
  match searchBoth mps veq f fuel (tiny32p 0x8f7011ee 0xfc78ff1f 0 1234) with
  | some (.found o) =>
    if !hasText "tmat".toList (t32Param o.rand) then some (out ++ "NG\n".toList, -1)
    else if o.weight ≥ 128 then some (out ++ "NG\n".toList, -1)
    else if o.delta > 10 then some (out ++ "NG\n".toList, -1)
    else if polyWeight o.poly ≠ o.weight then some (out ++ "NG\n".toList, -1)
    else some (out ++ "ok\n".toList, 0)
  | _ => none

end

end MTT.Tests
