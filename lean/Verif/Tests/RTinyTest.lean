import Verif.Tests.PeriodTest
import Verif.Samples.LineText

/-!
# Model of `test/test_rtiny.cpp`
-/

namespace MTT.Tests

open Search Period

/-- `RTiny32::getParamString`, test_generator.hpp:184-193. -/
def rtParam (p : RTPar) : List Char :=
  "mat1:".toList ++ Text.hexW 0 p.mat1.toNat ++ "\nmat2:".toList ++ Text.hexW 0 p.mat2.toNat ++ "\nsh1:".toList ++ Text.dec p.sh1 ++
    "\nsh2:".toList ++ Text.dec p.sh2 ++ "\nsh3:".toList ++ Text.dec p.sh3 ++ "\nsh4:".toList ++ Text.dec p.sh4 ++ "\n".toList

/-- The variables `reducible`, `irreducible`, `prime`, `factor`, test_rtiny.cpp:13-16. -/
structure Flags where
  reducible : Bool
  irreducible : Bool
  prime : Bool
  factor : Bool

noncomputable section

variable (mps : MPS) (fuel : ℕ) (f : ℕ → BitVec 32)

/-- The loop of `main`, test_rtiny.cpp:39-68.  `f`: the numbers delivered by `mt`, of which `k` are used up; the first argument is the
number of turns left; `out` is the text written so far.  Result: the numbers used up and the text. -/
def rtinyLoop : ℕ → ℕ → RT → Flags → List Char → Option (ℕ × List Char)
  | 0, k, _, _, out => some (k, out)
  | n + 1, k, r, fl, out => do
    let q ← minpoly mps rtOps 0 0 r
    let r := q.1
    let poly := q.2
    if deg poly ≠ 128 then rtinyLoop n (k + 6) (rtSetUp (fun j => f (k + j)) r) fl out
    else if isIrreducible poly then
      let out := out ++ "irreducible\n".toList ++ rtParam r.par ++ "\n".toList
      let fl := { fl with irreducible := true }
      let b ← isPrimeStr poly 128 testTable
      let out := if b then out ++ "prime\n".toList ++ rtParam r.par ++ "\n".toList else out
      if fl.reducible && fl.irreducible && fl.prime && fl.factor then some (k, out)
      else rtinyLoop n (k + 6) (rtSetUp (fun j => f (k + j)) r) fl out
    else
      let out := out ++ "reducible\n".toList ++ rtParam r.par ++ "\n".toList
      let fl := { fl with reducible := true }
      let h ← hasFactorOfDegree fuel poly 127
      let out := if h.1 then out ++ "has a factor of degree 127\n".toList ++ rtParam r.par ++ "\n".toList else out
      let fl := if h.1 then { fl with factor := true } else fl
      if fl.reducible && fl.irreducible && fl.prime && fl.factor then some (k, out)
      else rtinyLoop n (k + 6) (rtSetUp (fun j => f (k + j)) r) fl out

/-- `main` of test_rtiny.cpp:11-70 (which returns 0). -/
def rtinyMain (turns : ℕ) : Option (ℕ × List Char) := rtinyLoop mps fuel f turns 0 (rtDefault 1234) ⟨false, false, false, true⟩ []

end

end MTT.Tests
