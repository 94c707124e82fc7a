import Verif.Tests.PeriodTest
import Verif.Samples.LineText

/-!
# Model of `test/test_rlittle.cpp`
-/

namespace MTT.Tests

open Search Period

/-- `RLittle32::printParam`, test_generator.hpp:283-290. -/
def rlParam (p : RLPar) : List Char :=
  "mat1:".toList ++ Text.hexW 0 p.mat1.toNat ++ "\npos:".toList ++ Text.dec p.pos ++ "\nsh1:".toList ++ Text.dec p.sh1 ++
    "\nsh2:".toList ++ Text.dec p.sh2 ++ "\nsh3:".toList ++ Text.dec p.sh3 ++ "\nsh4:".toList ++ Text.dec p.sh4 ++ "\n".toList

/-- The variables `reducible`, `irreducible`, `factor`, test_rlittle.cpp:13-15. -/
structure LFlags where
  reducible : Bool
  irreducible : Bool
  factor : Bool

/-- `for (i = 0; i < 10; i++) cout << hex << r.generate() << endl`, test_rlittle.cpp:20-22: the object afterwards and the text. -/
def rlHead : ℕ → RL → RL × List Char
  | 0, r => (r, [])
  | n + 1, r =>
    let q := rlGen r
    let h := rlHead n q.1
    (h.1, Text.hexW 0 q.2.toNat ++ "\n".toList ++ h.2)

noncomputable section

variable (mps : MPS) (fuel : ℕ) (f : ℕ → BitVec 32)

/-- The loop of `main`, test_rlittle.cpp:24-51.  `f`: the numbers delivered by `mt`, of which `k` are used up; the first argument is the
number of turns that are followed; `out` is the text written so far.  Result: whether the loop was left by `break` in these turns, the
numbers used up and the text. -/
def rlittleLoop : ℕ → ℕ → RL → LFlags → List Char → Option (Bool × ℕ × List Char)
  | 0, k, _, _, out => some (false, k, out)
  | n + 1, k, r, fl, out => do
    let q ← minpoly mps rlOps 0 0 r
    let r := q.1
    let poly := q.2
    let out := if deg poly > 521 then out ++ "deg:".toList ++ Text.dec poly.natDegree ++ "\n".toList else out
    if deg poly < 521 then rlittleLoop n (k + 6) (rlSetUp (fun j => f (k + j)) r) fl out
    else if isIrreducible poly then
      let out := out ++ "irreducible\n".toList ++ rlParam r.par
      let fl := { fl with irreducible := true }
      if fl.reducible && fl.irreducible && fl.factor then some (true, k, out)
      else rlittleLoop n (k + 6) (rlSetUp (fun j => f (k + j)) r) fl out
    else
      let out := out ++ "reducible\n".toList ++ rlParam r.par
      let fl := { fl with reducible := true }
      let h ← hasFactorOfDegree fuel poly 521
      let out := if h.1 then out ++ "has a factor of degree 521\n".toList ++ rlParam r.par else out
      let fl := if h.1 then { fl with factor := true } else fl
      if fl.reducible && fl.irreducible && fl.factor then some (true, k, out)
      else rlittleLoop n (k + 6) (rlSetUp (fun j => f (k + j)) r) fl out

/-- `main` of test_rlittle.cpp:11-53 (which returns 0 if it ends); `junk` is what `new` left in the array of the object. -/
def rlittleMain (junk : ℕ → BitVec 32) (turns : ℕ) : Option (Bool × ℕ × List Char) :=
  let h := rlHead 10 (rlDefault junk 1234)
  rlittleLoop mps fuel f turns 0 h.1 ⟨false, false, false⟩ h.2

end

end MTT.Tests
