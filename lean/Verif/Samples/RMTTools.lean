import Verif.Samples.LineText
import Verif.Search.Reducible

/-!
# Model of the programs `calc_equidist.cpp` and `calc_period.cpp` of `samples/RMT`

`junk` and `veq0` are the contents of memory that is not initialised.  The fuel of the equidistribution calculation is the
bound of C22.
-/

namespace MTT.RMT

open Polynomial PIS Search Text

/-- The fields that `getParamString` prints, rmt64.hpp:198-211. -/
def fieldsOf (s : St) : Fields :=
  let s := getParamString s
  ⟨s.mexp, s.pos, s.mata, s.parity, s.maskb, s.maskc⟩

/-- The object of both programs before the first calculation, RMT/calc_equidist.cpp:30-33 and RMT/calc_period.cpp:30-33. -/
def Fields.gen (l : Fields) (junk : Nat → BitVec 64) : St :=
  seed 1234 (setParityValue l.parity (ctorPar l.mexp l.pos l.mata l.maskb l.maskc 1234 junk))

noncomputable section

open Classical in
/-- `main`, RMT/calc_equidist.cpp:11-71: the line of parameters and the numbers `delta`, `veq`. -/
def calcEquidist (mps : MPS) (junk : Nat → BitVec 64) (veq0 : Nat → Nat) (arg : List Char) :
    Prints (Fields × EquidistResult) :=
  match parse arg with
  | none => .undef
  | some l =>
    let G := ops (l.mexp / 64 + 1)
    match minpoly mps G 0 0 (l.gen junk) with
    | none => .undef
    | some (rmt, poly) =>
      match Period.hasFactorOfDegree (poly.natDegree + 1) poly l.mexp with
      | none => .undef
      | some (false, _) => .fails
      | some (true, irreducible) =>
        match calcCharPoly mps G rmt poly with
        | none => .undef
        | some (rmt, poly) =>
          let quotient := poly / irreducible
          let rmt := if quotient ≠ 0 then Lin.annihilate G quotient rmt else rmt
          match minpoly mps G 0 0 rmt with
          | none => .undef
          | some (rmt, _) =>
            match getAllEquidist G Util.calc1posWrap64 rmt 64 l.mexp (64 * (65 * l.mexp) + 65) veq0 with
            | .error _ => .threw
            | .ok r => .printed (fieldsOf rmt, r)

/-- `main`, RMT/calc_period.cpp:11-47: the parameters printed first and the exponent of the last line,
`period >= 2^deg-1`.  (The parameters are also printed when the program fails.) -/
def calcPeriod (mps : MPS) (junk : Nat → BitVec 64) (arg : List Char) : Prints (Fields × Int) :=
  match parse arg with
  | none => .undef
  | some l =>
    let rmt := setParityValue l.parity (ctorPar l.mexp l.pos l.mata l.maskb l.maskc 1234 junk)
    match minpoly mps (ops (l.mexp / 64 + 1)) 0 0 (seed 1234 (getParamString rmt)) with
    | none => .undef
    | some (_, poly) =>
      match Period.hasFactorOfDegree (poly.natDegree + 1) poly l.mexp with
      | none => .undef
      | some (false, _) => .fails
      | some (true, irreducible) => .printed (fieldsOf rmt, Period.deg irreducible)

end

end MTT.RMT
