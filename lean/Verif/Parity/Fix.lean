import Verif.Lin.Model
import Verif.Samples.DSFMT

/-!
# Model of `calc_fixpoint` (`samples/dSFMTdc/calc_fixpoint.cpp`)
-/

namespace MTT.DSFMT

open Polynomial W128

/-- `NTL::XGCD(d, a, b, f, g)`: the values of `d`, `a`, `b`. -/
def XgcdFn : Type := (ZMod 2)[X] → (ZMod 2)[X] → (ZMod 2)[X] × (ZMod 2)[X] × (ZMod 2)[X]

/-- `calc_fixpoint(dsfmt, irreducible, quotient)`, calc_fixpoint.cpp:16-45; `none` is the exception
`logic_error("failure d != 1")`.  (`a *= irreducible`, line 28, is not used afterwards.  Output is not modelled.) -/
noncomputable def calcFixpoint (xgcd : XgcdFn) (n : Nat) (dsfmt : St) (irreducible quotient : (ZMod 2)[X]) :
    Option W128 :=
  let r := xgcd irreducible quotient
  if Period.deg r.1 ≠ 0 then none
  else
    let b := r.2.2 * quotient
    let dsfmtConst := setConst dsfmt
    let dsfmtConst := Lin.annihilate (ops n) b dsfmtConst
    let t1 : (ZMod 2)[X] := X + 1
    let r := xgcd irreducible t1
    if Period.deg r.1 ≠ 0 then none
    else
      let dsfmtConst := Lin.annihilate (ops n) r.2.2 dsfmtConst
      some (getParityValue dsfmtConst)

end MTT.DSFMT
