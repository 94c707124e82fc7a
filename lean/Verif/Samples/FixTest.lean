import Verif.Samples.DSFMTTools
import Verif.Samples.ParityTest

/-!
# Model of `calc_fixpoint_main.cpp` of `samples/dSFMTdc` with its option `-c`

`check` is the flag of the option.  What is written with `cout` and `printf` is one text, in the order of the calls.  Not
modelled: `getopt`, a missing argument, the texts under `DEBUG`.
-/

namespace MTT.DSFMT

open Polynomial PIS Search W128 Parity Anni SIMD Text

/-- How `chk_fix1` ends: `true` with the value of `fix`, `false`, the exception; with the text written. -/
inductive Chk
  | good (fix : W128)
  | bad (t : List Char)
  | threw (t : List Char)

noncomputable section

/-- `chk_fix2`, calc_fixpoint_main.cpp:114-121. -/
def chkFix2 (n : ℕ) (fix con : St) (idf : (ZMod 2)[X]) : Bool :=
  let tmp := (generate fix).1
  let tmp := Lin.annihilate (ops n) idf tmp
  let tmp := add tmp con
  equals tmp fix

/-- `chk_fix1`, calc_fixpoint_main.cpp:23-112. -/
def chkFix1 (xgcd : XgcdFn) (n : ℕ) (dsfmt : St) (irreducible quotient : (ZMod 2)[X]) : Chk :=
  let r := xgcd irreducible quotient
  if Period.deg r.1 ≠ 0 then .bad "failure d != 1\n".toList
  else
    let b := r.2.2 * quotient
    let idf := b
    let a := r.2.1 * irreducible
    let dsfmtConst := setConst dsfmt
    let dsfmtConst0 := dsfmtConst
    let dsfmtConst := Lin.annihilate (ops n) b dsfmtConst
    let constLSave := dsfmtConst
    let dsfmtConst2 := setConst dsfmt
    let dsfmtConst2 := Lin.annihilate (ops n) a dsfmtConst2
    let dsfmtConst2 := add dsfmtConst2 dsfmtConst
    if !equals dsfmtConst2 dsfmtConst0 then
      .bad ("modoranai\ndsfmt_const2\n".toList ++ dumpText dsfmtConst2 ++ "dsfmt_const0\n".toList ++ dumpText dsfmtConst0 ++
        "sa\n".toList ++ dumpText (add dsfmtConst2 dsfmtConst0))
    else
      let t1 : (ZMod 2)[X] := X + 1
      let r := xgcd irreducible t1
      if Period.deg r.1 ≠ 0 then
        .threw ("failure d != 1\ndeg(d) = ".toList ++ decInt (Period.deg r.1) ++ "\ndeg(irreducible) = ".toList ++
          decInt (Period.deg irreducible) ++ "\ndeg(t1) = ".toList ++ decInt (Period.deg t1) ++ ['\n'])
      else
        let dsfmtConst := Lin.annihilate (ops n) r.2.2 dsfmtConst
        let fix := getParityValue dsfmtConst
        if !chkFix2 n dsfmtConst constLSave idf then .bad "chk_fix2 error\n".toList
        else .good fix

/-- `main` and `get_fixpoint`, calc_fixpoint_main.cpp:160-237: the text (`main` returns 0); `none`: undefined behaviour or the
exception of `calc_fixpoint` or `chk_fix1`. -/
def calcFixMain (mps : MPS) (xgcd : XgcdFn) (f1 f2 p1 p2 : BitVec 64) (w : W128) (check : Bool) (arg : List Char) :
    Option (List Char) :=
  match parseMsk f1 f2 p1 p2 arg with
  | none => none
  | some l =>
    let n := (l.mexp - 128) / 104 + 1
    let t := if check then "mexp = ".toList ++ dec l.mexp ++ ", maxdegree = ".toList ++ dec (n * 104 + 128) ++ ['\n'] else []
    match Search.minpoly mps (ops n) 0 0 (seed w l.gen) with
    | none => none
    | some (sf, poly) =>
      match Period.hasFactorOfDegree (poly.natDegree + 1) poly sf.mexp with
      | none => none
      | some (false, irreducible) =>
        some (t ++ "error does not have factor of degree ".toList ++ dec sf.mexp ++ "\ndegree = ".toList ++
          decInt (Period.deg irreducible) ++ ['\n'])
      | some (true, irreducible) =>
        match getLCMPolyD mps (rops n l.mexp) poly sf with
        | none => none
        | some lcmpoly =>
          let t := t ++ (if check then "deg lcm poly = ".toList ++ decInt (Period.deg lcmpoly) ++ ['\n'] else [])
          let smallpoly := lcmpoly / irreducible
          let rempoly := lcmpoly % irreducible
          if 0 ≤ Period.deg rempoly then some (t ++ "deg(rempoly) = ".toList ++ decInt (Period.deg rempoly) ++ ['\n'])
          else
            let t := t ++ (if check then "deg small poly = ".toList ++ decInt (Period.deg smallpoly) ++ ['\n'] else [])
            if check then
              match chkFix1 xgcd n sf irreducible smallpoly with
              | .threw _ => none
              | .bad u => some (t ++ u ++ "chk_fix1 error\n".toList)
              | .good fix =>
                some (t ++ getString (fieldsOf (setFixPoint fix sf)) ++ ['\n'] ++ "fix1 = ".toList ++
                  hexW 16 (u64 fix 0).toNat ++ "\nfix2 = ".toList ++ hexW 16 (u64 fix 1).toNat ++ ['\n'])
            else
              match calcFixpoint xgcd n sf irreducible smallpoly with
              | none => none
              | some fix => some (t ++ getString (fieldsOf (setFixPoint fix sf)) ++ ['\n'])

end

end MTT.DSFMT
