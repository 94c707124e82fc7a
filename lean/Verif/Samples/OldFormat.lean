import Verif.Samples.DSFMTTools

/-!
# Model of the program `samples/dSFMTdc/make_old_format.cpp` with `printBinary.cpp`

`w` is the seed word; the program sets only its lower half, the upper half is uninitialised.  Not modelled: the options
(`getopt` reads them before the text is parsed and may reorder `argv`; an error in them is ignored), a missing argument.
-/

namespace MTT.DSFMT

open Polynomial Search W128 Parity Anni Text

noncomputable section

/-- The loop of `printBinary`, printBinary.cpp:13-22: `n` turns left, next `i`. -/
def binLoop (poly : (ZMod 2)[X]) : ℕ → ℕ → List Char
  | 0, _ => []
  | n + 1, i =>
    (if poly.coeff i = 1 then '1' else '0') :: ((if i % 32 = 31 then ['\n'] else []) ++ binLoop poly n (i + 1))

open Classical in
/-- `printBinary`, printBinary.cpp:6-25. -/
def printBinary (poly : (ZMod 2)[X]) : List Char :=
  if Period.deg poly < 0 then "0deg=-1\n".toList
  else binLoop poly (Period.deg poly + 1).toNat 0 ++ "deg=".toList ++ decInt (Period.deg poly) ++ ['\n']

end

/-- The lines that `main` prints before `get_fixpoint`, make_old_format.cpp:67-84; `maxdegree` is `bitSize()`. -/
def oldHeader (l : Fields) (maxdegree : ℕ) : List Char :=
  "succ = 1\n".toList ++ "mexp = ".toList ++ dec l.mexp ++ ", maxdegree = ".toList ++ dec maxdegree ++ ['\n'] ++
  "pos1 = ".toList ++ dec l.param.pos1 ++ ['\n'] ++ "sl1 = ".toList ++ dec l.param.sl1 ++ ['\n'] ++
  "msk1 = ".toList ++ hexW 16 l.param.msk1.toNat ++ ['\n'] ++ "msk2 = ".toList ++ hexW 16 l.param.msk2.toNat ++ ['\n'] ++
  "fix1 = ".toList ++ hexW 16 l.fix1.toNat ++ ['\n'] ++ "fix2 = ".toList ++ hexW 16 l.fix2.toNat ++ ['\n'] ++
  "pcv1 = ".toList ++ hexW 16 l.parity1.toNat ++ ['\n'] ++ "pcv2 = ".toList ++ hexW 16 l.parity2.toNat ++ ['\n']

noncomputable section

/-- `get_fixpoint`, make_old_format.cpp:89-106: the text, and whether it ends with the exception.  `none` is something
undefined. -/
def oldFixpoint (mps : MPS) (n : ℕ) (dsfmt : St) : Option (List Char × Bool) :=
  match minpoly mps (ops n) 0 0 dsfmt with
  | none => none
  | some (dsfmt, poly) =>
    match Period.hasFactorOfDegree (poly.natDegree + 1) poly dsfmt.mexp with
    | none => none
    | some (false, irreducible) =>
      some ("error does not have factor of degree ".toList ++ dec dsfmt.mexp ++ ['\n'] ++ "degree = ".toList ++
        decInt (Period.deg irreducible) ++ ['\n'], true)
    | some (true, irreducible) =>
      match getLCMPolyD mps (rops n dsfmt.mexp) poly dsfmt with
      | none => none
      | some lcmpoly => some (printBinary irreducible ++ printBinary lcmpoly, false)

/-- `main`, make_old_format.cpp:61-87: the text on the standard output, and whether the program ends with the exception. -/
def oldFormat (mps : MPS) (w : W128) (arg : List Char) : Option (List Char × Bool) :=
  match parse arg with
  | none => none
  | some l =>
    let n := (l.mexp - 128) / 104 + 1
    match oldFixpoint mps n (seed w l.gen) with
    | none => none
    | some r => some (oldHeader l (n * 104 + 128) ++ r.1, r.2)

end

end MTT.DSFMT
