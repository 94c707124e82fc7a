import Verif.Samples.DSFMTDC

/-!
# Model of the programs `calc_equidist.cpp`, `calc_fixpoint_main.cpp` and `calc_parity_main.cpp` of `samples/dSFMTdc`

`w` is the seed word; the programs set only its lower half, the upper half is uninitialised.  `f1`, `f2`, `p1`, `p2` are the
fields of the parameters that a program does not read and leaves uninitialised.  `calc_equidist` with its options and the
tables of `-v` is in `Verif/Samples/EquidistMain`, `calc_parity` with its options `-c` and `-v` is in `Verif/Samples/ParityTest`, `calc_fixpoint` with `-c`
in `Verif/Samples/FixTest`.
-/

namespace MTT.DSFMT

open Polynomial PIS Search W128 Parity Anni SIMD Text

/-- A line as printed, dSFMTdc.cpp:127-128 and calc_equidist.cpp:62-63, without the end of line. -/
def Line.text (l : Line) : List Char := getString l.toFields ++ decInt l.delta52

noncomputable section

/-- `main`, dSFMTdc/calc_equidist.cpp:27-74. -/
def calcEquidist (mps : MPS) (veq52 : Nat → Int) (w : W128) (arg : List Char) : Prints Line :=
  match parse arg with
  | none => .undef
  | some l =>
    let n := (l.mexp - 128) / 104 + 1
    match anniD mps (rops n l.mexp) (seed w l.gen) with
    | none => .undef
    | some (_, false) => .fails
    | some (sf, true) =>
      match calcSIMD (simdOps n) (dsfmtAlg dinfo) calc1posWrap (128 * (129 * l.mexp) + 129) l.mexp 52 sf veq52 with
      | .error _ => .threw
      | .ok r52 => .printed ⟨fieldsOf sf, r52.2⟩

/-- `main` and `get_fixpoint`, calc_fixpoint_main.cpp:160-237, without `-c`. -/
def calcFix (mps : MPS) (xgcd : XgcdFn) (f1 f2 p1 p2 : BitVec 64) (w : W128) (arg : List Char) : Prints Fields :=
  match parseMsk f1 f2 p1 p2 arg with
  | none => .undef
  | some l =>
    let n := (l.mexp - 128) / 104 + 1
    match minpoly mps (ops n) 0 0 (seed w l.gen) with
    | none => .undef
    | some (sf, poly) =>
      match Period.hasFactorOfDegree (poly.natDegree + 1) poly sf.mexp with
      | none => .undef
      | some (false, _) => .fails
      | some (true, irreducible) =>
        match getLCMPolyD mps (rops n l.mexp) poly sf with
        | none => .undef
        | some lcmpoly =>
          if 0 ≤ Period.deg (lcmpoly % irreducible) then .fails
          else match calcFixpoint xgcd n sf irreducible (lcmpoly / irreducible) with
            | none => .threw
            | some fix => .printed (fieldsOf (setFixPoint fix sf))

/-- `main`, calc_parity_main.cpp:179-216, with `calc_parity`, calc_parity.cpp:18-23, without `-c`. -/
def calcParity (mps : MPS) (kernel : KernelFn) (fuel : ℕ) (sh : W128) (p1 p2 : BitVec 64) (w : W128) (arg : List Char) :
    Prints Fields :=
  match parseFix p1 p2 arg with
  | none => .undef
  | some l =>
    let n := (l.mexp - 128) / 104 + 1
    match minpoly mps (ops n) 0 0 (seed w l.gen) with
    | none => .undef
    | some (sf, poly) =>
      match Period.hasFactorOfDegree (poly.natDegree + 1) poly sf.mexp with
      | none => .undef
      | some (false, _) => .fails
      | some (true, irreducible) =>
        match searchParity (rops n l.mexp) words128 fuel kernel sh sf irreducible with
        | .error _ => .threw
        | .ok (_, sf) => .printed (fieldsOf sf)

end

end MTT.DSFMT
