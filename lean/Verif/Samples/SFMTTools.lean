import Verif.Samples.SFMTDC

/-!
# Model of the programs `samples/sfmtdc/calc_equidist.cpp` and `samples/sfmtdc/calc_parity.cpp`

`w` is the seed word; the programs set only its lower half, the upper half is uninitialised.  `calc_equidist` with its
options and the tables of `-v` is in `Verif/Samples/EquidistMain`, `calc_parity` with its options `-c` and `-v` in
`Verif/Samples/ParityTest`.
-/

namespace MTT.SFMT

open Polynomial PIS Search W128 Parity Anni SIMD Text

/-- A line as printed, sfmtdc.cpp:134-136 and calc_equidist.cpp:70-72, without the end of line. -/
def Line.text (l : Line) : List Char :=
  getString l.toFields ++ decInt l.delta32 ++ [','] ++ decInt l.delta64 ++ [','] ++ decInt l.delta128

noncomputable section

/-- `main`, calc_equidist.cpp:27-72. -/
def calcEquidist (mps : MPS) (J : Junk) (w : W128) (reverse : Bool) (arg : List Char) : Prints Line :=
  match parse arg with
  | none => .undef
  | some l =>
    match anniS mps (rops (l.mexp / 128 + 1) l.mexp) (seed w l.gen) with
    | none => .undef
    | some (_, false) => .fails
    | some (sf, true) =>
      let sf128 := if reverse then { sf with rev := true } else sf
      let sf := { sf128 with rev := false }
      match deltas J l.mexp reverse sf128 sf with
      | none => .threw
      | some (d32, d64, d128) => .printed ⟨fieldsOf sf, d32, d64, d128⟩

/-- `main`, calc_parity.cpp:205-239, with `calc_parity`, calc_parity.cpp:18-23. -/
def calcParity (mps : MPS) (kernel : KernelFn) (fuel : ℕ) (sh w : W128) (arg : List Char) : Prints Fields :=
  match parse arg with
  | none => .undef
  | some l =>
    let n := l.mexp / 128 + 1
    match minpoly mps (ops n) 0 0 (seed w l.gen) with
    | none => .undef
    | some (sf, poly) =>
      match Period.hasFactorOfDegree (poly.natDegree + 1) poly sf.mexp with
      | none => .undef
      | some (false, _) => .fails
      | some (true, irreducible) =>
        match searchParity (rops n l.mexp) words128 fuel kernel sh sf irreducible with
        | .error _ => .threw
        | .ok (_, sf) => .printed (fieldsOf sf)

end

end MTT.SFMT
