import Verif.Samples.SFMTDC
import Verif.Samples.DSFMTDC

/-!
# Model of the programs `samples/sfmtdc/test_period.cpp` and `samples/dSFMTdc/calc_period.cpp`

The programs read parameters and print the least and the largest degree of the minimal polynomials of single output bits,
before `anni` and, for every start mode and every weight mode, after it.  `w` is the seed word; the programs set only its
lowest quarter, the rest is uninitialised.  `none` is something undefined.
-/

namespace MTT.Anni

open Polynomial Search Parity

noncomputable section

variable {σ : Type} {w : ℕ}

/-- The loop of `min_max_poly`, sfmtdc/test_period.cpp:87-97 and dSFMTdc/calc_period.cpp:75-94: the bits left to examine,
`min`, `max` and `max_weight`.  The object is passed by reference and stays advanced.  (dSFMTdc has no `max_weight`.) -/
def minMaxLoop (mps : MPS) (G : GenOps σ w) : List ℕ → σ → ℤ → ℤ → ℕ → Option (σ × ℤ × ℤ × ℕ)
  | [], sf, min, max, maxWeight => some (sf, min, max, maxWeight)
  | i :: is, sf, min, max, maxWeight =>
    match minpoly mps G i 0 sf with
    | none => none
    | some (sf, poly) =>
      let d := Period.deg poly
      minMaxLoop mps G is sf (if d < min then d else min) (if d > max then d else max)
        (if d > max then poly.support.card else maxWeight)

/-- `min_max_poly` with `INT_MAX` and -10, sfmtdc/test_period.cpp:82-86, dSFMTdc/calc_period.cpp:70-74.  (`max_weight`
is 0 before the first call; later values are not printed.) -/
def minMaxPoly (mps : MPS) (G : GenOps σ w) (is : List ℕ) (sf : σ) : Option (σ × ℤ × ℤ × ℕ) :=
  minMaxLoop mps G is sf (2 ^ 31 - 1) (-10) 0

/-- A line `start_mode = .. weight_mode = .. min = .. max = ..`. -/
structure ModeLine where
  start : ℤ
  weight : ℤ
  min : ℤ
  max : ℤ

/-- The loops over the modes, sfmtdc/test_period.cpp:62-78 and dSFMTdc/calc_period.cpp:50-66: the printed lines, and whether
`annihilate fail` follows.  `setMode` is `setStartMode` and `setWeightMode`, `anni` the function `anni`, `is` the bits
examined by `min_max_poly`. -/
def modeLoop (mps : MPS) (G : GenOps σ w) (is : List ℕ) (anni : σ → Option (σ × Bool)) (setMode : ℤ → ℤ → σ → σ) (sf : σ) :
    List (ℤ × ℤ) → Option (List ModeLine × Bool)
  | [] => some ([], false)
  | m :: ms =>
    match anni (setMode m.1 m.2 sf) with
    | none => none
    | some (_, false) => some ([], true)
    | some (sf2, true) =>
      match minMaxPoly mps G is sf2 with
      | none => none
      | some (_, min, max, _) =>
        (modeLoop mps G is anni setMode sf ms).map fun r => (⟨m.1, m.2, min, max⟩ :: r.1, r.2)

end

/-- What a program prints: the line of `getParamString` (`φ` its fields), `berore anni  min = .. max = ..`, for sfmtdc
`max weight = ..`, the lines of the modes, and whether `annihilate fail` ends the program with -1. -/
structure PeriodReport (φ : Type) where
  fields : φ
  min : ℤ
  max : ℤ
  maxWeight : ℕ
  lines : List ModeLine
  fails : Bool

end MTT.Anni

namespace MTT.SFMT

open Polynomial Search W128 Parity Anni

noncomputable section

/-- The modes in the order of sfmtdc/test_period.cpp:62-63. -/
def periodModes : List (ℤ × ℤ) :=
  [(0, 4), (0, 3), (0, 2), (0, 1), (1, 4), (1, 3), (1, 2), (1, 1), (2, 4), (2, 3), (2, 2), (2, 1),
    (3, 4), (3, 3), (3, 2), (3, 1)]

/-- `main`, sfmtdc/test_period.cpp:12-80. -/
def testPeriod (mps : MPS) (w : W128) (arg : List Char) : Option (PeriodReport Fields) :=
  match parse arg with
  | none => none
  | some params =>
    let n := params.mexp / 128 + 1
    let sf := params.gen
    let fields := fieldsOf sf
    match minMaxPoly mps (ops n) (List.range 128) (seed w sf) with
    | none => none
    | some (sf, min, max, maxWeight) =>
      (modeLoop mps (ops n) (List.range 128) (anniS mps (rops n params.mexp))
        (fun i j sf => setWeightMode j (setStartMode i sf)) sf periodModes).map fun r => ⟨fields, min, max, maxWeight, r.1, r.2⟩

end

end MTT.SFMT

namespace MTT.DSFMT

open Polynomial Search W128 Parity Anni

noncomputable section

/-- The bits examined, dSFMTdc/calc_period.cpp:75 and 85: 0 to 51 and 64 to 103. -/
def periodBits : List ℕ := List.range 52 ++ List.range' 64 40

/-- The modes in the order of dSFMTdc/calc_period.cpp:50-51. -/
def periodModes : List (ℤ × ℤ) := [(0, 2), (0, 1), (1, 2), (1, 1)]

/-- `main`, dSFMTdc/calc_period.cpp:12-68. -/
def calcPeriod (mps : MPS) (w : W128) (arg : List Char) : Option (PeriodReport Fields) :=
  match parse arg with
  | none => none
  | some params =>
    let n := (params.mexp - 128) / 104 + 1
    let sf := params.gen
    let fields := fieldsOf sf
    match minMaxPoly mps (ops n) periodBits (seed w sf) with
    | none => none
    | some (sf, min, max, maxWeight) =>
      (modeLoop mps (ops n) periodBits (anniD mps (rops n params.mexp))
        (fun i j sf => setWeightMode j (setStartMode i sf)) sf periodModes).map fun r => ⟨fields, min, max, maxWeight, r.1, r.2⟩

end

end MTT.DSFMT
