import Verif.Anni.Search
import Verif.Anni.Instances
import Verif.Parity.FixProps
import Verif.SIMD.DSFMT
import Verif.Samples.LineText

/-!
# Model of the program `samples/dSFMTdc/dSFMTdc.cpp`

The random numbers of the `MersenneTwister64` object are an arbitrary sequence.  NTL's `MinPolySeq`, `kernel` and `XGCD` are
parameters.  What the program leaves uninitialised is in `Junk`.  Not modelled: `seed = ...`, `verbose`, the header, the
formatting, option parsing except the list of exponents and the option `--fixed`.
-/

namespace MTT.DSFMT

open Polynomial PIS Search W128 Parity Anni SIMD

/-- `allowed_mexp`, dSFMTdc.cpp:226-229. -/
def allowedMexp : List Nat := [521, 1279, 2203, 4253, 11213, 19937, 44497]

/-- What is not initialised: the array of the state (dSFMTsearch.hpp:149-169), the local array `veq52`; and the word that an
undefined shift yields in the parity search. -/
structure Junk where
  state : Nat → W128
  veq52 : Nat → Int
  shift : W128

/-- What the search uses of `dSFMT`: `setUpParam` takes six numbers from the source, five if `sl1` is fixed
(dSFMTsearch.hpp:378-391). -/
def setUp (s : St) (f : Nat → BitVec 64) : Option (St × (Nat → BitVec 64)) :=
  (setUpParam f s).map fun s' => (s', fun k => f (k + if s.fixed then 5 else 6))

/-- A printed line: `get_string` (dSFMTsearch.hpp:95-110) and the sum, dSFMTdc.cpp:127-128. -/
structure Line extends Fields where
  delta52 : Int

/-- The fields that `getParamString` prints, dSFMTsearch.hpp. -/
def fieldsOf (g : St) : Fields := ⟨g.mexp, g.param, g.fix1, g.fix2, g.parity1, g.parity2⟩

/-- The object that printed parameters make: the constructor with parameters, dSFMTsearch.hpp:199-217. -/
def Fields.gen (l : Fields) : St := ctorPar l.mexp l.param l.fix1 l.fix2 l.parity1 l.parity2

/-- How the function `search` ends: `return 0` after `count` lines; `search failed` and `return 0`; `return -1`; an
exception; something undefined.  In the first two cases with the printed lines. -/
inductive Outcome
  | done (lines : List Line)
  | failed (lines : List Line)
  | minusOne
  | threw
  | undef

noncomputable section

/-- One turn of the loop after a successful `ars.start`, dSFMTdc.cpp:100-129: the printed line and the object.
`getLCMPoly` and `calc_fixpoint` take `g` by constant reference. -/
def measure (mps : MPS) (kernel : KernelFn) (xgcd : XgcdFn) (fuel : ℕ) (J : Junk) (mexp : ℕ) (g : St)
    (irreducible characteristic : (ZMod 2)[X]) : Except Outcome (Line × St) :=
  let n := (mexp - 128) / 104 + 1
  if Period.deg irreducible ≠ mexp then .error .minusOne
  else match getLCMPolyD mps (rops n mexp) characteristic g with
    | none => .error .undef
    | some characteristic =>
      let quotient := characteristic / irreducible
      match calcFixpoint xgcd n g irreducible quotient with
      | none => .error .threw
      | some fixpoint =>
        let g := setFixPoint fixpoint g
        match searchParity (rops n mexp) words128 fuel kernel J.shift g irreducible with
        | .error _ => .error .threw
        | .ok (_, g) =>
          let g := seed (mk32 1 0 0 0) g
          match anniD mps (rops n mexp) g with
          | none => .error .undef
          | some (_, false) => .error .minusOne
          | some (g, true) =>
            let g := Lin.annihilate (ops n) quotient g
            match calcSIMD (simdOps n) (dsfmtAlg dinfo) calc1posWrap (128 * (129 * mexp) + 129) mexp 52 g J.veq52 with
            | .error _ => .error .threw
            | .ok r52 => .ok (⟨fieldsOf g, r52.2⟩, g)

/-- The loop, dSFMTdc.cpp:98-134, with `c` lines to print and the lines already printed (last first). -/
def dcLoop (mps : MPS) (kernel : KernelFn) (xgcd : XgcdFn) (fuel : ℕ) (J : Junk) (mexp : ℕ) :
    ℕ → RSt St (ℕ → BitVec 64) → List Line → Outcome
  | 0, _, out => .done out.reverse
  | c + 1, st, out =>
    match rStart mps (dOps (rops ((mexp - 128) / 104 + 1) mexp) setUp (seed getOne)) mexp (mexp * 100) st with
    | .undef => .undef
    | .threw _ => .threw
    | .ret false _ => .failed out.reverse
    | .ret true st =>
      match measure mps kernel xgcd fuel J mexp st.rand st.irreducible st.poly with
      | .error o => o
      | .ok (l, g) => dcLoop mps kernel xgcd fuel J mexp c { st with rand := g } (l :: out)

/-- The object that the search starts with, dSFMTdc.cpp:82 and 89-92; `fixedSL1` is the argument of `--fixed`. -/
def start (mexp : ℕ) (junk : ℕ → W128) (fixedSL1 : Option ℕ) : St :=
  match fixedSL1 with
  | none => ctor mexp junk
  | some x => { ctor mexp junk with fixed := true, fixedSL1 := x }

/-- `search(opt, count)`, dSFMTdc.cpp:80-140; `f` are the numbers of the Mersenne Twister. -/
def dcSearch (mps : MPS) (kernel : KernelFn) (xgcd : XgcdFn) (fuel : ℕ) (J : Junk) (mexp count : ℕ)
    (fixedSL1 : Option ℕ) (f : ℕ → BitVec 64) : Outcome :=
  dcLoop mps kernel xgcd fuel J mexp count ⟨start mexp J.state fixedSL1, f, 0, 0, 0⟩ []

end

end MTT.DSFMT
