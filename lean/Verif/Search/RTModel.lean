import Verif.Search.Model

/-!
# Model of `AlgorithmRecursionAndTempering.hpp`

Here the path without `verbose` is modelled; with `verbose`: `Verif/Search/Verbose`.
-/

namespace MTT.Search

open Polynomial

noncomputable section

variable {σ π : Type} {w : ℕ}

/-- What a call of `search` leaves: the generator, the parameter source, and the members `poly`, `weight`,
`delta`. -/
structure RTOut (σ π : Type) where
  rand : σ
  src : π
  poly : (ZMod 2)[X]
  weight : ℕ
  delta : ℤ

/-- Outcome of `search`: it returns `true`, the exception of the parameter source leaves it, or something
undefined is executed.  (It cannot return `false`, AlgorithmRecursionAndTempering.hpp:149-160.) -/
inductive RTRes (σ π : Type)
  | found (o : RTOut σ π)
  | threw
  | undef

/-- `for (int i = 0;; i++) { if (search.start(1000 * mexp)) {...break;} }`,
AlgorithmRecursionAndTempering.hpp:149-157; `none`: out of fuel. -/
def findLoop (mps : MPS) (D : SearchOps σ π w) (prim : ℕ → (ZMod 2)[X] → Option Bool) (tries : ℕ) :
    ℕ → St σ π → Option (Res (St σ π))
  | 0, _ => none
  | fuel + 1, st =>
    match start mps D prim tries st with
    | .ret false st => findLoop mps D prim tries fuel st
    | r => some r

/-- `NTL::weight`: the number of non-zero coefficients. -/
def polyWeight (p : (ZMod 2)[X]) : ℕ := p.support.card

/-- `search(lg, st1, st2, verbose = false, os, no_lsb)`, AlgorithmRecursionAndTempering.hpp:135-205.  `st1`,
`st2` are the tempering searches and `delta` is `AlgorithmEquidistribution(lg, bit_size).get_all_equidist`;
each is `none` if it executes something undefined or throws. -/
def rtSearch (mps : MPS) (D : SearchOps σ π w) (prim : ℕ → (ZMod 2)[X] → Option Bool)
    (st1 st2 : σ → Option σ) (delta : σ → Option ℤ) (noLsb : Bool) (fuel : ℕ) (rand : σ) (src : π) :
    Option (RTRes σ π) :=
  match findLoop mps D prim (1000 * D.gen.bitSize) fuel ⟨rand, src, 0, 0⟩ with
  | none => none
  | some .undef => some .undef
  | some (.threw _) => some .threw
  | some (.ret _ st) =>
    match (if noLsb then some st.rand else st2 st.rand) with
    | none => some .undef
    | some r =>
      match st1 r with
      | none => some .undef
      | some r =>
        match delta r with
        | none => some .undef
        | some d => some (.found ⟨r, st.src, st.poly, polyWeight st.poly, d⟩)

end

end MTT.Search
