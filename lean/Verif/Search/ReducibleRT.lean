import Verif.Search.RTModel
import Verif.Search.Reducible
import Verif.Parity.Model

/-!
# Model of `AlgorithmReducibleRT.hpp`

Here the path without `verbose` is modelled; with `verbose`: `Verif/Search/Verbose`.
-/

namespace MTT.Search

open Polynomial Parity

noncomputable section

variable {σ π : Type} {w : ℕ}

/-- What a call of `search` leaves: the generator, the parameter source, and the members `poly`, `parity`, `weight`,
`delta`. -/
structure RRTOut (σ π : Type) (w : ℕ) where
  rand : σ
  src : π
  poly : (ZMod 2)[X]
  parity : BitVec w
  weight : ℕ
  delta : ℤ

/-- Outcome of `search`: `true`; an exception of the parameter source; an exception or an error of the parity search; an
exception of the calculation of the defects; something undefined (also: in a tempering search). -/
inductive RRTRes (σ π : Type) (w : ℕ)
  | found (o : RRTOut σ π w)
  | threw
  | parity (e : Parity.Err)
  | delta
  | undef

/-- `for (int i = 0;; i++) { if (search.start(1000 * mexp)) {...break;} }`, AlgorithmReducibleRT.hpp:140-148; `none`: out
of fuel. -/
def rFindLoop (mps : MPS) (D : SearchOps σ π w) (mexp tries : ℕ) : ℕ → RSt σ π → Option (Res (RSt σ π))
  | 0, _ => none
  | fuel + 1, st =>
    match rStart mps D mexp tries st with
    | .ret false st => rFindLoop mps D mexp tries fuel st
    | r => some r

/-- The part of `search` after the parity search, AlgorithmReducibleRT.hpp:163-201: the generator and `delta`.  `calc1pos` and
`eqFuel` belong to `AlgorithmEquidistribution(rg, bit_size<U>())`, whose state size is `bitSize()`. -/
def afterParity (mps : MPS) (G : GenOps σ w) (calc1pos : BitVec w → Int) (st1 st2 : σ → Option σ) (noLsb : Bool)
    (eqFuel : ℕ) (veq0 : ℕ → ℕ) (rg : σ) (poly : (ZMod 2)[X]) : Option (Except PIS.PisError (σ × ℤ)) :=
  match reducedCopy mps G rg poly with
  | none => none
  | some rg =>
    match (if noLsb then some rg else st2 rg) with
    | none => none
    | some rg =>
      match st1 rg with
      | none => none
      | some rg => some ((PIS.getAllEquidist G calc1pos rg w G.bitSize eqFuel veq0).map fun r => (rg, r.sum))

/-- `search(rg, st1, st2, verbose = false, os, no_lsb)`, AlgorithmReducibleRT.hpp:126-202. -/
def rrtSearch (mps : MPS) (kernel : KernelFn) (R : ROps σ w) (W : WordOps w) (setUp : σ → π → Option (σ × π))
    (seedOne : σ → σ) (st1 st2 : σ → Option σ) (noLsb : Bool) (fuel parFuel eqFuel : ℕ) (junk : BitVec w) (veq0 : ℕ → ℕ)
    (rand : σ) (src : π) : Option (RRTRes σ π w) :=
  match rFindLoop mps ⟨R.toGenOps, setUp, seedOne⟩ R.mexp (1000 * R.bitSize) fuel ⟨rand, src, 0, 0, 0⟩ with
  | none => none
  | some .undef => some .undef
  | some (.threw _) => some .threw
  | some (.ret _ st) =>
    match searchParity R W parFuel kernel junk st.rand st.irreducible with
    | .error e => some (.parity e)
    | .ok (parity, rg) =>
      match afterParity mps R.toGenOps W.calc1pos st1 st2 noLsb eqFuel veq0 rg st.irreducible with
      | none => some .undef
      | some (.error _) => some .delta
      | some (.ok (rg, d)) => some (.found ⟨rg, st.src, st.irreducible, parity, polyWeight st.irreducible, d⟩)

end

end MTT.Search
