import Verif.Search.Model
import Verif.Lin.Model

/-!
# Model of `AlgorithmReducibleEquidistribution.hpp`
-/

namespace MTT.Search

open Polynomial

noncomputable section

variable {σ : Type} {w : ℕ}

/-- The copy of the generator that the constructor of `AlgorithmReducibleEquidistribution` hands to
`AlgorithmEquidistribution`, AlgorithmReducibleEquidistribution.hpp:77-81.  `none`: something undefined.  (NTL stops
the program if `irreducibleFactor` is 0; that case is not modelled.) -/
def reducedCopy (mps : MPS) (G : GenOps σ w) (rg : σ) (irreducibleFactor : (ZMod 2)[X]) : Option σ :=
  match calcCharPoly mps G rg 1 with
  | none => none
  | some (rand, poly) =>
    let quotient := poly / irreducibleFactor
    some (Lin.annihilate G quotient rand)

/-- `AlgorithmReducibleEquidistribution(rg, irreducibleFactor, bit_length, mexp).get_all_equidist(veq)`,
AlgorithmReducibleEquidistribution.hpp:73-83, 98-100. -/
def reducibleAll (mps : MPS) (G : GenOps σ w) (calc1pos : BitVec w → Int) (rg : σ) (f : (ZMod 2)[X])
    (bitLen mexp fuel : ℕ) (veq0 : ℕ → ℕ) : Option (Except PIS.PisError PIS.EquidistResult) :=
  (reducedCopy mps G rg f).map fun rand => PIS.getAllEquidist G calc1pos rand bitLen mexp fuel veq0

/-- `AlgorithmReducibleEquidistribution(rg, irreducibleFactor, bit_length, mexp).get_equidist(&sum)`,
AlgorithmReducibleEquidistribution.hpp:73-83, 105-107. -/
def reducibleOne (mps : MPS) (G : GenOps σ w) (calc1pos : BitVec w → Int) (rg : σ) (f : (ZMod 2)[X])
    (bitLen mexp fuel : ℕ) : Option (Except PIS.PisError (ℕ × ℤ)) :=
  (reducedCopy mps G rg f).map fun rand => PIS.getEquidist G calc1pos rand bitLen mexp fuel

end

end MTT.Search
