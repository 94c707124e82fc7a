import Verif.Search.Verbose
import Verif.Samples.MT2
import Verif.Samples.SearchText

/-!
# Model of `samples/MTDC/mt2.cpp` with `-v`

The program gives `cout` to the search as its stream, so both kinds of text go to `cout`.
-/

namespace MTT.MTDC

open Polynomial Text SearchText PIS Search Temper Verbose

/-- `getParamString`, mt2.cpp:166-175, which leaves the object as it is. -/
def paramString (g : St) : List Char :=
  dec g.mexp ++ [','] ++ decInt g.id ++ [','] ++ dec g.pos ++ [','] ++ hexW 8 g.mata.toNat ++ [','] ++
    hexW 8 g.maskb.toNat ++ [','] ++ hexW 8 g.maskc.toNat ++ [',']

/-- What `AlgorithmRecursionAndTempering::search` uses of `MT32Search` with `verbose`; `AlgorithmEquidistribution` as in
`measure`. -/
def vops (mexp : Nat) : VOps St where
  setRev := setReverse
  resetRev := resetReverse
  str g := (g, paramString g)
  table veq g :=
    match getAllEquidist (ops g.mexp) Util.calc1posWrap32 g 32 g.mexp (32 * ((32 + 1) * g.mexp) + 32 + 1) veq with
    | .ok r => some (r.veq, r.sum)
    | .error _ => none
  width := 32
  mexp := mexp

noncomputable section

/-- `rt.search(mt, tmp, tmp, opt.verbose, cout, true)`, mt2.cpp:399; `c` are the texts of the calls of `ctime`.  `tmp` is not an
LSB tempering (AlgorithmBestBits.hpp:349-351). -/
def rtCallV (mps : MPS) (prim : ℕ → (ZMod 2)[X] → Option Bool) (veq : ℕ → ℕ) (verbose : Bool)
    (c : List Char × List Char × List Char) (fuel mexp : ℕ) (s : St) (f : ℕ → BitVec 32) :
    Option (RTRes St (ℕ → BitVec 32) × Out) :=
  rtSearchV mps (searchOps mexp) prim (vops mexp) verbose (bestBitsV (temperOps veq mexp) bb)
    (bestBitsV (temperOps veq mexp) bb) false true c.1 c.2.1 c.2.2 veq fuel s f

/-- The loop of `main`, mt2.cpp:398-411, with what it writes; see `mainLoop`.  `c` gives the texts of the calls of `ctime` for
each turn. -/
def mainLoopV (mps : MPS) (prim : ℕ → (ZMod 2)[X] → Option Bool) (veq : ℕ → ℕ) (verbose : Bool)
    (c : ℕ → List Char × List Char × List Char) (fuel mexp : ℕ) (maxDelta : ℤ) :
    ℕ → ℤ → St → (ℕ → BitVec 32) → Option (Option (List Line × Out))
  | 0, _, _, _ => none
  | turns + 1, count, s, f =>
    if count > 0 then
      match rtCallV mps prim veq verbose (c turns) fuel mexp s f with
      | none => none
      | some (.found r, o) =>
        if r.delta > maxDelta then
          (mainLoopV mps prim veq verbose c fuel mexp maxDelta turns count r.rand r.src).map fun x =>
            x.map fun q => (q.1, o ++ q.2)
        else
          (mainLoopV mps prim veq verbose c fuel mexp maxDelta turns (count - 1) r.rand r.src).map fun x =>
            x.map fun q => (lineOf r.rand r.delta :: q.1,
              o ++ [(.cout, paramString r.rand ++ decInt r.delta ++ ['\n'])] ++ q.2)
      | some _ => some none
    else some (some ([], []))

/-- `main` after the options have been read, mt2.cpp:392-412, with what it writes. -/
def mainV (mps : MPS) (prim : ℕ → (ZMod 2)[X] → Option Bool) (veq : ℕ → ℕ) (verbose : Bool)
    (c : ℕ → List Char × List Char × List Char) (fuel turns mexp : ℕ) (id count maxDelta : ℤ) (junkPos : ℕ)
    (junkA : BitVec 32) (junk f : ℕ → BitVec 32) : Option (Option (List Line × Out)) :=
  match ctor mexp id 1 junkPos junkA junk with
  | none => some none
  | some mt => (mainLoopV mps prim veq verbose c fuel mexp maxDelta turns count mt f).map fun x =>
      x.map fun q => (q.1, (.cout, header ++ ", delta\n".toList) :: q.2)

end

end MTT.MTDC
