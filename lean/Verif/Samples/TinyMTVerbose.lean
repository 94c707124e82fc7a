import Verif.Search.Verbose
import Verif.Samples.TinyMTDC
import Verif.Samples.SearchText

/-!
# Model of `samples/TinyMTDC/tinymt32dc.cpp` with `-v`
-/

namespace MTT.TinyMT

open Polynomial Text SearchText PIS Search Temper Verbose

/-- What `AlgorithmRecursionAndTempering::search` uses of `tinymt32` with `verbose`: `getParamString`, tinymt32search.hpp:415-417 and
85-92, leaves the object as it is; `AlgorithmEquidistribution` works on clones (see `measure`). -/
def vops : VOps St where
  setRev := setReverse
  resetRev := resetReverse
  str g := (g, dec g.id.toNat ++ [','] ++ hexW 8 g.mat1.toNat ++ [','] ++ hexW 8 g.mat2.toNat ++ [','] ++ hexW 8 g.tmat.toNat ++ [','])
  table veq g :=
    match getAllEquidist ops Util.calc1posWrap32 (clone g) 32 127 (32 * ((32 + 1) * 127) + 32 + 1) veq with
    | .ok r => some (r.veq, r.sum)
    | .error _ => none
  width := 32
  mexp := 127

noncomputable section

/-- `all.search(g, st, stlsb, opt.verbose)`, tinymt32dc.cpp:81; `c` are the texts of the three calls of `ctime`. -/
def allSearchV (mps : MPS) (prim : ℕ → (ZMod 2)[X] → Option Bool) (veq : ℕ → ℕ) (verbose : Bool)
    (c : List Char × List Char × List Char) (fuel : ℕ) (g : St) (sq : Seq.St 32) : Option (RTRes St (Seq.St 32) × Out) :=
  rtSearchV mps searchOps prim vops verbose (fun vb => partialBitPatternV (temperOps veq) st32 24 vb)
    (fun vb => partialBitPatternV (temperOps veq) stlsb32 10 vb) true false c.1 c.2.1 c.2.2 veq fuel g sq

/-- The loop of `search`, tinymt32dc.cpp:80-113, with all that is written; the exception of the parameter source ends the program. -/
def dcLoopV (mps : MPS) (prim : ℕ → (ZMod 2)[X] → Option Bool) (veq : ℕ → ℕ) (verbose : Bool)
    (c : ℕ → List Char × List Char × List Char) (tEnd : List Char) (count : ℕ) (all : Bool) (maxDelta : ℤ) :
    ℕ → St → Seq.St 32 → ℕ → Option (List Line × Out)
  | 0, _, _, _ => none
  | fuel + 1, g, sq, i =>
    if i < count ∨ all = true then
      match allSearchV mps prim veq verbose (c fuel) (fuel + 1) g sq with
      | none => none
      | some (.undef, _) => none
      | some (.threw, o) => some ([], o)
      | some (.found r, o) =>
        if r.delta > maxDelta then
          (dcLoopV mps prim veq verbose c tEnd count all maxDelta fuel r.rand r.src i).map fun q => (q.1, o ++ q.2)
        else
          let head : Out := if i = 0 then [(.cout, "# characteristic, ".toList ++ header ++ ", weight, delta\n".toList)] else []
          (dcLoopV mps prim veq verbose c tEnd count all maxDelta fuel r.rand r.src (i + 1)).map fun q =>
            (lineOf r :: q.1, o ++ head ++ [(.cout, (lineOf r).text ++ ['\n'])] ++ q.2)
    else some ([], say verbose .cout ("search end at ".toList ++ tEnd ++ ['\n']))

/-- `search(opt, count)`, tinymt32dc.cpp:68-119. -/
def dcMainV (mps : MPS) (prim : ℕ → (ZMod 2)[X] → Option Bool) (veq : ℕ → ℕ) (verbose : Bool)
    (c : ℕ → List Char × List Char × List Char) (tStart tEnd : List Char) (count : ℕ) (all : Bool) (maxDelta : ℤ)
    (start uid : BitVec 32) (fuel : ℕ) : Option (List Line × Out) :=
  (dcLoopV mps prim veq verbose c tEnd count all maxDelta fuel (ctor uid) (Seq.make2 0 start) 0).map fun q =>
    (q.1, say verbose .cout ("search start at ".toList ++ tStart) ++ say verbose .cout ("id:".toList ++ dec uid.toNat ++ ['\n']) ++ q.2)

end

end MTT.TinyMT
