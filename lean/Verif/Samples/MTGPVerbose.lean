import Verif.Search.Verbose
import Verif.Samples.MTGPDC
import Verif.Samples.SearchText

/-!
# Model of `samples/MTGPDC/MTGP32dc.cpp` with `-v`

The character `sha1[0]`, which nothing sets (see `lines` in `SearchText`), is taken to be 0; otherwise the first call of
`getParamString` reads behind the array, with `-v` and without.
-/

namespace MTT.MTGP

open Polynomial Text SearchText PIS Search Temper Verbose

/-- `getParamString`, MTGP32search.hpp:202-204 and mtgp_param.h:90-124, which leaves the object as it is. -/
def paramString (g : St) : List Char :=
  ['"', '"', ','] ++ dec g.mexp ++ [','] ++ "uint32_t,".toList ++ dec g.id.toNat ++ [','] ++ dec g.pos ++ [','] ++
    dec g.sh1 ++ [','] ++ dec g.sh2 ++ [','] ++
    ((List.range 4).flatMap fun i => hexW 8 (g.tbl i).toNat ++ [',']) ++
    ((List.range 4).flatMap fun i => hexW 8 (g.tmp i).toNat ++ [',']) ++
    hexW 8 g.mask.toNat ++ [',']

/-- What `AlgorithmRecursionAndTempering::search` uses of `mtgp32` with `verbose`; `AlgorithmEquidistribution` as in `measure`. -/
def vops (J : Junk) (mexp : Nat) : VOps St where
  setRev := setReverse
  resetRev := resetReverse
  str g := (g, paramString g)
  table veq g :=
    match getAllEquidist (ops g.mexp) Util.calc1posWrap32 (clone J.cmask g) 32 g.mexp (32 * ((32 + 1) * g.mexp) + 32 + 1) veq with
    | .ok r => some (r.veq, r.sum)
    | .error _ => none
  width := 32
  mexp := mexp

noncomputable section

/-- `all.search(mtgp, st, stlsb, opt.verbose)`, MTGP32dc.cpp:69; `c` are the texts of the calls of `ctime`. -/
def allSearchV (mps : MPS) (prim : ℕ → (ZMod 2)[X] → Option Bool) (J : Junk) (verbose : Bool)
    (c : List Char × List Char × List Char) (fuel mexp : ℕ) (g : St) (f : ℕ → BitVec 32) :
    Option (RTRes St (ℕ → BitVec 32) × Out) :=
  rtSearchV mps (searchOps mexp) prim (vops J mexp) verbose (fun vb => partialBitPatternV (temperOps J mexp) st32 24 vb)
    (fun vb => partialBitPatternV (temperOps J mexp) stlsb32 10 vb) true false c.1 c.2.1 c.2.2 J.veq fuel g f

/-- `indexed_search(opt, first)`, MTGP32dc.cpp:56-93, with what it writes; `tStart` is the text of its call of `ctime`. -/
def indexedSearchV (mps : MPS) (prim : ℕ → (ZMod 2)[X] → Option Bool) (J : Junk) (verbose : Bool)
    (c : List Char × List Char × List Char) (tStart : List Char) (fuel mexp : ℕ) (id : BitVec 32) (first : Bool)
    (f : ℕ → BitVec 32) : Option (Option (Line × Out)) :=
  match ctor mexp id J.pos J.sh1 J.sh2 J.mask J.state with
  | none => some none
  | some g =>
    let o := say verbose .cout ("search start at ".toList ++ tStart) ++
      say verbose .cout ("mexp:".toList ++ dec mexp ++ ['\n']) ++ say verbose .cout ("id:".toList ++ dec id.toNat ++ ['\n'])
    match allSearchV mps prim J verbose c fuel mexp g f with
    | none => none
    | some (.found r, o') => some (some (lineOf r, o ++ o' ++
        (if first then [(.cout, '#' :: header ++ ['\n'])] else []) ++
        [(.cout, paramString r.rand ++ dec r.weight ++ [','] ++ decInt r.delta ++ ['\n'])]))
    | some _ => some none

/-- The loop of `main`, MTGP32dc.cpp:44-52, with what it writes: `opt.count` lines; `J c` is the junk, and `t c` are the texts of
`ctime`, when `c` more lines follow. -/
def dcMainV (mps : MPS) (prim : ℕ → (ZMod 2)[X] → Option Bool) (J : ℕ → Junk) (verbose : Bool)
    (t : ℕ → (List Char × List Char × List Char) × List Char) (fuel mexp : ℕ) (f : ℕ → BitVec 32) :
    ℕ → BitVec 32 → Bool → Option (Option (List Line × Out))
  | 0, _, _ => some (some ([], []))
  | c + 1, id, first =>
    match indexedSearchV mps prim (J c) verbose (t c).1 (t c).2 fuel mexp id first f with
    | none => none
    | some none => some none
    | some (some q) =>
      (dcMainV mps prim J verbose t fuel mexp f c (id + 1) false).map fun x => x.map fun r => (q.1 :: r.1, q.2 ++ r.2)

end

end MTT.MTGP
