import Verif.Search.Verbose
import Verif.Samples.RMTDC
import Verif.Samples.SearchText

/-!
# Model of `samples/RMT/rmt64dc.cpp` with `-v`

The search writes to its default stream `cout` (AlgorithmReducibleRT.hpp:130), so both kinds of text go to `cout`.
`getParamString` clears the lower bits of the masks of the object, also where the search calls it for a message.
-/

namespace MTT.RMT

open Polynomial Text SearchText PIS Search Temper Parity Verbose

/-- `getParamString`, rmt64.hpp:198-211: the object afterwards and the text. -/
def paramString (s : St) : St × List Char :=
  let s := getParamString s
  (s, dec s.mexp ++ [','] ++ dec s.pos ++ [','] ++ hexW 16 s.mata.toNat ++ [','] ++ hexW 16 s.parity.toNat ++ [','] ++
    hexW 16 s.maskb.toNat ++ [','] ++ hexW 16 s.maskc.toNat)

/-- What `AlgorithmReducibleRecursionAndTempering::search` uses of `RMT64Search` with `verbose`; `AlgorithmEquidistribution` as
in `measure`; `mexp` of the search is `rg.bitSize()` (AlgorithmReducibleRT.hpp:138). -/
def vops (n : Nat) : VOps St where
  setRev := setReverse
  resetRev := resetReverse
  str := paramString
  table veq g :=
    match getAllEquidist (ops n) Util.calc1posWrap64 g 64 (n * 64) (64 * (65 * (n * 64)) + 65) veq with
    | .ok r => some (r.veq, r.sum)
    | .error _ => none
  width := 64
  mexp := n * 64

noncomputable section

/-- `all.search(g, st, st, opt.verbose)`, rmt64dc.cpp:96, AlgorithmReducibleRT.hpp:126-202; `c` are the texts of the calls of
`ctime`.  The text is what has been written when the search ends or does something undefined (without what the parts after the
last message that is reached write before that). -/
def allSearchV (mps : MPS) (kernel : KernelFn) (one : ℕ → Option (BitVec 64)) (junk : BitVec 64) (veq : ℕ → ℕ) (verbose : Bool)
    (c : List Char × List Char × List Char) (fuel mexp : ℕ) (g : St) (src : ℕ → BitVec 64) : Option (SRes × Out) :=
  let n := mexp / 64 + 1
  match findLoopV verbose (rStart mps (searchOps mexp) mexp (1000 * (n * 64))) fuel 0 ⟨g, src, 0, 0, 0⟩ with
  | none => none
  | some (.undef, o) => some (.other, o)
  | some (.threw _, o) => some (.other, o)
  | some (.ret _ st, o) =>
    let r := (vops n).str st.rand
    let g := if verbose then r.1 else st.rand
    let o := o ++ if verbose then foundText c.1 st.count r.2 else []
    match searchParity one mexp kernel junk g st.irreducible with
    | .error .shift => some (.shift, o)
    | .error (.other _) => some (.other, o)
    | .ok (_, rg) =>
      match reducedCopy mps (ops n) rg st.irreducible with
      | none => some (.other, o)
      | some rg =>
        match temperV (vops n) verbose (partialBitPatternV (temperOps veq n) st64 64)
          (partialBitPatternV (temperOps veq n) st64 64) false false c.2.1 c.2.2 veq rg with
        | .undef => some (.other, o)
        | .table => some (.other, o)
        | .ok rg d o' => some (.found rg st.src d, o ++ o')

/-- The loop, rmt64dc.cpp:95-108, with what it writes: `k` turns left; `c k` are the texts of the calls of `ctime`.  See
`searchLines`. -/
def searchLinesV (mps : MPS) (kernel : KernelFn) (one : ℕ → Option (BitVec 64)) (junk : ℕ → BitVec 64) (veq : ℕ → ℕ)
    (verbose : Bool) (c : ℕ → List Char × List Char × List Char) (fuel mexp : ℕ) :
    ℕ → St → (ℕ → BitVec 64) → Option (Ends × Out)
  | 0, _, _ => some (.normal [], [])
  | k + 1, g, src =>
    match allSearchV mps kernel one (junk k) veq verbose (c k) fuel mexp g src with
    | none => none
    | some (.shift, o) => some (.shift [], o)
    | some (.other, o) => some (.other [], o)
    | some (.found g src d, o) =>
      let r := paramString g
      (searchLinesV mps kernel one junk veq verbose c fuel mexp k r.1 src).map fun q =>
        (q.1.cons ⟨fieldsOf g, d⟩, o ++ (.cout, r.2 ++ [','] ++ decInt d ++ ['\n']) :: q.2)

/-- `search(opt, count)`, rmt64dc.cpp:78-115, with what it writes; `tStart` and `tEnd` are the texts of its calls of `ctime`. -/
def rmtMainV (mps : MPS) (kernel : KernelFn) (one : ℕ → Option (BitVec 64)) (junk : ℕ → BitVec 64) (veq : ℕ → ℕ) (verbose : Bool)
    (tStart tEnd : List Char) (c : ℕ → List Char × List Char × List Char) (fuel mexp : ℕ) (count : ℤ) (junkPos : ℕ)
    (junkA : BitVec 64) (junkS : ℕ → BitVec 64) (src : ℕ → BitVec 64) : Option (Ends × Out) :=
  (searchLinesV mps kernel one junk veq verbose c fuel mexp count.toNat (ctor mexp 1 junkPos junkA junkS) src).map fun q =>
    (q.1, say verbose .cout ("search start at ".toList ++ tStart) ++ [(.cout, "# ".toList ++ header ++ ", delta\n".toList)] ++ q.2 ++
      match q.1 with
      | .normal _ => say verbose .cout ("search end at ".toList ++ tEnd ++ ['\n'])
      | _ => [])

end

end MTT.RMT
