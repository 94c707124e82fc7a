import Verif.Search.ReducibleRT
import Verif.Temper.Model
import Verif.Samples.LineText

/-!
# The argument `verbose` of the tempering searches and of the combined searches

The functions of `Verif/Temper/Model`, `Verif/Search/RTModel` and `Verif/Search/ReducibleRT` with the argument `verbose` and
with what they write.  The tempering searches write to `cout`, the combined searches to the stream `os` of the caller.
`endl` is the character '\n'.  The streams are taken to be in their initial state (base 10, fill character blank) when a search
starts; every number that is printed after `hex` has `dec` in front of it.  A text `t` of `ctime` contains its end of line.
-/

namespace MTT.Verbose

open Polynomial Text Temper Search Parity

/-- The stream that is written to. -/
inductive Chan
  | os
  | cout
  deriving DecidableEq

/-- What is written, in order. -/
abbrev Out := List (Chan × List Char)

/-- `if (verbose) { stream << text; }`. -/
def say (verbose : Bool) (c : Chan) (t : List Char) : Out := if verbose then [(c, t)] else []

variable {σ : Type} {w : Nat}

/-! ## `AlgorithmPartialBitPattern` -/

/-- `"pattern change " << hex << min_pattern << ":" << pattern << endl`, AlgorithmPartialBitPattern.hpp:256-257, 264-265. -/
def changeText (old new : BitVec w) : List Char :=
  "pattern change ".toList ++ digits 16 old.toNat ++ [':'] ++ digits 16 new.toNat ++ ['\n']

/-- `hex << setw(n) << x`, the fill character is a blank. -/
def hexBlank (n x : Nat) : List Char := List.replicate (n - (digits 16 x).length) ' ' ++ digits 16 x

/-- The loop of `search_best_temper`, AlgorithmPartialBitPattern.hpp:246-270, see `Temper.bestLoop`. -/
def bestLoopV (verbose : Bool) (R : TemperOps σ w) (P : PBPar) (mask : BitVec w) (pos : Nat) (v size : Int) :
    Nat → Acc σ w → Option (Acc σ w × Out)
  | 0, a => some (a, [])
  | i + 1, a =>
    match patternOf P v size i with
    | none => none
    | some pattern =>
      let rand := makeTemperBit R mask pos pattern a.rand
      match R.delta P.bitLen rand with
      | none => none
      | some delta =>
        let q : Acc σ w × Out :=
          if delta < a.minDelta then (⟨rand, delta, pattern⟩, say verbose .cout (changeText a.minPattern pattern))
          else if delta = a.minDelta then
            if R.countBit a.minPattern < R.countBit pattern then
              (⟨rand, a.minDelta, pattern⟩, say verbose .cout (changeText a.minPattern pattern))
            else (⟨rand, a.minDelta, a.minPattern⟩, [])
          else (⟨rand, a.minDelta, a.minPattern⟩, [])
        (bestLoopV verbose R P mask pos v size i q.1).map fun r => (r.1, q.2 ++ r.2)

/-- `dec << min_delta << ":" << hex << setw(length) << min_pattern << ":" << hex << setw(length) << mask << endl`,
AlgorithmPartialBitPattern.hpp:245, 273-275; `length` is a quarter of the width of `U`. -/
def bestText (minDelta : Int) (minPattern mask : BitVec w) : List Char :=
  decInt minDelta ++ [':'] ++ hexBlank (w / 4) minPattern.toNat ++ [':'] ++ hexBlank (w / 4) mask.toNat ++ ['\n']

/-- `search_best_temper`, AlgorithmPartialBitPattern.hpp:235-278, see `Temper.searchBest`. -/
def searchBestV (verbose : Bool) (R : TemperOps σ w) (P : PBPar) (v : Int) (pos : Nat) (maxV : Int) (s : σ) :
    Option ((σ × Int) × Out) :=
  let size := maxV - v
  match (makeMask P.bitLen P.lsb v size : Option (BitVec w)) with
  | none => none
  | some mask =>
    if size < 0 ∨ 31 ≤ size then none
    else match bestLoopV verbose R P mask pos v size (2 ^ size.toNat) ⟨s, R.bitSize * P.bitLen, 0⟩ with
      | none => none
      | some (a, o) => some ((makeTemperBit R mask pos a.minPattern a.rand, a.minDelta),
          o ++ say verbose .cout (bestText a.minDelta a.minPattern mask))

/-- The loop over the parameters, AlgorithmPartialBitPattern.hpp:151-153. -/
def paramLoopV (verbose : Bool) (R : TemperOps σ w) (P : PBPar) (p maxDepth : Int) :
    Nat → Nat → σ × Int → Option ((σ × Int) × Out)
  | 0, _, q => some (q, [])
  | k + 1, i, q =>
    match searchBestV verbose R P p i maxDepth q.1 with
    | none => none
    | some (q, o) => (paramLoopV verbose R P p maxDepth k (i + 1) q).map fun r => (r.1, o ++ r.2)

/-- The outer loop, AlgorithmPartialBitPattern.hpp:146-154. -/
def depthLoopV (verbose : Bool) (R : TemperOps σ w) (P : PBPar) : Nat → Nat → σ × Int → Option ((σ × Int) × Out)
  | 0, _, _ => none
  | fuel + 1, p, q =>
    if p < P.tryLen then
      let maxDepth := if p + P.step > P.tryLen then P.tryLen else p + P.step
      match paramLoopV verbose R P p maxDepth P.paramNum 0 q with
      | none => none
      | some (q, o) => (depthLoopV verbose R P fuel (p + P.step) q).map fun r => (r.1, o ++ r.2)
    else some (q, [])

/-- `"delta = " << dec << delta << endl`. -/
def deltaText (d : Int) : List Char := "delta = ".toList ++ decInt d ++ ['\n']

/-- `operator()(rand, verbose)`, AlgorithmPartialBitPattern.hpp:129-161. -/
def partialBitPatternV (R : TemperOps σ w) (P : PBPar) (fuel : Nat) (verbose : Bool) (s : σ) : Option (σ × Out) :=
  let s := if P.lsb then R.setRev s else R.resetRev s
  (depthLoopV verbose R P fuel 0 (s, 1000)).map fun q => (R.resetRev q.1.1,
    say verbose .cout "searching...\n".toList ++
    say verbose .cout (if P.lsb then "searching from LSB\n".toList else "searching from MSB\n".toList) ++
    q.2 ++ say verbose .cout (deltaText q.1.2))

/-! ## `AlgorithmBestBits` -/

/-- The loop of `search_best_temper`, AlgorithmBestBits.hpp:384-403, see `Temper.bbLoop`. -/
def bbLoopV (verbose : Bool) (R : TemperOps σ w) (B : BBPar) (v : Nat) (para : TempP w) :
    Nat → σ → Int → List (TempP w) → Option ((σ × List (TempP w)) × Out)
  | 0, s, _, cur => some ((s, cur), [])
  | i + 1, s, delta, cur =>
    match inRange B w i v with
    | none => none
    | some false => bbLoopV verbose R B v para i s delta cur
    | some true =>
      match makePattern B i v para.param with
      | none => none
      | some param =>
        let s := setAll R param B.size 0 s
        match R.delta (v + 1) s with
        | none => none
        | some d =>
          let o := say verbose .cout ("pattern->delta:".toList ++ decInt d ++ ['\n'])
          if d ≤ delta then (bbLoopV verbose R B v para i s d (cur ++ [⟨param, d⟩])).map fun r => (r.1, o ++ r.2)
          else (bbLoopV verbose R B v para i s delta cur).map fun r => (r.1, o ++ r.2)

/-- AlgorithmBestBits.hpp:303-306. -/
def bbAllV (verbose : Bool) (R : TemperOps σ w) (B : BBPar) (v : Nat) :
    List (TempP w) → σ → List (TempP w) → Option ((σ × List (TempP w)) × Out)
  | [], s, cur => some ((s, cur), [])
  | para :: ps, s, cur =>
    match bbLoopV verbose R B v para (2 ^ B.numPat) s (R.bitSize * w) cur with
    | none => none
    | some ((s, cur), o) => (bbAllV verbose R B v ps s cur).map fun r => (r.1, o ++ r.2)

/-- The loop over the bits, AlgorithmBestBits.hpp:300-325.  The last argument is the local `delta`. -/
def bbBitsV (verbose : Bool) (R : TemperOps σ w) (B : BBPar) :
    Nat → Nat → σ → List (TempP w) → Int → Option ((σ × List (TempP w) × Int) × Out)
  | 0, _, s, params, delta => some ((s, params, delta), [])
  | n + 1, p, s, params, _ =>
    match bbAllV verbose R B p params s [] with
    | none => none
    | some ((s, cur), o) =>
      let delta := minDelta (R.bitSize * w) cur
      (bbBitsV verbose R B n (p + 1) s (cur.filter fun q => q.delta = delta) delta).map fun r =>
        (r.1, o ++ say verbose .cout (deltaText delta) ++ r.2)

/-- `operator()(rand, verbose)`, AlgorithmBestBits.hpp:283-337. -/
def bestBitsV (R : TemperOps σ w) (B : BBPar) (verbose : Bool) (s : σ) : Option (σ × Out) :=
  match bbBitsV verbose R B B.limit 0 (R.resetRev s) [⟨fun _ => 0, 0⟩] 0 with
  | none => none
  | some ((_, [], _), _) => none
  | some ((s, q :: _, delta), o) => some (R.resetRev (R.setUp (setAll R q.param B.size 0 s)),
      say verbose .cout "searching from MSB\n".toList ++ o ++ say verbose .cout (deltaText delta))

/-! ## The combined searches -/

/-- `print_kv(veq, mexp, size)`, AlgorithmRecursionAndTempering.hpp:296-303, AlgorithmReducibleRT.hpp:297-304: `k` turns left,
the next index `i`. -/
def kvLoop (veq : Nat → Nat) (mexp : Nat) : Nat → Nat → List Char
  | 0, _ => []
  | k + 1, i => dec (i + 1) ++ [':'] ++ dec (veq i) ++ ['('] ++ decInt ((mexp / (i + 1) : Nat) - (veq i : Int)) ++ [')', '\n'] ++
      kvLoop veq mexp k (i + 1)

/-- What the combined searches use of a generator apart from the search of the recursion: `setReverseOutput`,
`resetReverseOutput`, `getParamString` with its effect on the object, `AlgorithmEquidistribution(g,
bit_size<U>()).get_all_equidist(veq)` as a function of the array before and the generator (`none`: it throws), the width of `U`
and `bitSize()`. -/
structure VOps (σ : Type) where
  setRev : σ → σ
  resetRev : σ → σ
  str : σ → σ × List Char
  table : (Nat → Nat) → σ → Option ((Nat → Nat) × Int)
  width : Nat
  mexp : Nat

/-- `print_kv(...)` and a line with delta. -/
def tableText (V : VOps σ) (name : List Char) (q : (Nat → Nat) × Int) : Out :=
  [(.os, kvLoop q.1 V.mexp V.width 0), (.os, name ++ deltaText q.2)]

/-- Outcome of the second half of `search`: the generator and `delta`; the calculation of the defects throws; a tempering search
executes something undefined. -/
inductive TRes (σ : Type)
  | ok (g : σ) (delta : Int) (out : Out)
  | table
  | undef

/-- AlgorithmRecursionAndTempering.hpp:178-190, AlgorithmReducibleRT.hpp:174-187. -/
def lsbReport (V : VOps σ) (lsb : Bool) (t : List Char) (veq : Nat → Nat) (g : σ) : Option (σ × (Nat → Nat) × Out) :=
  let g := if lsb then V.setRev g else g
  (V.table veq g).map fun q => (V.resetRev g, q.1,
    (.os, "lsb tempering parameters are found at ".toList ++ t ++ ['\n']) :: tableText V "lsb ".toList q)

/-- The second half of `search`, AlgorithmRecursionAndTempering.hpp:170-205, AlgorithmReducibleRT.hpp:168-202. -/
def temperV (V : VOps σ) (verbose : Bool) (st1 st2 : Bool → σ → Option (σ × Out)) (lsb2 noLsb : Bool) (t1 t2 : List Char)
    (veq : Nat → Nat) (g : σ) : TRes σ :=
  match (if verbose then (V.table veq g).map fun q => (q.1, tableText V [] q) else some (veq, [])) with
  | none => .table
  | some (veq, o1) =>
    match (if noLsb then some (g, []) else st2 verbose g) with
    | none => .undef
    | some (g, o2) =>
      match (if verbose ∧ noLsb = false then lsbReport V lsb2 t1 veq g else some (g, veq, [])) with
      | none => .table
      | some (g, veq, o3) =>
        match st1 verbose g with
        | none => .undef
        | some (g, o4) =>
          match V.table veq g with
          | none => .table
          | some q =>
            if verbose then
              let r := V.str g
              .ok r.1 q.2 (o1 ++ o2 ++ o3 ++ o4 ++ [(.os, "tempering parameters are found at ".toList ++ t2 ++ ['\n']),
                (.os, r.2 ++ ['\n'])] ++ tableText V [] q)
            else .ok g q.2 (o1 ++ o2 ++ o3 ++ o4)

/-- `for (int i = 0;; i++) {...}`, AlgorithmRecursionAndTempering.hpp:149-157, AlgorithmReducibleRT.hpp:140-148: `start` is
`search.start(1000 * mexp)`.  `(i + 1) * 10000` is an `int`.  `none`: out of fuel. -/
def findLoopV {S : Type} (verbose : Bool) (start : S → Res S) : Nat → Nat → S → Option (Res S × Out)
  | 0, _, _ => none
  | fuel + 1, i, st =>
    match start st with
    | .ret false st =>
      if verbose = false then findLoopV verbose start fuel (i + 1) st
      else if (i + 1) * 10000 < 2 ^ 31 then
        (findLoopV verbose start fuel (i + 1) st).map fun r =>
          (r.1, (.os, "not found in ".toList ++ dec ((i + 1) * 10000) ++ ['\n']) :: r.2)
      else some (.undef, [])
    | r => some (r, [])

/-- The messages after the recursion has been found, AlgorithmRecursionAndTempering.hpp:161-168, AlgorithmReducibleRT.hpp:152-159. -/
def foundText (t0 : List Char) (count : Nat) (str : List Char) : Out :=
  [(.os, "irreducible parameter is found at ".toList ++ t0), (.os, "count = ".toList ++ dec count ++ ['\n']), (.os, str ++ ['\n'])]

noncomputable section

variable {π : Type}

/-- `search(lg, st1, st2, verbose, os, no_lsb)`, AlgorithmRecursionAndTempering.hpp:135-205, with what is written; see
`Search.rtSearch`.  `t0`, `t1`, `t2` are the texts of `ctime`, `veq` is the uninitialised array. -/
def rtSearchV (mps : MPS) (D : SearchOps σ π w) (prim : ℕ → (ZMod 2)[X] → Option Bool) (V : VOps σ) (verbose : Bool)
    (st1 st2 : Bool → σ → Option (σ × Out)) (lsb2 noLsb : Bool) (t0 t1 t2 : List Char) (veq : ℕ → ℕ) (fuel : ℕ) (rand : σ)
    (src : π) : Option (RTRes σ π × Out) :=
  match findLoopV verbose (start mps D prim (1000 * D.gen.bitSize)) fuel 0 ⟨rand, src, 0, 0⟩ with
  | none => none
  | some (.undef, o) => some (.undef, o)
  | some (.threw _, o) => some (.threw, o)
  | some (.ret _ st, o) =>
    let r := V.str st.rand
    let g := if verbose then r.1 else st.rand
    let o := o ++ if verbose then foundText t0 st.count r.2 else []
    match temperV V verbose st1 st2 lsb2 noLsb t1 t2 veq g with
    | .undef => some (.undef, o)
    | .table => some (.undef, o)
    | .ok g d o' => some (.found ⟨g, st.src, st.poly, polyWeight st.poly, d⟩, o ++ o')

/-- `search(rg, st1, st2, verbose, os, no_lsb)`, AlgorithmReducibleRT.hpp:126-202, with what is written; see
`Search.rrtSearch`. -/
def rrtSearchV (mps : MPS) (kernel : KernelFn) (R : ROps σ w) (W : WordOps w) (setUp : σ → π → Option (σ × π))
    (seedOne : σ → σ) (V : VOps σ) (verbose : Bool) (st1 st2 : Bool → σ → Option (σ × Out)) (lsb2 noLsb : Bool)
    (t0 t1 t2 : List Char) (fuel parFuel : ℕ) (junk : BitVec w) (veq : ℕ → ℕ) (rand : σ) (src : π) :
    Option (RRTRes σ π w × Out) :=
  match findLoopV verbose (rStart mps ⟨R.toGenOps, setUp, seedOne⟩ R.mexp (1000 * R.bitSize)) fuel 0 ⟨rand, src, 0, 0, 0⟩ with
  | none => none
  | some (.undef, o) => some (.undef, o)
  | some (.threw _, o) => some (.threw, o)
  | some (.ret _ st, o) =>
    let r := V.str st.rand
    let g := if verbose then r.1 else st.rand
    let o := o ++ if verbose then foundText t0 st.count r.2 else []
    match searchParity R W parFuel kernel junk g st.irreducible with
    | .error e => some (.parity e, o)
    | .ok (parity, g) =>
      match reducedCopy mps R.toGenOps g st.irreducible with
      | none => some (.undef, o)
      | some g =>
        match temperV V verbose st1 st2 lsb2 noLsb t1 t2 veq g with
        | .undef => some (.undef, o)
        | .table => some (.delta, o)
        | .ok g d o' => some (.found ⟨g, st.src, st.irreducible, parity, polyWeight st.irreducible, d⟩, o ++ o')

end

end MTT.Verbose
