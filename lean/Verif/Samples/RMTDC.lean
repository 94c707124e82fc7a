import Verif.Samples.RMTTools
import Verif.Search.ReducibleRT
import Verif.Temper.Model

/-!
# Model of the program `samples/RMT/rmt64dc.cpp`

The numbers of the `MersenneTwister64` object are an arbitrary sequence.  `one r` is what the compiler makes of the `int`
expression `1 << r` of `RMT64Search::setOneBit` (rmt64.hpp:131) converted to `uint64_t`, `none` if that is undefined; the
standard's answer is `intOneShift`.  What the program leaves uninitialised is a parameter.  Not modelled: the parsing of the
options, `verbose` (see `RMTVerbose`), the formatting.  The fuel of `set_state`, of the tempering searches and of the equidistribution
calculation is enough (`RMTDCProps`).
-/

namespace MTT.RMT

open Polynomial PIS Search Temper Parity

/-- `allowed_mexp`, rmt64dc.cpp:183-186. -/
def allowedMexp : List Nat :=
  [521, 607, 1279, 2203, 2281, 3217, 4253, 4423, 9689, 9941, 11213, 19937, 21701, 23209, 44497]

/-- `setOneBit`, rmt64.hpp:121-136 (`bitPos` not negative). -/
def setOneBitX (one : Nat → Option (BitVec 64)) (bitPos : Nat) (s : St) : Option St :=
  let s := setZero s
  let idx := bitPos / 64
  let r := bitPos % 64
  if idx ≥ s.size then some s
  else
    match one r with
    | none => none
    | some v => some { s with state := Function.update s.state idx v }

/-- The operations of `RMT64Search` for the parts of the parity search that do not call `setOneBit` (the field `setOneBit` is
not used below). -/
def rops (mexp : Nat) : ROps St 64 where
  toGenOps := ops (mexp / 64 + 1)
  getParity := getParityValue
  setParity := setParityValue
  setOneBit _ s := s
  mexp := mexp

/-- Abnormal outcomes of the parity search: an undefined shift in `setOneBit`, or one of `Parity.Err`. -/
inductive PErr
  | shift
  | other (e : Parity.Err)

/-- `AlgorithmEquidistribution<uint64_t> sb(rand, L); sb.get_all_equidist(veq)`
(AlgorithmPartialBitPattern.hpp:253): works on clones, which the copy constructor (rmt64.hpp:61-76) makes equal to
the object. -/
def measure (veq : Nat → Nat) (n L : Nat) (s : St) : Option Int :=
  match getAllEquidist (ops n) Util.calc1posWrap64 s L (n * 64) (L * ((L + 1) * (n * 64)) + L + 1) veq with
  | .ok r => some r.sum
  | .error _ => none

/-- What a tempering search uses of `RMT64Search`. -/
def temperOps (veq : Nat → Nat) (n : Nat) : TemperOps St 64 where
  setPat := setTemperingPattern
  setUp := setUpTempering
  setRev := setReverse
  resetRev := resetReverse
  bitSize := n * 64
  delta := measure veq n
  countBit := Util.countBit64

/-- `st64`, rmt64dc.cpp:87. -/
def st64 : PBPar := ⟨64, 2, 63, 6, false⟩

/-- What the search uses of `RMT64Search`: `setUpParam` takes two numbers from the source; `seed(getOne())`. -/
def searchOps (mexp : Nat) : SearchOps St (Nat → BitVec 64) 64 where
  gen := ops (mexp / 64 + 1)
  setUp s f := some (setUpParam (f 0) (f 1) s, fun k => f (k + 2))
  seedOne := seed 1

/-- A printed line: `getParamString` and delta, rmt64dc.cpp:102. -/
structure Line where
  param : Fields
  delta : Int

noncomputable section

/-- `calc_basis`, AlgorithmCalculateParity.hpp:202-237: `k = maxdegree - *bit_pos` turns left. -/
def calcBasis (one : ℕ → Option (BitVec 64)) (mexp : ℕ) (f : (ZMod 2)[X]) : ℕ → ℕ → IS St 64 → Except PErr (IS St 64 × ℕ)
  | 0, bitPos, st => .ok (st, bitPos)
  | k + 1, bitPos, st =>
    match setOneBitX one bitPos st.rg with
    | none => .error .shift
    | some rg =>
      let rg := Lin.annihilate (ops (mexp / 64 + 1)) f rg
      match setState (rops mexp) (mexp / 64 + 1) { st with rg := rg } with
      | none => .error (.other .outOfFuel)
      | some st => if st.zero then calcBasis one mexp f k (bitPos + 1) st else .ok (st, bitPos + 1)

/-- The loop of `searchParity`, AlgorithmCalculateParity.hpp:143-157. -/
def searchLoop (one : ℕ → Option (BitVec 64)) (mexp : ℕ) (f : (ZMod 2)[X]) (baseNum : Int) :
    ℕ → ℕ → (ℕ → IS St 64) → IS St 64 → Except PErr (ℕ → IS St 64)
  | 0, bitPos, bases, _ => if bitPos < (mexp / 64 + 1) * 64 then .error (.other .outOfFuel) else .ok bases
  | k + 1, bitPos, bases, work =>
    if bitPos < (mexp / 64 + 1) * 64 then
      match calcBasis one mexp f ((mexp / 64 + 1) * 64 - bitPos) bitPos work with
      | .error e => .error e
      | .ok (work, bitPos) =>
        match addBase (rops mexp) words64 (mexp / 64 + 1) bases work with
        | .error e => .error (.other e)
        | .ok (bases, work) =>
          if (countBases bases : Int) ≥ baseNum then .ok bases
          else searchLoop one mexp f baseNum k bitPos bases work
    else .ok bases

/-- `searchParity(g, f)`, AlgorithmCalculateParity.hpp:110-179. -/
def searchParity (one : ℕ → Option (BitVec 64)) (mexp : ℕ) (kernel : KernelFn) (junk : BitVec 64) (g : St)
    (f : (ZMod 2)[X]) : Except PErr (BitVec 64 × St) :=
  let baseNum : Int := ((mexp / 64 + 1) * 64 : ℕ) - (mexp : Int)
  let init : IS St 64 := { zero := true, next := 0, rg := setZero g }
  match searchLoop one mexp f baseNum ((mexp / 64 + 1) * 64) 0 (fun _ => init) init with
  | .error e => .error e
  | .ok bases =>
    match searchParityCheckVector words64 kernel junk bases baseNum with
    | .error e => .error (.other e)
    | .ok parity => .ok (parity, setParityValue parity g)

/-- Outcome of `all.search(g, st, st)`: `true` with the generator, the source and `getDelta()`; an undefined shift in
`setOneBit`; anything else (an exception, something else undefined). -/
inductive SRes
  | found (g : St) (src : ℕ → BitVec 64) (delta : Int)
  | shift
  | other

/-- `all.search(g, st, st, false)`, AlgorithmReducibleRT.hpp:126-202 (see `Search.rrtSearch`). -/
def allSearch (mps : MPS) (kernel : KernelFn) (one : ℕ → Option (BitVec 64)) (junk : BitVec 64) (veq : ℕ → ℕ)
    (fuel mexp : ℕ) (g : St) (src : ℕ → BitVec 64) : Option SRes :=
  let n := mexp / 64 + 1
  match rFindLoop mps (searchOps mexp) mexp (1000 * (n * 64)) fuel ⟨g, src, 0, 0, 0⟩ with
  | none => none
  | some .undef => some .other
  | some (.threw _) => some .other
  | some (.ret _ st) =>
    match searchParity one mexp kernel junk st.rand st.irreducible with
    | .error .shift => some .shift
    | .error (.other _) => some .other
    | .ok (_, rg) =>
      match afterParity mps (ops n) Util.calc1posWrap64 (partialBitPattern (temperOps veq n) st64 64)
        (partialBitPattern (temperOps veq n) st64 64) false (64 * (65 * (n * 64)) + 65) veq rg st.irreducible with
      | none => some .other
      | some (.error _) => some .other
      | some (.ok (rg, d)) => some (.found rg st.src d)

/-- How the program ends, with the lines printed before. -/
inductive Ends
  | normal (L : List Line)
  | shift (L : List Line)
  | other (L : List Line)

/-- A line printed before. -/
def Ends.cons (l : Line) : Ends → Ends
  | .normal L => .normal (l :: L)
  | .shift L => .shift (l :: L)
  | .other L => .other (l :: L)

/-- The loop, rmt64dc.cpp:95-108: `c` turns left.  (`getParamString` changes the masks of the object.) -/
def searchLines (mps : MPS) (kernel : KernelFn) (one : ℕ → Option (BitVec 64)) (junk : ℕ → BitVec 64) (veq : ℕ → ℕ)
    (fuel mexp : ℕ) : ℕ → St → (ℕ → BitVec 64) → Option Ends
  | 0, _, _ => some (.normal [])
  | c + 1, g, src =>
    match allSearch mps kernel one (junk c) veq fuel mexp g src with
    | none => none
    | some .shift => some (.shift [])
    | some .other => some (.other [])
    | some (.found g src d) =>
      (searchLines mps kernel one junk veq fuel mexp c (getParamString g) src).map (Ends.cons ⟨fieldsOf g, d⟩)

/-- `search(opt, count)`, rmt64dc.cpp:78-115. -/
def rmtMain (mps : MPS) (kernel : KernelFn) (one : ℕ → Option (BitVec 64)) (junk : ℕ → BitVec 64) (veq : ℕ → ℕ) (fuel mexp : ℕ)
    (count : ℤ) (junkPos : ℕ) (junkA : BitVec 64) (junkS : ℕ → BitVec 64) (src : ℕ → BitVec 64) : Option Ends :=
  searchLines mps kernel one junk veq fuel mexp count.toNat (ctor mexp 1 junkPos junkA junkS) src

end

end MTT.RMT
