import Verif.Samples.TinyMT
import Verif.Temper.Model
import Verif.Search.RTModel
import Verif.Util.Sequential

/-!
# Model of the program `samples/TinyMTDC/tinymt32dc.cpp`
-/

namespace MTT.TinyMT

open Polynomial PIS Search Temper

/-- `AlgorithmEquidistribution<uint32_t> sb(rand, L); sb.get_all_equidist(veq)`: the constructor works on
clones (AlgorithmEquidistribution.hpp:293-308, 114-121, 145-157) and `clone` clears `reverse_bit_flag`.
`veq` is an uninitialised local array, AlgorithmPartialBitPattern.hpp:301. -/
def measure (veq : Nat → Nat) (L : Nat) (s : St) : Option Int :=
  match getAllEquidist ops Util.calc1posWrap32 (clone s) L 127 (L * ((L + 1) * 127) + L + 1) veq with
  | .ok r => some r.sum
  | .error _ => none

/-- What a tempering search uses of `tinymt32`. -/
def temperOps (veq : Nat → Nat) : TemperOps St 32 where
  setPat := setTemperingPattern
  setUp := setUpTempering
  setRev := setReverse
  resetRev := resetReverse
  bitSize := 127
  delta := measure veq
  countBit := Util.countBit32

/-- `st32`, `stlsb32`, tinymt32search.hpp:47, 57-58. -/
def st32 : PBPar := ⟨32, 1, 23, 6, false⟩
def stlsb32 : PBPar := ⟨32, 1, 9, 5, true⟩

/-- What the search uses of `tinymt32`: `setUpParam` reads one word from the `Sequential` object;
`seed(getOne())`. -/
def searchOps : SearchOps St (Seq.St 32) 32 where
  gen := ops
  setUp s src := match Seq.getUint32 src with
    | (src', some r) => some (setUpParam r s, src')
    | (_, none) => none
  seedOne := seed 1

/-- A printed line: characteristic polynomial, `getParamString()`, weight, delta
(tinymt32dc.cpp:91-101). -/
structure Line where
  poly : (ZMod 2)[X]
  id : BitVec 32
  mat1 : BitVec 32
  mat2 : BitVec 32
  tmat : BitVec 32
  weight : ℕ
  delta : ℤ

noncomputable section

def lineOf (o : RTOut St (Seq.St 32)) : Line :=
  ⟨o.poly, o.rand.id, o.rand.mat1, o.rand.mat2, o.rand.tmat, o.weight, o.delta⟩

/-- `all.search(g, st, stlsb, false)`. -/
def allSearch (mps : MPS) (prim : ℕ → (ZMod 2)[X] → Option Bool) (veq : ℕ → ℕ) (fuel : ℕ) (g : St)
    (sq : Seq.St 32) : Option (RTRes St (Seq.St 32)) :=
  rtSearch mps searchOps prim (partialBitPattern (temperOps veq) st32 24)
    (partialBitPattern (temperOps veq) stlsb32 10) (measure veq 32) false fuel g sq

/-- The loop of `search`, tinymt32dc.cpp:80-113, without `verbose`; `none`: out of fuel or something
undefined.  The exception of the parameter source ends the program (tinymt32dc.cpp:53-57). -/
def dcLoop (mps : MPS) (prim : ℕ → (ZMod 2)[X] → Option Bool) (veq : ℕ → ℕ) (count : ℕ) (all : Bool)
    (maxDelta : ℤ) : ℕ → St → Seq.St 32 → ℕ → Option (List Line)
  | 0, _, _, _ => none
  | fuel + 1, g, sq, i =>
    if i < count ∨ all = true then
      match allSearch mps prim veq (fuel + 1) g sq with
      | none => none
      | some .undef => none
      | some .threw => some []
      | some (.found o) =>
        if o.delta > maxDelta then dcLoop mps prim veq count all maxDelta fuel o.rand o.src i
        else (dcLoop mps prim veq count all maxDelta fuel o.rand o.src (i + 1)).map (lineOf o :: ·)
    else some []

/-- `search(opt, count)`, tinymt32dc.cpp:68-119, with `opt.start`, `opt.uid`. -/
def dcMain (mps : MPS) (prim : ℕ → (ZMod 2)[X] → Option Bool) (veq : ℕ → ℕ) (count : ℕ) (all : Bool)
    (maxDelta : ℤ) (start uid : BitVec 32) (fuel : ℕ) : Option (List Line) :=
  dcLoop mps prim veq count all maxDelta fuel (ctor uid) (Seq.make2 0 start) 0

end

end MTT.TinyMT
