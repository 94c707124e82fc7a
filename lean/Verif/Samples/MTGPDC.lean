import Verif.Samples.MTGP
import Verif.Temper.Model
import Verif.Search.RTModel

/-!
# Model of the program `samples/MTGPDC/MTGP32dc.cpp`

The random numbers of the `MersenneTwister` object are an arbitrary sequence: MTGP32dc.cpp:64-65 creates and seeds
a new one for each line, with the same seed each time.  Everything the program leaves uninitialised is a
parameter (`Junk`).  Not modelled: options, `verbose` (see `MTGPVerbose`), the formatting, and `sha1` (without `USE_SHA` the program
prints the uninitialised array `sha1[1]`, mtgp_param.h:154-156, as a string).
-/

namespace MTT.MTGP

open Polynomial PIS Search Temper

/-- What is not initialised during one line: members of `mtgp32` and of its copies, the array of the state, the
local array `veq`. -/
structure Junk where
  pos : Nat
  sh1 : Nat
  sh2 : Nat
  mask : BitVec 32
  state : Nat → BitVec 32
  cmask : BitVec 32
  veq : Nat → Nat

/-- `AlgorithmEquidistribution<uint32_t> sb(rand, L); sb.get_all_equidist(veq)`: works on clones
(AlgorithmEquidistribution.hpp:293-308, 114-121, 145-157). -/
def measure (J : Junk) (L : Nat) (s : St) : Option Int :=
  match getAllEquidist (ops s.mexp) Util.calc1posWrap32 (clone J.cmask s) L s.mexp
    (L * ((L + 1) * s.mexp) + L + 1) J.veq with
  | .ok r => some r.sum
  | .error _ => none

/-- What a tempering search uses of `mtgp32`. -/
def temperOps (J : Junk) (mexp : Nat) : TemperOps St 32 where
  setPat := setTemperingPattern
  setUp := setUpTempering
  setRev := setReverse
  resetRev := resetReverse
  bitSize := mexp
  delta := measure J
  countBit := Util.countBit32

/-- `st32`, `stlsb32`, MTGP32dc.cpp:31-33. -/
def st32 : PBPar := ⟨32, 4, 23, 5, false⟩
def stlsb32 : PBPar := ⟨32, 4, 9, 5, true⟩

/-- What the search uses of `mtgp32`: `setUpParam` takes five numbers from the source; `seed(getOne())`. -/
def searchOps (mexp : Nat) : SearchOps St (Nat → BitVec 32) 32 where
  gen := ops mexp
  setUp s f := (setUpParam (f 0) (f 1) (f 2) (f 3) (f 4) s).map fun s' => (s', fun k => f (k + 5))
  seedOne := seed 1

/-- A printed line: `getParamString` (mtgp_param.h:90-121), weight, delta, MTGP32dc.cpp:84-86. -/
structure Line where
  mexp : Nat
  id : BitVec 32
  pos : Nat
  sh1 : Nat
  sh2 : Nat
  tbl : Nat → BitVec 32
  tmp : Nat → BitVec 32
  mask : BitVec 32
  weight : Nat
  delta : Int

noncomputable section

def lineOf (o : RTOut St (Nat → BitVec 32)) : Line :=
  ⟨o.rand.mexp, o.rand.id, o.rand.pos, o.rand.sh1, o.rand.sh2, o.rand.tbl, o.rand.tmp, o.rand.mask, o.weight,
    o.delta⟩

/-- `all.search(mtgp, st, stlsb, false)`, MTGP32dc.cpp:69. -/
def allSearch (mps : MPS) (prim : ℕ → (ZMod 2)[X] → Option Bool) (J : Junk) (fuel mexp : ℕ) (g : St)
    (f : ℕ → BitVec 32) : Option (RTRes St (ℕ → BitVec 32)) :=
  rtSearch mps (searchOps mexp) prim (partialBitPattern (temperOps J mexp) st32 24)
    (partialBitPattern (temperOps J mexp) stlsb32 10) (measure J 32) false fuel g f

/-- `indexed_search`, MTGP32dc.cpp:56-93.  `none`: out of fuel; `some none`: something undefined, or the process
ends. -/
def indexedSearch (mps : MPS) (prim : ℕ → (ZMod 2)[X] → Option Bool) (J : Junk) (fuel mexp : ℕ) (id : BitVec 32)
    (f : ℕ → BitVec 32) : Option (Option Line) :=
  match ctor mexp id J.pos J.sh1 J.sh2 J.mask J.state with
  | none => some none
  | some g =>
    match allSearch mps prim J fuel mexp g f with
    | none => none
    | some (.found o) => some (some (lineOf o))
    | some _ => some none

/-- The loop of `main`, MTGP32dc.cpp:44-52: `opt.count` lines; `J c` is the junk when `c` more lines follow. -/
def dcMain (mps : MPS) (prim : ℕ → (ZMod 2)[X] → Option Bool) (J : ℕ → Junk) (fuel mexp : ℕ)
    (f : ℕ → BitVec 32) : ℕ → BitVec 32 → Option (Option (List Line))
  | 0, _ => some (some [])
  | c + 1, id =>
    match indexedSearch mps prim (J c) fuel mexp id f with
    | none => none
    | some none => some none
    | some (some l) =>
      match dcMain mps prim J fuel mexp f c (id + 1) with
      | some (some L) => some (some (l :: L))
      | r => r

end

end MTT.MTGP
