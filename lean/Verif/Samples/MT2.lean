import Verif.Samples.MTDC
import Verif.Temper.Model
import Verif.Search.RTModel

/-!
# Model of the program `samples/MTDC/mt2.cpp`

The random numbers of the `MersenneTwister` object are an arbitrary sequence (its seed, `opt.seed`, is not even
initialised without the option `-s`, mt2.cpp:272-276).  What the program leaves uninitialised is a parameter.  Not
modelled: the parsing of the options, `verbose` (see `MT2Verbose`), the formatting.
-/

namespace MTT.MTDC

open Polynomial PIS Search Temper

/-- `allowed_mexp`, mt2.cpp:338-341. -/
def allowedMexp : List Nat :=
  [521, 607, 1279, 2203, 2281, 3217, 4253, 4423, 9689, 9941, 11213, 19937, 21701, 23209, 44497]

/-- `AlgorithmEquidistribution<uint32_t> sb(rand, L); sb.get_all_equidist(veq)`
(AlgorithmBestBits.hpp:420-429, AlgorithmRecursionAndTempering.hpp:194-195): works on clones, which the copy
constructor (mt2.cpp:58-76) makes equal to the object.  `veq` is the uninitialised local array. -/
def measure (veq : Nat → Nat) (L : Nat) (s : St) : Option Int :=
  match getAllEquidist (ops s.mexp) Util.calc1posWrap32 s L s.mexp (L * ((L + 1) * s.mexp) + L + 1) veq with
  | .ok r => some r.sum
  | .error _ => none

/-- What a tempering search uses of `MT32Search`. -/
def temperOps (veq : Nat → Nat) (mexp : Nat) : TemperOps St 32 where
  setPat := setTemperingPattern
  setUp := setUpTempering
  setRev := setReverse
  resetRev := resetReverse
  bitSize := mexp
  delta := measure veq
  countBit := Util.countBit32

/-- `AlgorithmBestBits<uint32_t> tmp(32, shifts, 2, 15)` with `shifts = {7, 15}`, mt2.cpp:394-395. -/
def bb : BBPar := ⟨[7, 15], 15⟩

/-- What the search uses of `MT32Search`: `setUpParam` takes two numbers from the source; `seed(getOne())`. -/
def searchOps (mexp : Nat) : SearchOps St (Nat → BitVec 32) 32 where
  gen := ops mexp
  setUp s f := (setUpParam (f 0) (f 1) s).map fun s' => (s', fun k => f (k + 2))
  seedOne := seed 1

/-- A printed line: `getParamString` (mt2.cpp:166-175) and delta. -/
structure Line where
  mexp : Nat
  id : Int
  pos : Nat
  mata : BitVec 32
  maskb : BitVec 32
  maskc : BitVec 32
  delta : Int

noncomputable section

/-- mt2.cpp:404-405. -/
def lineOf (s : St) (delta : Int) : Line := ⟨s.mexp, s.id, s.pos, s.mata, s.maskb, s.maskc, delta⟩

/-- `rt.search(mt, tmp, tmp, opt.verbose, cout, true)`, mt2.cpp:399. -/
def rtCall (mps : MPS) (prim : ℕ → (ZMod 2)[X] → Option Bool) (veq : ℕ → ℕ) (fuel mexp : ℕ) (s : St)
    (f : ℕ → BitVec 32) : Option (RTRes St (ℕ → BitVec 32)) :=
  rtSearch mps (searchOps mexp) prim (bestBits (temperOps veq mexp) bb) (bestBits (temperOps veq mexp) bb)
    (measure veq 32) true fuel s f

/-- `while (opt.count > 0) {...}`, mt2.cpp:398-411: the lines printed from here on.  `none`: out of fuel;
`some none`: something undefined, or an exception.  (`search` cannot return `false`.) -/
def mainLoop (mps : MPS) (prim : ℕ → (ZMod 2)[X] → Option Bool) (veq : ℕ → ℕ) (fuel mexp : ℕ) (maxDelta : ℤ) :
    ℕ → ℤ → St → (ℕ → BitVec 32) → Option (Option (List Line))
  | 0, _, _, _ => none
  | turns + 1, count, s, f =>
    if count > 0 then
      match rtCall mps prim veq fuel mexp s f with
      | none => none
      | some (.found o) =>
        if o.delta > maxDelta then mainLoop mps prim veq fuel mexp maxDelta turns count o.rand o.src
        else
          match mainLoop mps prim veq fuel mexp maxDelta turns (count - 1) o.rand o.src with
          | some (some L) => some (some (lineOf o.rand o.delta :: L))
          | r => r
      | some _ => some none
    else some (some [])

/-- `main` after the options have been read, mt2.cpp:392-412. -/
def main (mps : MPS) (prim : ℕ → (ZMod 2)[X] → Option Bool) (veq : ℕ → ℕ) (fuel turns mexp : ℕ) (id count maxDelta : ℤ)
    (junkPos : ℕ) (junkA : BitVec 32) (junk : ℕ → BitVec 32) (f : ℕ → BitVec 32) : Option (Option (List Line)) :=
  match ctor mexp id 1 junkPos junkA junk with
  | none => some none
  | some mt => mainLoop mps prim veq fuel mexp maxDelta turns count mt f

end

end MTT.MTDC
