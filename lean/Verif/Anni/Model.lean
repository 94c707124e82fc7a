import Verif.Search.Model
import Verif.Parity.Model

/-!
# Model of `samples/sfmtdc/Annihilate.cpp` and `samples/dSFMTdc/Annihilate.cpp`

The generator is an abstract object with the operations of `ReducibleGenerator.hpp`.  `sfmt gen(sf)` copies the value.
NTL's `MinPolySeq` is the parameter `mps`.  `none` is an undefined shift, or a division by the zero polynomial (NTL raises
an error).  Messages on the standard output are omitted.
-/

namespace MTT.Anni

open Polynomial Search Parity

noncomputable section

variable {σ : Type} {w : ℕ}

/-- `LCM(lcm, lcm, poly)` with the model of C11, the variables being 0 and 1. -/
def lcmInto (lcm poly : (ZMod 2)[X]) : Option (ZMod 2)[X] :=
  (Util.LCM (fun v => if v = 0 then lcm else poly) 0 0 1).map fun m => m 0

/-- The loop of `getLCMPoly`, sfmtdc/Annihilate.cpp:48-65 and dSFMTdc/Annihilate.cpp:49-56: `k` turns left, bit number
`i`; `mp` computes the minimal polynomial of one bit and advances the object. -/
def lcmLoop (R : ROps σ w) (mp : σ → Option (σ × (ZMod 2)[X])) :
    ℕ → ℕ → σ → (ZMod 2)[X] → Option (ZMod 2)[X]
  | 0, _, _, lcm => some lcm
  | k + 1, i, gen, lcm =>
    match mp (R.setOneBit i gen) with
    | none => none
    | some (gen, poly) =>
      match lcmInto lcm poly with
      | none => none
      | some lcm => if Period.deg lcm = R.bitSize then some lcm else lcmLoop R mp k (i + 1) gen lcm

/-- `getLCMPoly(lcm, sf)`, sfmtdc/Annihilate.cpp:43-66 (the branch `#else`). -/
def getLCMPolyS (mps : MPS) (R : ROps σ w) (lcm : (ZMod 2)[X]) (sf : σ) : Option (ZMod 2)[X] :=
  lcmLoop R (minpoly mps R.toGenOps 0 0) R.bitSize 0 sf lcm

/-- The end of `anni`: `quotient = poly / irreducible`, `annihilate(&sf, quotient)`, `minpoly(poly, sf)` and
`return true`, sfmtdc/Annihilate.cpp:30-40, dSFMTdc/Annihilate.cpp:31-41. -/
def finish (mps : MPS) (R : ROps σ w) (irreducible poly : (ZMod 2)[X]) (sf : σ) : Option (σ × Bool) :=
  if irreducible = 0 then none
  else
    let quotient := poly / irreducible
    let sf := Lin.annihilate R.toGenOps quotient sf
    match minpoly mps R.toGenOps 0 0 sf with
    | none => none
    | some (sf, _) => some (sf, true)

/-- `anni(sfmt& sf)`, sfmtdc/Annihilate.cpp:13-41: the object afterwards and the returned value.  (`gen` is only asked
for `getMexp`.) -/
def anniS (mps : MPS) (R : ROps σ w) (sf : σ) : Option (σ × Bool) :=
  match minpoly mps R.toGenOps 0 0 sf with
  | none => none
  | some (sf, poly) =>
    match Period.hasFactorOfDegree (poly.natDegree + 1) poly R.mexp with
    | none => none
    | some (false, _) => some (sf, false)
    | some (true, irreducible) =>
      match calcCharPoly mps R.toGenOps sf poly with
      | none => none
      | some (sf, poly) =>
        if Period.deg poly ≠ R.bitSize then
          match getLCMPolyS mps R poly sf with
          | none => none
          | some poly => finish mps R irreducible poly sf
        else finish mps R irreducible poly sf

/-- The loop of `minPolyLung`, dSFMTdc/Annihilate.cpp:72-76. -/
def collectP (R : ROps σ w) (pos : ℤ) : ℕ → σ → Option (σ × List (ZMod 2))
  | 0, s => some (s, [])
  | n + 1, s =>
    let s := (R.generate s).1
    match Util.getBitOfPos (R.getParity s) pos with
    | none => none
    | some b => (collectP R pos n s).map fun q => (q.1, (b : ZMod 2) :: q.2)

/-- `minPolyLung(poly, sf, pos)`, dSFMTdc/Annihilate.cpp:67-78. -/
def minPolyLung (mps : MPS) (R : ROps σ w) (pos : ℤ) (sf : σ) : Option (σ × (ZMod 2)[X]) :=
  (collectP R pos (2 * R.bitSize) sf).map fun q =>
    (q.1, mps (2 * R.bitSize) (fun i => q.2.getD i 0) R.bitSize)

/-- `lungLCM(lcm, sf)`, dSFMTdc/Annihilate.cpp:58-65: `k` turns left, bit number `i` (the word has `w` = 128 bits). -/
def lungLCM (mps : MPS) (R : ROps σ w) : ℕ → ℕ → σ → (ZMod 2)[X] → Option (σ × (ZMod 2)[X])
  | 0, _, sf, lcm => some (sf, lcm)
  | k + 1, i, sf, lcm =>
    match minPolyLung mps R i sf with
    | none => none
    | some (sf, poly) =>
      match lcmInto lcm poly with
      | none => none
      | some lcm => lungLCM mps R k (i + 1) sf lcm

/-- `getLCMPoly(lcm, sf)`, dSFMTdc/Annihilate.cpp:43-56. -/
def getLCMPolyD (mps : MPS) (R : ROps σ w) (lcm : (ZMod 2)[X]) (sf : σ) : Option (ZMod 2)[X] :=
  match lungLCM mps R w 0 sf lcm with
  | none => none
  | some (gen, lcm) => lcmLoop R (minPolyLung mps R 0) R.bitSize 0 gen lcm

/-- `anni(dSFMT& sf)`, dSFMTdc/Annihilate.cpp:13-41. -/
def anniD (mps : MPS) (R : ROps σ w) (sf : σ) : Option (σ × Bool) :=
  match minpoly mps R.toGenOps 0 0 sf with
  | none => none
  | some (sf, poly) =>
    match Period.hasFactorOfDegree (poly.natDegree + 1) poly R.mexp with
    | none => none
    | some (false, _) => some (sf, false)
    | some (true, irreducible) =>
      match minpoly mps R.toGenOps 0 0 sf with
      | none => none
      | some (sf, poly) =>
        if Period.deg poly ≠ R.bitSize then
          match getLCMPolyD mps R poly sf with
          | none => none
          | some poly => finish mps R irreducible poly sf
        else finish mps R irreducible poly sf

end

end MTT.Anni
