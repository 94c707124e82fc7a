import Verif.Samples.OptionsProps
import Verif.Samples.SFMTDC
import Verif.Samples.DSFMTDC
import Verif.Samples.RMTDC
import Verif.Samples.MT2
import Verif.Samples.MTGPDC
import Verif.Samples.MTGPDCExponents
import Verif.Samples.TinyMTDC
import Verif.MT.Model
import Verif.MT.Props

/-!
# Model of the search programs from the command line

`main` of sfmtdc.cpp, sfmtdcfixed.cpp, dSFMTdc.cpp, rmt64dc.cpp, mt2.cpp, MTGP32dc.cpp, tinymt32dc.cpp: `parse_opt`
(`Verif.Samples.Options`), then the search (the other modules of `Verif.Samples`) with the numbers of the class
`MersenneTwister` or `MersenneTwister64` seeded as the program does.
-/

namespace MTT.Options

open Polynomial Search Parity

/-- What a run of a program does: the file that it has emptied, and the result of the search (`none`: a usage message and -1). -/
structure Run (α : Type) where
  emptied : Option (List Char)
  out : Option α

/-- `ofstream ofs(opt.filename.c_str()); ... ofs.close()` empties the file, whether or not there was an error before
(e.g. sfmtdc.cpp:259-267).  Nothing is ever written to it. -/
def emptied (canOpen : List Char → Bool) (o : Opts) : Option (List Char) :=
  if o.filename ≠ [] ∧ canOpen o.filename = true then some o.filename else none

/-- `static_cast<int>(x)` of a 64-bit number. -/
def asInt (z : ℤ) : ℤ := (BitVec.ofInt 32 z).toInt

/-- The `k`-th number of `MersenneTwister mt(seed)`. -/
def stream32 (v : BitVec 32) (k : ℕ) : BitVec 32 :=
  (((MT.run MT.step32 MT.fresh (.seed (v.setWidth 64) :: List.replicate (k + 1) .getNative)).bind
    fun q => q.2.getLast?).getD 0).setWidth 32

/-- The `k`-th number of `MersenneTwister64 mt(seed)`. -/
def stream64 (v : BitVec 64) (k : ℕ) : BitVec 64 :=
  ((MT.run MT.step64 MT.fresh (.seed v :: List.replicate (k + 1) .getNative)).bind fun q => q.2.getLast?).getD 0

noncomputable section

variable (mps : MPS) (kernel : KernelFn) (xgcd : DSFMT.XgcdFn) (fuel : ℕ) (clock : BitVec 64) (canOpen : List Char → Bool)
  (evs : List Ev) (operands : List (List Char))

/-- `main` of sfmtdc, sfmtdc.cpp:63-80. -/
def sfmtdc (J : SFMT.Junk) : Run SFMT.Outcome :=
  ⟨emptied canOpen (readOpts stepSeed (init clock 0 0) evs),
    (parseMexp stepSeed SFMT.allowedMexp clock canOpen evs operands).map fun q =>
      SFMT.dcSearch mps kernel fuel J q.2.toNat (asInt q.1.count).toNat (stream32 (q.1.seed.setWidth 32))⟩

/-- `main` of sfmtdcfixed, sfmtdcfixed.cpp:63-80. -/
def sfmtdcfixed (J : SFMT.Junk) : Run SFMT.Outcome :=
  ⟨emptied canOpen (readOpts stepSeed (init clock 0 0) evs),
    (parseMexp stepSeed SFMT.allowedMexp clock canOpen evs operands).map fun q =>
      SFMT.dcFixed mps kernel fuel J q.2.toNat (asInt q.1.count).toNat (stream32 (q.1.seed.setWidth 32))⟩

/-- `main` of dSFMTdc, dSFMTdc.cpp:65-92.  If `sl1` is fixed to a value that is negative or above 63, the first recursion step
(dSFMTsearch.hpp, `x << sl1` of 64-bit words) is undefined. -/
def dsfmtdc (J : DSFMT.Junk) : Run DSFMT.Outcome :=
  ⟨emptied canOpen (readOpts stepFixed (init clock 0 0) evs),
    (parseMexp stepFixed DSFMT.allowedMexp clock canOpen evs operands).map fun q =>
      if q.1.fixed = true ∧ 64 ≤ q.1.fixedSL1.toNat then
        if 0 < asInt q.1.count then .undef else .done []
      else
        DSFMT.dcSearch mps kernel xgcd fuel J q.2.toNat (asInt q.1.count).toNat
          (if q.1.fixed then some q.1.fixedSL1.toNat else none) (stream64 q.1.seed)⟩

/-- `main` of rmt64dc, rmt64dc.cpp:61-80. -/
def rmt64dc (one : ℕ → Option (BitVec 64)) (junk : ℕ → BitVec 64) (veq : ℕ → ℕ) (junkPos : ℕ) (junkA : BitVec 64)
    (junkS : ℕ → BitVec 64) : Run (Option RMT.Ends) :=
  ⟨emptied canOpen (readOpts stepSeed (init clock 0 0) evs),
    (parseMexp stepSeed RMT.allowedMexp clock canOpen evs operands).map fun q =>
      RMT.rmtMain mps kernel one junk veq fuel q.2.toNat (asInt q.1.count) junkPos junkA junkS (stream64 q.1.seed)⟩

/-- `main` of mt2, mt2.cpp:387-414; `junkSeed` is the seed if there is no `-s`. -/
def mt2 (veq : ℕ → ℕ) (turns junkPos : ℕ) (junkA junkSeed : BitVec 32) (junk : ℕ → BitVec 32) :
    Run (Option (Option (List MTDC.Line))) :=
  ⟨emptied canOpen (readOpts stepMt2 (init (junkSeed.setWidth 64) 0x7fffffff 0) evs),
    (parseMt2 MTDC.allowedMexp junkSeed canOpen evs operands).map fun q =>
      MTDC.main mps (Period.primitivityOp none) veq fuel turns q.2.1.toNat q.2.2 q.1.count q.1.max.toInt junkPos junkA junk
        (stream32 (q.1.seed.setWidth 32))⟩

/-- `main` of MTGP32dc, MTGP32dc.cpp:38-53; `rng` is the number sequence that the seed text selects. -/
def mtgp32dc (J : ℕ → MTGP.Junk) (rng : List Char → ℕ → BitVec 32) : Run (Option (Option (List MTGP.Line))) :=
  ⟨emptied canOpen (readOpts stepMtgp (init 0 0 0) evs),
    (parseMtgp MTGP.allowedMexp canOpen evs operands).map fun q =>
      MTGP.dcMain mps (Period.primitivityOp none) J fuel q.2.1.toNat (rng q.1.text) q.1.count.toNat q.2.2⟩

/-- `main` of tinymt32dc, tinymt32dc.cpp:48-67; `sequence_max` is `0x7fffffff`. -/
def tinymt32dc (veq : ℕ → ℕ) : Run (Option (List TinyMT.Line)) :=
  ⟨emptied canOpen (readOpts (stepTiny 0x7fffffff) (init 0 10 0x7fffffff) evs),
    (parseTiny 0x7fffffff canOpen evs operands).map fun q =>
      TinyMT.dcMain mps (Period.primitivityOp none) veq (asInt q.1.count).toNat q.1.all q.1.max.toInt q.1.start q.2 fuel⟩

end

end MTT.Options
