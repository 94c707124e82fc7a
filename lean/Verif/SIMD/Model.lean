import Verif.PIS.Model
import Verif.Samples.W128

/-!
# Model of `samples/sfmtdc/AlgorithmSIMDEquidistribution.hpp`

The classes `simd_linear_generator_vector` and `AlgorithmSIMDEquidistribution` repeat the text of
`AlgorithmEquidistribution.hpp`; what is the same is taken from `MTT.PIS` (there `step` is `get_next`), what differs is
modelled here.  `DEBUG` code is omitted.
-/

namespace MTT.SIMD

open W128 PIS

/-- What the template parameter `SIMDGenerator` must have besides the operations of a linear generator. -/
structure SIMDOps (σ : Type) where
  gen : GenOps σ 128
  setStart : Int → σ → σ
  setWeight : Int → σ → σ

/-- `struct SIMDInfo`, lines 55-59. -/
structure Info where
  bitSize : Nat
  bitMode : Nat
  elementNo : Nat

/-- The two objects `info` of the callers, sfmtdc.cpp:119-131. -/
def info32 : Info := ⟨128, 32, 4⟩
def info64 : Info := ⟨128, 64, 2⟩

/-- The inner loop of `get_next`, lines 493-501 and 510-518, with `j` turns left.  (`k` is a position of the word
when `elementNo * bitSize ≤ 128`; outside `setBitOfPos` shifts by a negative amount, here it does nothing.) -/
def packInner {L : Nat} (lane : BitVec L) : Nat → BitVec L → W128 × Int → W128 × Int
  | 0, _, r => r
  | j + 1, mask, (next, k) =>
    packInner lane j (mask >>> 1)
      (if lane &&& mask ≠ 0 then ((setBitOfPos next k 1).getD next, k - 1)
        else ((setBitOfPos next k 0).getD next, k - 1))

/-- The outer loop of `get_next`, lines 491-502 and 508-519. -/
def packOuter {L : Nat} (lane : Nat → BitVec L) (top : BitVec L) (el v : Nat) (k : Int) : W128 :=
  ((List.range el).foldl (fun r i => packInner (lane i) v top r) (mk64 0 0, k)).1

/-- The word that `get_next` makes of an output word, lines 481-520. -/
def pack (info : Info) (lsb : Bool) (v : Nat) (w : W128) : W128 :=
  if info.bitMode = 32 then
    let w := if lsb then mk32 (Util.reverseBit32 (u w 0)) (Util.reverseBit32 (u w 1)) (Util.reverseBit32 (u w 2))
      (Util.reverseBit32 (u w 3)) else w
    packOuter (u w) 0x80000000 info.elementNo v (info.bitSize - 1)
  else
    let w := if lsb then mk64 (Util.reverseBit64 (u64 w 0)) (Util.reverseBit64 (u64 w 1)) else w
    packOuter (u64 w) 0x8000000000000000 info.elementNo v (info.bitSize - 1)

/-- The number of words from a number of blocks, lines 772-776. -/
def words (info : Info) (wm e : Nat) : Int :=
  if info.bitMode = 32 then (e : Int) * info.elementNo - ((info.elementNo : Int) - wm)
  else (e : Int) * info.elementNo - ((info.elementNo : Int) - wm / 2)

/-- The start modes and the weight modes, lines 739-747, 752, 756. -/
def startModes (info : Info) : List Nat :=
  if info.bitMode = 32 then List.range (info.bitSize / 32) else (List.range (info.bitSize / 32 / 2)).map (2 * ·)

def weightModes (info : Info) : List Nat := (startModes info).map (· + if info.bitMode = 32 then 1 else 2)

/-- What distinguishes the instances of the algorithm: the number of lanes, the word that `get_next` makes of an output
word, the modes that are tried and the number of words that is made of a number of blocks. -/
structure Alg where
  elementNo : Nat
  pack : Nat → W128 → W128
  starts : List Nat
  weights : List Nat
  words : Nat → Nat → Int

/-- The algorithm of `AlgorithmSIMDEquidistribution.hpp`. -/
def simdAlg (info : Info) (lsb : Bool) : Alg where
  elementNo := info.elementNo
  pack := pack info lsb
  starts := startModes info
  weights := weightModes info
  words := words info

/-- `struct DSFMTInfo`, samples/dSFMTdc/AlgorithmDSFMTEquidistribution.hpp:55-58, and the object of the callers,
dSFMTdc.cpp:122-124 and calc_equidist.cpp:60-62. -/
structure DInfo where
  bitSize : Nat
  elementNo : Nat

def dinfo : DInfo := ⟨128, 2⟩

/-- The word that `get_next` makes of an output word, AlgorithmDSFMTEquidistribution.hpp:475-490: bit 51 of a lane is
the first. -/
def packD (info : DInfo) (v : Nat) (w : W128) : W128 :=
  packOuter (u64 w) 0x0008000000000000 info.elementNo v (info.bitSize - 1)

/-- The algorithm of `AlgorithmDSFMTEquidistribution.hpp`: modes, lines 707-710, 715, 719; number of words, line 741.
(The rest is the text of the other file again: constructor 285-310 and 87-106, 130-150; `next_state` 516-536;
`get_equidist_main` 557-698; loops 700-773.  The object `work` is made anew for each `v` there, which is the same.) -/
def dsfmtAlg (info : DInfo) : Alg where
  elementNo := info.elementNo
  pack := packD info
  starts := List.range info.elementNo
  weights := (List.range info.elementNo).map (· + 1)
  words := fun wm e => (e : Int) * info.elementNo - (info.elementNo - wm)

section
variable {σ : Type} (G : SIMDOps σ) (A : Alg) (calc1pos : W128 → Int)

/-- `get_next`, lines 475-528. -/
def getNext (v : Nat) (s : σ) : σ × W128 := ((G.gen.generate s).1, A.pack v (G.gen.generate s).2)

/-- The constructor, lines 287-315 and 87-107, 128-152. -/
def construct (g : σ) (v : Nat) : Nat → Entry σ 128 := fun i =>
  if i < v * A.elementNo then
    { rand := G.gen.setZero g, count := 0, zero := false, next := 1#128 <<< (128 - i - 1) }
  else
    nextState (getNext G A v) G.gen.bitSize { rand := g, count := 0, zero := false, next := 0 }

/-- The minimum of the counters, lines 698-707: entries that are zero are passed over. -/
def minCount (b : Nat → Entry σ 128) (m : Nat) : Nat :=
  (List.range (m - 1)).foldl (fun mn i =>
    if (b (i + 1)).zero then mn
    else if mn > (b (i + 1)).count then (b (i + 1)).count else mn) (b 0).count

/-- `AlgorithmSIMDEquidistribution(work, v, info, stateBitSize, lsb).get_equidist(v)`, lines 444-448, 587-729. -/
def getEquidist (stateBitSize fuel : Nat) (work : σ) (v : Nat) : Except PisError Nat :=
  let m := v * A.elementNo
  let b := construct G A work v
  match mainLoop (getNext G A v) G.gen.add G.gen.bitSize calc1pos m fuel b (calc1pos (b m).next) with
  | .error e => .error e
  | .ok b' => if minCount b' m > stateBitSize / m then .error .overTheoreticalBound else .ok (minCount b' m)

/-- The loop over `v`, lines 765-794: `v` is `i + 1`. -/
def vLoop (fuel mexp bitLen wm : Nat) (work : σ) (vw : Nat → Int) : Except PisError (Nat → Int) :=
  (List.range bitLen).foldlM (fun (vw : Nat → Int) i =>
    match getEquidist G A calc1pos G.gen.bitSize fuel work (i + 1) with
    | .error e => .error e
    | .ok e =>
      let e := A.words wm e
      if e > (mexp / (i + 1) : Nat) then .error .overTheoreticalBound
      else .ok (if e > vw i then Function.update vw i e else vw)) vw

/-- The loop over the weight modes, lines 756-795. -/
def wLoop (fuel mexp bitLen sm : Nat) (rand : σ) (wms : List Nat) (vw : Nat → Int) : Except PisError (Nat → Int) :=
  wms.foldlM (fun vw wm =>
    vLoop G A calc1pos fuel mexp bitLen wm
      (G.gen.generate (G.setWeight wm (G.setStart sm rand))).1 vw) vw

/-- The loop over the start modes, lines 752-802. -/
def sLoop (fuel mexp bitLen : Nat) (rand : σ) (sms : List Nat) (veq : Nat → Int) : Except PisError (Nat → Int) :=
  sms.foldlM (fun veq sm =>
    match wLoop G A calc1pos fuel mexp bitLen sm rand A.weights
        (fun i => if i < bitLen then -1 else 0) with
    | .error e => .error e
    | .ok vw => .ok ((List.range bitLen).foldl (fun (veq : Nat → Int) i =>
        if veq i > vw i then Function.update veq i (vw i) else veq) veq)) veq

/-- `calc_SIMD_equidistribution`, lines 731-808: the array `veq` and the sum.  `veq0` is the content of the array
before; `INT_MAX` is `2^31 - 1`. -/
def calcSIMD (fuel mexp bitLen : Nat) (rand : σ) (veq0 : Nat → Int) : Except PisError ((Nat → Int) × Int) :=
  match sLoop G A calc1pos fuel mexp bitLen rand A.starts
      (fun i => if i < bitLen then 2147483647 else veq0 i) with
  | .error e => .error e
  | .ok veq => .ok (veq, (List.range bitLen).foldl (fun (sum : Int) i => sum + ((mexp / (i + 1) : Nat) - veq i)) 0)

end

end MTT.SIMD
