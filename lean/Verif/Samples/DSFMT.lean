import Verif.Samples.SFMT

/-!
# Model of `class dSFMT` (`samples/dSFMTdc/dSFMTsearch.hpp`)

The array of 128-bit words is a function of the index; the accesses of the code are reduced modulo `size` or run from
0 to `size - 1`.  `none` is undefined behaviour or a value that is not specified.  Output of parameters is not
modelled.
-/

namespace MTT.DSFMT

open W128
open SFMT (setU64)

/-- Parameters of the recursion, dSFMTsearch.hpp:49-53. -/
structure Par where
  pos1 : Nat
  sl1 : Nat
  msk1 : BitVec 64
  msk2 : BitVec 64

/-- Object, dSFMTsearch.hpp:630-640, with the remaining parameters of dSFMTsearch.hpp:54-57. -/
structure St where
  mexp : Nat
  fixedSL1 : Nat
  fixed : Bool
  size : Nat
  index : Nat
  startMode : Int
  weightMode : Int
  state : Nat → W128
  lung : W128
  param : Par
  fix1 : BitVec 64
  fix2 : BitVec 64
  parity1 : BitVec 64
  parity2 : BitVec 64
  previous : W128
  pfx : BitVec 64

/-- Constructor by exponent, dSFMTsearch.hpp:149-169, for `mexp ≥ 128`; `junk` is the uninitialised array. -/
def ctor (mexp : Nat) (junk : Nat → W128) : St :=
  ⟨mexp, 0, false, (mexp - 128) / 104 + 1, 0, 0, 2, junk, mk64 0 0, ⟨0, 0, 0, 0⟩, 0, 0, 0, 0, mk64 0 0, 0⟩

/-- Constructor by parameters, dSFMTsearch.hpp:199-217, for `mexp ≥ 128`. -/
def ctorPar (mexp : Nat) (p : Par) (f1 f2 p1 p2 : BitVec 64) : St :=
  ⟨mexp, 0, false, (mexp - 128) / 104 + 1, 0, 0, 2, fun _ => mk64 0 0, mk64 0 0, p, f1, f2, p1, p2, mk64 0 0, 0⟩

/-- `setup_prefix`, dSFMTsearch.hpp:616-628. -/
def setupPrefix (s : St) : St :=
  let clear : BitVec 64 := 0x000fffffffffffff
  let a := (List.range s.size).foldl (fun a i =>
    Function.update a i (mk64 (u64 (a i) 0 &&& clear) (u64 (a i) 1 &&& clear))) s.state
  { s with state := if s.pfx ≠ 0 then (List.range s.size).foldl (fun a i =>
      Function.update a i (mk64 (u64 (a i) 0 ||| s.pfx) (u64 (a i) 1 ||| s.pfx))) a else a }

/-- The loop of `seed`, dSFMTsearch.hpp:236-240; `k` turns left. -/
def seedLoop : Nat → Nat → (Nat → BitVec 64) → (Nat → BitVec 64)
  | 0, _, p => p
  | k + 1, i, p => seedLoop k (i + 1) (Function.update p i
      (p i ^^^ (BitVec.ofNat 64 i + 6364136223846793005 * (p (i - 1) ^^^ (p (i - 1) >>> 62)))))

/-- `seed`, dSFMTsearch.hpp:228-252. -/
def seed (v : W128) (s : St) : St :=
  let p := seedLoop ((s.size + 1) * 2 - 1) 1 (Function.update (Function.update (fun _ => 0) 0 (u64 v 0)) 1 (u64 v 1))
  setupPrefix { s with
    state := (List.range s.size).foldl (fun a i => Function.update a i (mk64 (p (i * 2)) (p (i * 2 + 1)))) s.state,
    lung := mk64 (p (s.size * 2)) (p (s.size * 2 + 1)), index := 0, previous := mk64 0 0 }

/-- `do_recursion`, dSFMTsearch.hpp:254-272: the new word and the new lung (`sr1` is 12, dSFMTsearch.hpp:629). -/
def doRecursion (p : Par) (a b lung : W128) : W128 × W128 :=
  let t0 := u64 a 0
  let t1 := u64 a 1
  let L0 := u64 lung 0
  let L1 := u64 lung 1
  let l0 := (t0 <<< p.sl1) ^^^ (L1 >>> 32) ^^^ (L1 <<< 32) ^^^ u64 b 0
  let l1 := (t1 <<< p.sl1) ^^^ (L0 >>> 32) ^^^ (L0 <<< 32) ^^^ u64 b 1
  let r0 := (l0 >>> 12) ^^^ (l0 &&& p.msk1) ^^^ t0
  let r1 := (l1 >>> 12) ^^^ (l1 &&& p.msk2) ^^^ t1
  (mk64 r0 r1, mk64 l0 l1)

/-- `next_state`, dSFMTsearch.hpp:277-283. -/
def nextState (s : St) : St :=
  let index := (s.index + 1) % s.size
  let r := doRecursion s.param (s.state index) (s.state ((index + s.param.pos1) % s.size)) s.lung
  { s with index := index, state := Function.update s.state index r.1, lung := r.2 }

/-- The `switch (start_mode)` of `generate`, dSFMTsearch.hpp:294-304: `y` is `state[p]`, `z` is `state[index]`. -/
def select (mode : Int) (y z : W128) : W128 :=
  if mode = 0 then mk64 (u64 z 0) (u64 z 1) else mk64 (u64 y 1) (u64 z 0)

/-- The `switch (weight_mode)` of `generate`, dSFMTsearch.hpp:313-322. -/
def merge (mode : Int) (r previous : W128) : W128 :=
  if mode = 2 then r else mk64 (u64 r 0) (u64 previous 1)

/-- `generate()`, dSFMTsearch.hpp:289-332. -/
def generate (s : St) : St × W128 :=
  let s := nextState s
  let index := s.index % s.size
  let p := (index + s.size - 1) % s.size
  let r := select s.startMode (s.state p) (s.state index)
  let r2 := merge s.weightMode r s.previous
  ({ s with index := index, previous := r }, r2)

/-- `setStartMode`, dSFMTsearch.hpp:334-336. -/
def setStartMode (mode : Int) (s : St) : St := { s with startMode := mode }

/-- `setWeightMode`, dSFMTsearch.hpp:342-346. -/
def setWeightMode (mode : Int) (s : St) : St := { s with weightMode := mode, previous := mk64 0 0 }

/-- `generate(int bit_len)`, dSFMTsearch.hpp:359-371.  (`make_msb_mask` is defined for the lengths 0 to 128; the
value for other lengths is arbitrary.) -/
def generateV (v : Nat) (s : St) : St × W128 :=
  let r := generate s
  (r.1, andMask r.2 ((makeMsbMask v).getD 0))

/-- `setUpParam`, dSFMTsearch.hpp:378-391; `r i` is number `i` delivered by the parameter source (the two operands of
each `|` in either order).  `none`: division by zero. -/
def setUpParam (r : Nat → BitVec 64) (s : St) : Option St :=
  if s.size = 2 then none
  else
    let pos1 := ((r 0) % (BitVec.ofNat 64 s.size - 2) + 1).toNat
    let k := if s.fixed then 1 else 2
    let sl1 := if s.fixed then s.fixedSL1 else ((r 1) % (52 - 1) + 1).toNat
    some { s with param := ⟨pos1, sl1, (r k ||| r (k + 1)) &&& 0x000fffffffffffff,
      (r (k + 2) ||| r (k + 3)) &&& 0x000fffffffffffff⟩ }

/-- `setZero`, dSFMTsearch.hpp:393-404. -/
def setZero (s : St) : St :=
  { s with state := (List.range s.size).foldl (fun a i => Function.update a i (mk64 0 0)) s.state,
           lung := mk64 0 0, index := 0, previous := mk64 0 0 }

/-- `isZero`, dSFMTsearch.hpp:411-429. -/
def isZero (s : St) : Bool :=
  ((List.range s.size).all fun i => u64 (s.state i) 0 == 0 && u64 (s.state i) 1 == 0) &&
  (u64 s.lung 0 == 0 && u64 s.lung 1 == 0) &&
  (if s.weightMode = 2 then true else u s.previous 1 == 0)

/-- `setParityValue`, dSFMTsearch.hpp:431-435. -/
def setParityValue (v : W128) (s : St) : St := { s with lung := v, parity1 := u64 v 0, parity2 := u64 v 1 }

/-- `getParityValue`, dSFMTsearch.hpp:437-439. -/
def getParityValue (s : St) : W128 := s.lung

/-- `setOneBit`, dSFMTsearch.hpp:441-454 (`bitPos` from 0 to `bitSize() - 1`). -/
def setOneBit (bitPos : Nat) (s : St) : St :=
  let s := setZero s
  if bitPos < s.size * 104 then
    { s with state := Function.update s.state (bitPos / 104)
               (setU64 (s.state (bitPos / 104)) ((bitPos / 52) % 2) ((1 : BitVec 64) <<< (bitPos % 52))) }
  else
    { s with lung := setU64 s.lung (((bitPos - s.size * 104) / 64) % 2)
               ((1 : BitVec 64) <<< ((bitPos - s.size * 104) % 64)) }

/-- `add`, dSFMTsearch.hpp:463-481 (the argument has the same class). -/
def add (s t : St) : St :=
  { s with state := (List.range s.size).foldl (fun a i => Function.update a ((i + s.index) % s.size)
             (mk64 (u64 (a ((i + s.index) % s.size)) 0 ^^^ u64 (t.state ((i + t.index) % s.size)) 0)
               (u64 (a ((i + s.index) % s.size)) 1 ^^^ u64 (t.state ((i + t.index) % s.size)) 1))) s.state,
           lung := xorEq s.lung t.lung,
           previous := xorEq s.previous t.previous }

/-- `setPrefix`, dSFMTsearch.hpp:515-517. -/
def setPrefix (p : BitVec 64) (s : St) : St := { s with pfx := p }

/-- `setConst`, dSFMTsearch.hpp:519-531. -/
def setConst (s : St) : St :=
  let high : BitVec 64 := 0x3ff0000000000000
  let tmp := s
  let tmp := setZero tmp
  let tmp := setPrefix high tmp
  let tmp := setupPrefix tmp
  let tmp := nextState tmp
  let s := setZero s
  let s := setPrefix high s
  let s := setupPrefix s
  let s := add s tmp
  setPrefix 0 s

/-- `equals`, dSFMTsearch.hpp:533-547. -/
def equals (s t : St) : Bool :=
  !(u64 s.lung 0 != u64 t.lung 0 || u64 s.lung 1 != u64 t.lung 1) &&
  (List.range s.size).all fun i =>
    !(u64 (s.state ((s.index + i) % s.size)) 0 != u64 (t.state ((t.index + i) % s.size)) 0) &&
    !(u64 (s.state ((s.index + i) % s.size)) 1 != u64 (t.state ((t.index + i) % s.size)) 1)

/-- `setFixPoint`, dSFMTsearch.hpp:549-552. -/
def setFixPoint (v : W128) (s : St) : St := { s with fix1 := u64 v 0, fix2 := u64 v 1 }

/-- The inner loop of `periodCertification`, dSFMTsearch.hpp:595-602: the value of `work` at the first set bit of
`parity.u64[i]`; `k` turns left. -/
def firstBit (par : BitVec 64) : Nat → BitVec 64 → Option (BitVec 64)
  | 0, _ => none
  | k + 1, work => if (work &&& par) ≠ 0 then some work else firstBit par k (work <<< 1)

/-- The outer loop, dSFMTsearch.hpp:594-604: `i + 1` turns left, the next with index `i`. -/
def flipLoop (par : Nat → BitVec 64) : Nat → W128 → W128
  | 0, x => x
  | i + 1, x =>
    match firstBit (par i) 64 1 with
    | some work => setU64 x i (u64 x i ^^^ work)
    | none => flipLoop par i x

/-- `periodCertification`, dSFMTsearch.hpp:570-605: the new object and the value returned. -/
def periodCertification (noFix : Bool) (s : St) : St × Nat :=
  let parity := mk64 s.parity1 s.parity2
  let fix := mk64 s.fix1 s.fix2
  let tmp := if noFix then W128.and s.lung parity else W128.and (W128.xor s.lung fix) parity
  let c := (Util.countBit64 (u64 tmp 0) + Util.countBit64 (u64 tmp 1)) % 2
  if c = 1 then (s, 1)
  else if (u64 parity 1 &&& 1) = 1 then ({ s with lung := setU64 s.lung 1 (u64 s.lung 1 ^^^ 1) }, 0)
  else ({ s with lung := flipLoop (u64 parity) 2 s.lung }, 0)

/-- The interface of the class; `bitSize` is dSFMTsearch.hpp:487-489. -/
def ops (n : Nat) : GenOps St 128 where
  generate := generate
  generateV := generateV
  add := add
  setZero := setZero
  isZero := isZero
  bitSize := n * 104 + 128

end MTT.DSFMT
