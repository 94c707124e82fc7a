import Verif.PIS.Model
import Verif.Samples.W128

/-!
# Model of `class sfmt` (`samples/sfmtdc/sfmtsearch.hpp`)

The array of 128-bit words is a function of the index; the accesses of the code are reduced modulo `size` or run from
0 to `size - 1`.  `none` is undefined behaviour or a value that is not specified.  The shift amounts of the
recursion are those that `setUpParam` chooses (`sl1`, `sr1` from 1 to 31, `sl2`, `sr2` odd from 1 to 7); other
amounts, which the constructor with parameters accepts, are undefined in C++ where `MTT.SFMT.Inv` excludes them.
-/

namespace MTT.SFMT

open W128

/-- Parameters, sfmtsearch.hpp:49-64, without the exponent. -/
structure Par where
  pos1 : Nat
  sl1 : Nat
  sl2 : Nat
  sr1 : Nat
  sr2 : Nat
  msk1 : BitVec 32
  msk2 : BitVec 32
  msk3 : BitVec 32
  msk4 : BitVec 32

/-- Object, sfmtsearch.hpp:639-646. -/
structure St where
  mexp : Nat
  size : Nat
  index : Nat
  startMode : Int
  weightMode : Int
  state : Nat → W128
  param : Par
  parity1 : BitVec 32
  parity2 : BitVec 32
  parity3 : BitVec 32
  parity4 : BitVec 32
  rev : Bool
  previous : W128

/-- Constructor by exponent, sfmtsearch.hpp:170-193; `junk` is the uninitialised array. -/
def ctor (mexp : Nat) (junk : Nat → W128) : St :=
  ⟨mexp, mexp / 128 + 1, 0, 0, 4, junk, ⟨0, 0, 0, 0, 0, 0, 0, 0, 0⟩, 0, 0, 0, 0, false, mk64 0 0⟩

/-- Constructor by parameters, sfmtsearch.hpp:220-234. -/
def ctorPar (mexp : Nat) (p : Par) (p1 p2 p3 p4 : BitVec 32) : St :=
  ⟨mexp, mexp / 128 + 1, 0, 0, 4, fun _ => mk64 0 0, p, p1, p2, p3, p4, false, mk64 0 0⟩

/-- `x.u[j] = v`. -/
def setU (x : W128) (j : Nat) (v : BitVec 32) : W128 :=
  mk32 (if j = 0 then v else u x 0) (if j = 1 then v else u x 1) (if j = 2 then v else u x 2)
    (if j = 3 then v else u x 3)

/-- `setZero`, sfmtsearch.hpp:483-492. -/
def setZero (s : St) : St :=
  { s with state := (List.range s.size).foldl (fun a i => Function.update a i (mk64 0 0)) s.state,
           index := 0, previous := mk64 0 0 }

/-- The loop of `seed`, sfmtsearch.hpp:249-253, over the array of 32-bit words `pstate`; `k` turns left. -/
def seedLoop : Nat → Nat → (Nat → W128) → (Nat → W128)
  | 0, _, m => m
  | k + 1, i, m =>
    let p := u (m ((i - 1) / 4)) ((i - 1) % 4)
    let q := u (m (i / 4)) (i % 4)
    seedLoop k (i + 1) (Function.update m (i / 4)
      (setU (m (i / 4)) (i % 4) (q ^^^ (BitVec.ofNat 32 i + 1812433253 * (p ^^^ (p >>> 30))))))

/-- `seed`, sfmtsearch.hpp:245-257. -/
def seed (v : W128) (s : St) : St :=
  let s := setZero s
  { s with state := seedLoop (s.size * 4 - 1) 1 (Function.update s.state 0 v), index := 0, previous := mk64 0 0 }

/-- `rshift128`, sfmtsearch.hpp:259-272. -/
def rshift128 (x : W128) (shift : Nat) : W128 :=
  let th := ((u x 3).setWidth 64 <<< 32) ||| (u x 2).setWidth 64
  let tl := ((u x 1).setWidth 64 <<< 32) ||| (u x 0).setWidth 64
  let oh := th >>> (shift * 8)
  let ol := tl >>> (shift * 8)
  let ol := ol ||| (th <<< (64 - shift * 8))
  mk32 (ol.setWidth 32) ((ol >>> 32).setWidth 32) (oh.setWidth 32) ((oh >>> 32).setWidth 32)

/-- `lshift128`, sfmtsearch.hpp:274-287. -/
def lshift128 (x : W128) (shift : Nat) : W128 :=
  let th := ((u x 3).setWidth 64 <<< 32) ||| (u x 2).setWidth 64
  let tl := ((u x 1).setWidth 64 <<< 32) ||| (u x 0).setWidth 64
  let oh := th <<< (shift * 8)
  let ol := tl <<< (shift * 8)
  let oh := oh ||| (tl >>> (64 - shift * 8))
  mk32 (ol.setWidth 32) ((ol >>> 32).setWidth 32) (oh.setWidth 32) ((oh >>> 32).setWidth 32)

/-- `do_recursion`, sfmtsearch.hpp:289-304: the new word.  (`r` is the same object as `a`; `x` and `y` are computed
before and each word of `a` is read before that word of `r` is written.) -/
def doRecursion (p : Par) (a b c d : W128) : W128 :=
  let x := lshift128 a p.sl2
  let y := rshift128 c p.sr2
  mk32 (u a 0 ^^^ u x 0 ^^^ ((u b 0 >>> p.sr1) &&& p.msk1) ^^^ u y 0 ^^^ (u d 0 <<< p.sl1))
    (u a 1 ^^^ u x 1 ^^^ ((u b 1 >>> p.sr1) &&& p.msk2) ^^^ u y 1 ^^^ (u d 1 <<< p.sl1))
    (u a 2 ^^^ u x 2 ^^^ ((u b 2 >>> p.sr1) &&& p.msk3) ^^^ u y 2 ^^^ (u d 2 <<< p.sl1))
    (u a 3 ^^^ u x 3 ^^^ ((u b 3 >>> p.sr1) &&& p.msk4) ^^^ u y 3 ^^^ (u d 3 <<< p.sl1))

/-- `next_state`, sfmtsearch.hpp:309-317.  (With the parameters of `MTT.SFMT.Inv` the words `b`, `c`, `d` are not
the word that is written.) -/
def nextState (s : St) : St :=
  let index := (s.index + 1) % s.size
  { s with index := index,
           state := Function.update s.state index (doRecursion s.param (s.state index)
             (s.state ((index + s.param.pos1) % s.size)) (s.state ((index + s.size - 2) % s.size))
             (s.state ((index + s.size - 1) % s.size))) }

/-- The `switch (start_mode)` of `generate`, sfmtsearch.hpp:334-360: `y` is `state[p]`, `z` is `state[index]`. -/
def select (mode : Int) (y z : W128) : W128 :=
  if mode = 0 then mk32 (u z 0) (u z 1) (u z 2) (u z 3)
  else if mode = 1 then mk32 (u y 1) (u y 2) (u y 3) (u z 0)
  else if mode = 2 then mk32 (u y 2) (u y 3) (u z 0) (u z 1)
  else mk32 (u y 3) (u z 0) (u z 1) (u z 2)

/-- The `switch (weight_mode)` of `generate`, sfmtsearch.hpp:386-409. -/
def merge (mode : Int) (r previous : W128) : W128 :=
  if mode = 4 then r
  else if mode = 3 then mk32 (u r 0) (u r 1) (u r 2) (u previous 3)
  else if mode = 2 then mk32 (u r 0) (u r 1) (u previous 2) (u previous 3)
  else mk32 (u r 0) (u previous 1) (u previous 2) (u previous 3)

/-- `generate()`, sfmtsearch.hpp:323-420. -/
def generate (s : St) : St × W128 :=
  let s := nextState s
  let index := s.index % s.size
  let p := (index + s.size - 1) % s.size
  let r := select s.startMode (s.state p) (s.state index)
  let r2 := merge s.weightMode r s.previous
  ({ s with index := index, previous := r }, r2)

/-- `setStartMode`, sfmtsearch.hpp:422-424. -/
def setStartMode (mode : Int) (s : St) : St := { s with startMode := mode }

/-- `setWeightMode`, sfmtsearch.hpp:430-434. -/
def setWeightMode (mode : Int) (s : St) : St := { s with weightMode := mode, previous := mk64 0 0 }

/-- `generate(int bit_len)`, sfmtsearch.hpp:446-455.  (`make_msb_mask` is defined for the lengths 0 to 128; the
value for other lengths is arbitrary.) -/
def generateV (v : Nat) (s : St) : St × W128 :=
  let r := generate s
  let w := if s.rev then reverseBit r.2 else r.2
  (r.1, andMask w ((makeMsbMask v).getD 0))

/-- `setUpParam`, sfmtsearch.hpp:462-481 (without `SFMT_PARAM_FIXED`); `r i` is number `i` delivered by the
parameter source (the two operands of each `|` in either order).  `none`: division by zero. -/
def setUpParam (r : Nat → BitVec 32) (s : St) : Option St :=
  if s.size = 2 then none
  else some { s with param := ⟨((r 0) % (BitVec.ofNat 32 s.size - 2) + 1).toInt.toNat, ((r 1) % (32 - 1) + 1).toNat,
      (((r 2) % 4) * 2 + 1).toNat, ((r 3) % (32 - 1) + 1).toNat, (((r 4) % 4) * 2 + 1).toNat,
      r 5 ||| r 6, r 7 ||| r 8, r 9 ||| r 10, r 11 ||| r 12⟩ }

/-- `isZero`, sfmtsearch.hpp:499-520. -/
def isZero (s : St) : Bool :=
  ((List.range s.size).all fun i => u64 (s.state i) 0 == 0 && u64 (s.state i) 1 == 0) &&
  (if s.weightMode = 4 then true
   else if s.weightMode = 3 then u s.previous 3 == 0
   else if s.weightMode = 2 then u s.previous 2 == 0 && u s.previous 3 == 0
   else u s.previous 1 == 0 && u s.previous 2 == 0 && u s.previous 3 == 0)

/-- `setParityValue`, sfmtsearch.hpp:522-528. -/
def setParityValue (v : W128) (s : St) : St :=
  { s with state := Function.update s.state s.index v,
           parity1 := u v 0, parity2 := u v 1, parity3 := u v 2, parity4 := u v 3 }

/-- `getParityValue`, sfmtsearch.hpp:530-532. -/
def getParityValue (s : St) : W128 := s.state s.index

/-- `x.u64[j] = v`. -/
def setU64 (x : W128) (j : Nat) (v : BitVec 64) : W128 :=
  mk64 (if j = 0 then v else u64 x 0) (if j = 1 then v else u64 x 1)

/-- `setOneBit`, sfmtsearch.hpp:534-540 (`bitPos` from 0 to `bitSize() - 1`). -/
def setOneBit (bitPos : Nat) (s : St) : St :=
  let s := setZero s
  { s with state := Function.update s.state (bitPos / 128)
             (setU64 (s.state (bitPos / 128)) ((bitPos / 64) % 2) ((1 : BitVec 64) <<< (bitPos % 64))) }

/-- `add`, sfmtsearch.hpp:549-562 (the argument has the same class). -/
def add (s t : St) : St :=
  { s with state := (List.range s.size).foldl (fun a i => Function.update a ((i + s.index) % s.size)
             (mk64 (u64 (a ((i + s.index) % s.size)) 0 ^^^ u64 (t.state ((i + t.index) % s.size)) 0)
               (u64 (a ((i + s.index) % s.size)) 1 ^^^ u64 (t.state ((i + t.index) % s.size)) 1))) s.state,
           previous := xorEq s.previous t.previous }

/-- The inner loop of `periodCertification`, sfmtsearch.hpp:616-622: the value of `work` at the first set bit of
`parity.u[i]`; `k` turns left. -/
def firstBit (par : BitVec 32) : Nat → BitVec 32 → Option (BitVec 32)
  | 0, _ => none
  | k + 1, work => if (work &&& par) ≠ 0 then some work else firstBit par k (work <<< 1)

/-- The loop of `periodCertification`, sfmtsearch.hpp:614-624, on the words `par i`; `k` turns left. -/
def flipLoop (par : Nat → BitVec 32) : Nat → Nat → W128 → W128
  | 0, _, x => x
  | k + 1, i, x =>
    match firstBit (par i) 32 1 with
    | some work => setU x i (u x i ^^^ work)
    | none => flipLoop par k (i + 1) x

/-- `periodCertification`, sfmtsearch.hpp:595-625: the new object and the value returned. -/
def periodCertification (s : St) : St × Nat :=
  let parity := mk32 s.parity1 s.parity2 s.parity3 s.parity4
  let tmp := W128.and (s.state 0) parity
  let c := Util.countBit32 (u tmp 0) + Util.countBit32 (u tmp 1) + Util.countBit32 (u tmp 2) +
    Util.countBit32 (u tmp 3)
  if c % 2 = 1 then (s, 1)
  else if (u parity 0 &&& 1) = 1 then
    ({ s with state := Function.update s.state 0 (setU (s.state 0) 0 (u (s.state 0) 0 ^^^ 1)) }, 0)
  else ({ s with state := Function.update s.state 0 (flipLoop (u parity) 4 0 (s.state 0)) }, 0)

/-- The interface of the class; `bitSize` is sfmtsearch.hpp:568-570. -/
def ops (n : Nat) : GenOps St 128 where
  generate := generate
  generateV := generateV
  add := add
  setZero := setZero
  isZero := isZero
  bitSize := n * 128

end MTT.SFMT
