import Verif.PIS.Model
import Verif.Util.Model

/-!
# Model of `class RMT64Search` (`samples/RMT/rmt64.hpp`)

The word array is a function of the index; the accesses of the code are reduced modulo `size` or run from 0 to
`size - 1`, so they stay inside the array as soon as `size` is positive and `index`, `pos` are not negative.
-/

namespace MTT.RMT

/-- Object, rmt64.hpp:255-264. -/
structure St where
  mexp : Nat
  size : Nat
  rev : Bool
  pos : Nat
  mata : BitVec 64
  parity : BitVec 64
  maskb : BitVec 64
  maskc : BitVec 64
  state : Nat → BitVec 64
  index : Nat

/-- `seed`, rmt64.hpp:170-178: the loop, `k` turns left, next index `i`. -/
def seedLoop : Nat → Nat → (Nat → BitVec 64) → (Nat → BitVec 64)
  | 0, _, m => m
  | k + 1, i, m =>
    let p := m (i - 1)
    seedLoop k (i + 1)
      (Function.update m i (BitVec.ofNat 64 i + 6364136223846793005 * (p ^^^ (p >>> 62))))

/-- `seed`, rmt64.hpp:170-178. -/
def seed (v : BitVec 64) (s : St) : St :=
  { s with state := seedLoop (s.size - 1) 1 (Function.update s.state 0 v), index := s.size - 1 }

/-- The first constructor, rmt64.hpp:22-31; `junk…` is what is not initialised. -/
def ctor (mexp : Nat) (v : BitVec 64) (junkPos : Nat) (junkA : BitVec 64) (junk : Nat → BitVec 64) : St :=
  seed v ⟨mexp, mexp / 64 + 1, false, junkPos, junkA, 0, 0, 0, junk, 0⟩

/-- The constructor with parameters, rmt64.hpp:47-59. -/
def ctorPar (mexp pos : Nat) (mata mb mc v : BitVec 64) (junk : Nat → BitVec 64) : St :=
  seed v ⟨mexp, mexp / 64 + 1, false, pos, mata, 0, mb, mc, junk, 0⟩

/-- `generate()`, rmt64.hpp:82-98. -/
def generate (s : St) : St × BitVec 64 :=
  let index := (s.index + 1) % s.size
  let x := s.state index
  let y := s.state ((index + s.pos) % s.size)
  let y := y ^^^ (y <<< 17)
  let x := y ^^^ (x >>> 1) ^^^ (if (x &&& 1) = 1 then s.mata else 0)
  let s := { s with index := index, state := Function.update s.state index x }
  let x := x ^^^ ((x >>> 29) &&& 0x5555555555555555)
  let x := x ^^^ ((x <<< 17) &&& s.maskb)
  let x := x ^^^ ((x <<< 37) &&& s.maskc)
  let x := x ^^^ (x >>> 43)
  (s, x)

/-- `generate(int outBitLen)`, rmt64.hpp:100-110 (`outBitLen` from 1 to 64). -/
def generateV (v : Nat) (s : St) : St × BitVec 64 :=
  let r := generate s
  let u := if s.rev then Util.reverseBit64 r.2 else r.2
  let mask := (~~~ (0 : BitVec 64)) <<< (64 - v)
  (r.1, u &&& mask)

/-- `getParityValue`, rmt64.hpp:112-114. -/
def getParityValue (s : St) : BitVec 64 := s.state (s.index % s.size)

/-- `setParityValue`, rmt64.hpp:116-119. -/
def setParityValue (v : BitVec 64) (s : St) : St :=
  { s with state := Function.update s.state (s.index % s.size) v, parity := v }

/-- `isZero`, rmt64.hpp:138-145. -/
def isZero (s : St) : Bool := (List.range s.size).all fun i => s.state i == 0

/-- `setZero`, rmt64.hpp:147-152. -/
def setZero (s : St) : St :=
  { s with state := (List.range s.size).foldl (fun a i => Function.update a i 0) s.state, index := s.size - 1 }

/-- The value of the `int` expression `1 << r` converted to `uint64_t`; `none`: undefined (`r` is at least the
width of `int`).  `1 << 31` is taken to be the negative number it is on every compiler in use (and by the
standard since C++20). -/
def intOneShift (r : Nat) : Option (BitVec 64) :=
  if r < 32 then some (((1 : BitVec 32) <<< r).signExtend 64) else none

/-- `setOneBit`, rmt64.hpp:121-136 (`bitPos` not negative). -/
def setOneBit (bitPos : Nat) (s : St) : Option St :=
  let s := setZero s
  let idx := bitPos / 64
  let r := bitPos % 64
  if idx ≥ s.size then some s
  else
    match intOneShift r with
    | none => none
    | some v => some { s with state := Function.update s.state idx v }

/-- `add`, rmt64.hpp:154-164 (the argument has the same class, so the cast succeeds). -/
def add (s t : St) : St :=
  { s with state := (List.range s.size).foldl (fun a i => Function.update a ((s.index + i) % s.size)
      (a ((s.index + i) % s.size) ^^^ t.state ((t.index + i) % s.size))) s.state }

/-- `setUpParam`, rmt64.hpp:188-192; `r1`, `r2` are the numbers delivered by the parameter source. -/
def setUpParam (r1 r2 : BitVec 64) (s : St) : St := { s with pos := r1.toNat % s.size, mata := r2 }

/-- The masks after `getParamString`, rmt64.hpp:198-202 (it changes the object). -/
def getParamString (s : St) : St :=
  { s with maskb := (s.maskb >>> 17) <<< 17, maskc := (s.maskc >>> 37) <<< 37 }

/-- `setTemperingPattern`, rmt64.hpp:213-221. -/
def setTemperingPattern (mask pattern : BitVec 64) (src_bit : Nat) (s : St) : St :=
  if src_bit = 0 then { s with maskb := (s.maskb &&& ~~~ mask) ||| (pattern &&& mask) }
  else { s with maskc := (s.maskc &&& ~~~ mask) ||| (pattern &&& mask) }

/-- `setUpTempering`, rmt64.hpp:223-224. -/
def setUpTempering (s : St) : St := s

/-- `setReverseOutput`, `resetReverseOutput`, rmt64.hpp:226-232. -/
def setReverse (s : St) : St := { s with rev := true }
def resetReverse (s : St) : St := { s with rev := false }

/-- The interface of the class; `bitSize` is rmt64.hpp:180-182. -/
def ops (n : Nat) : GenOps St 64 where
  generate := generate
  generateV := generateV
  add := add
  setZero := setZero
  isZero := isZero
  bitSize := n * 64

end MTT.RMT
