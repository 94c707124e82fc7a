import Verif.PIS.Model
import Verif.Util.Model

/-!
# Model of `class MT32Search` (`samples/MTDC/mt2.cpp`)

The word array is a function of the index; every access of the code is reduced modulo `size`, so it stays
inside the array as soon as `size` is positive (and indices are not negative).
-/

namespace MTT.MTDC

/-- Object, mt2.cpp:213-227 and constructors 25-56. -/
structure St where
  mexp : Nat
  size : Nat
  index : Nat
  state : Nat → BitVec 32
  pos : Nat
  mata : BitVec 32
  maskb : BitVec 32
  maskc : BitVec 32
  upper : BitVec 32
  lower : BitVec 32
  id : Int
  rev : Bool

/-- `seed`, mt2.cpp:136-144: the loop, `k` turns left, next index `i`. -/
def seedLoop : Nat → Nat → (Nat → BitVec 32) → (Nat → BitVec 32)
  | 0, _, m => m
  | k + 1, i, m =>
    let p := m (i - 1)
    seedLoop k (i + 1) (Function.update m i (1812433253 * (p ^^^ (p >>> 30)) + BitVec.ofNat 32 i))

/-- `seed`, mt2.cpp:136-144. -/
def seed (v : BitVec 32) (s : St) : St :=
  { s with state := seedLoop (s.size - 1) 1 (Function.update s.state 0 v), index := s.size - 1 }

/-- The first constructor, mt2.cpp:25-38; `junk` is what is not initialised (`pos`, `mata`, the array).
`none`: `(~upper_mask) << r` with `r = 32`. -/
def ctor (mexp : Nat) (id : Int) (v : BitVec 32) (junkPos : Nat) (junkA : BitVec 32)
    (junk : Nat → BitVec 32) : Option St :=
  let size := mexp / 32 + 1
  let r := size * 32 - mexp
  if r < 32 then
    let upper : BitVec 32 := (~~~ (0 : BitVec 32)) <<< r
    some (seed v ⟨mexp, size, 0, junk, junkPos, junkA, 0, 0, upper, ~~~ upper, id, false⟩)
  else none

/-- `generate()`, mt2.cpp:78-91. -/
def generate (s : St) : St × BitVec 32 :=
  let index := (s.index + 1) % s.size
  let y := (s.state index &&& s.upper) ||| (s.state ((index + 1) % s.size) &&& s.lower)
  let y := s.state ((index + s.pos) % s.size) ^^^ (y >>> 1) ^^^ (if (y &&& 1) = 1 then s.mata else 0)
  let s := { s with index := index, state := Function.update s.state index y }
  let y := y ^^^ (y >>> 12)
  let y := y ^^^ ((y <<< 7) &&& s.maskb)
  let y := y ^^^ ((y <<< 15) &&& s.maskc)
  let y := y ^^^ (y >>> 18)
  (s, y)

/-- `generate(int outBitLen)`, mt2.cpp:92-102 (`outBitLen` from 1 to 32). -/
def generateV (v : Nat) (s : St) : St × BitVec 32 :=
  let r := generate s
  let u := if s.rev then Util.reverseBit32 r.2 else r.2
  let mask := (~~~ (0 : BitVec 32)) <<< (32 - v)
  (r.1, u &&& mask)

/-- `isZero`, mt2.cpp:104-114. -/
def isZero (s : St) : Bool :=
  if (s.upper &&& s.state s.index) ≠ 0 then false
  else (List.range' 1 (s.size - 1)).all fun i => s.state ((s.index + i) % s.size) == 0

/-- `setZero`, mt2.cpp:116-121. -/
def setZero (s : St) : St :=
  { s with state := (List.range s.size).foldl (fun a i => Function.update a i 0) s.state, index := 0 }

/-- `add`, mt2.cpp:123-132 (the argument has the same class, so the cast succeeds). -/
def add (s t : St) : St :=
  { s with state := (List.range s.size).foldl (fun a i => Function.update a ((s.index + i) % s.size)
      (a ((s.index + i) % s.size) ^^^ t.state ((t.index + i) % s.size))) s.state }

/-- `setUpParam`, mt2.cpp:150-160; `r1`, `r2` are the numbers delivered by the parameter source.  `none`:
`size - 2` is 0. -/
def setUpParam (r1 r2 : BitVec 32) (s : St) : Option St :=
  if s.size - 2 = 0 then none
  else
    let pos := r1.toNat % (s.size - 2) + 2
    let mata := if s.id ≥ 0 then (r2 &&& 0xffff0000) ||| (BitVec.ofInt 32 s.id &&& 0xffff) else r2
    some { s with pos := pos, mata := mata }

/-- `setTemperingPattern`, mt2.cpp:177-185. -/
def setTemperingPattern (mask pattern : BitVec 32) (src_bit : Nat) (s : St) : St :=
  if src_bit = 0 then { s with maskb := (s.maskb &&& ~~~ mask) ||| (pattern &&& mask) }
  else { s with maskc := (s.maskc &&& ~~~ mask) ||| (pattern &&& mask) }

/-- `setUpTempering`, mt2.cpp:187-188. -/
def setUpTempering (s : St) : St := s

/-- `setReverseOutput`, `resetReverseOutput`, mt2.cpp:190-196. -/
def setReverse (s : St) : St := { s with rev := true }
def resetReverse (s : St) : St := { s with rev := false }

/-- The interface of the class; `bitSize` is mt2.cpp:146-148. -/
def ops (mexp : Nat) : GenOps St 32 where
  generate := generate
  generateV := generateV
  add := add
  setZero := setZero
  isZero := isZero
  bitSize := mexp

end MTT.MTDC
