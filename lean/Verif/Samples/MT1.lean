import Verif.PIS.Model
import Verif.Util.Model

/-!
# Model of `class MT19937` and `main` of `samples/MTDC/mt1.cpp`

The word array is a function of the index; every access of the code is reduced modulo `N = 624`, and the index
is never negative, so the accesses stay inside the array.
-/

namespace MTT.MT1

/-- Object, mt1.cpp:87-92: `index` and `state[624]`. -/
structure St where
  index : Nat
  state : Nat → BitVec 32

/-- `generate()`, mt1.cpp:23-35 (`matrix_a[y & 1]` is written as a case distinction). -/
def generate (s : St) : St × BitVec 32 :=
  let index := (s.index + 1) % 624
  let y := (s.state index &&& 0x80000000) ||| (s.state ((index + 1) % 624) &&& 0x7fffffff)
  let y := s.state ((index + 397) % 624) ^^^ (y >>> 1) ^^^ (if (y &&& 1) = 1 then 0x9908b0df else 0)
  let s := ⟨index, Function.update s.state index y⟩
  let y := y ^^^ (y >>> 11)
  let y := y ^^^ ((y <<< 7) &&& 0x9d2c5680)
  let y := y ^^^ ((y <<< 15) &&& 0xefc60000)
  let y := y ^^^ (y >>> 18)
  (s, y)

/-- `generate(int outBitLen)`, mt1.cpp:36-40 (`outBitLen` from 1 to 32). -/
def generateV (v : Nat) (s : St) : St × BitVec 32 :=
  let r := generate s
  (r.1, r.2 &&& ((~~~ (0 : BitVec 32)) <<< (32 - v)))

/-- `isZero`, mt1.cpp:42-52. -/
def isZero (s : St) : Bool :=
  if ((0x80000000 : BitVec 32) &&& s.state s.index) ≠ 0 then false
  else (List.range' 1 623).all fun i => s.state ((s.index + i) % 624) == 0

/-- `setZero`, mt1.cpp:53-58. -/
def setZero (s : St) : St :=
  { s with state := (List.range 624).foldl (fun a i => Function.update a i 0) s.state, index := 0 }

/-- `add`, mt1.cpp:59-68 (the argument has the same class, so the cast succeeds). -/
def add (s t : St) : St :=
  { s with state := (List.range 624).foldl (fun a i => Function.update a ((s.index + i) % 624)
      (a ((s.index + i) % 624) ^^^ t.state ((t.index + i) % 624))) s.state }

/-- `seed`, mt1.cpp:74-78: the loop, `k` turns left, next index `i`. -/
def seedLoop : Nat → Nat → (Nat → BitVec 32) → (Nat → BitVec 32)
  | 0, _, m => m
  | k + 1, i, m =>
    let p := m (i - 1)
    seedLoop k (i + 1) (Function.update m i (1812433253 * (p ^^^ (p >>> 30)) + BitVec.ofNat 32 i))

/-- `seed`, mt1.cpp:72-80. -/
def seed (v : BitVec 32) (s : St) : St :=
  ⟨623, seedLoop 623 1 (Function.update s.state 0 v)⟩

/-- The constructor, mt1.cpp:16; `junk` is the memory of the object before. -/
def make (junk : St) (v : BitVec 32) : St := seed v junk

/-- The copy constructor and `clone`, mt1.cpp:17-22, 69-71; `junk` is the memory of the new object before. -/
def copy (junk src : St) : St :=
  ⟨src.index, (List.range 624).foldl (fun a i => Function.update a i (src.state i)) junk.state⟩

/-- The interface of the class; `bitSize` is mt1.cpp:81. -/
def ops : GenOps St 32 where
  generate := generate
  generateV := generateV
  add := add
  setZero := setZero
  isZero := isZero
  bitSize := 19937

/-- `main`, mt1.cpp:95-108: the numbers `i + 1`, `veq[i]`, `bitSize / (i + 1) - veq[i]` of the printed lines, and
delta.  `none`: the calculation failed.  `junk`: memory of `mt`; `junkVeq`: the array `veq` before; `fuel`
bounds the number of turns of the loops of the algorithm. -/
def main (junk : St) (junkVeq : Nat → Nat) (fuel : Nat) : Option (List (Nat × Nat × Int) × Int) :=
  match PIS.getAllEquidist ops Util.calc1posWrap32 (make junk 1) 32 19937 fuel junkVeq with
  | .ok r => some ((List.range 32).map fun i =>
      (i + 1, r.veq i, ((19937 / (i + 1) : Nat) : Int) - (r.veq i : Int)), r.sum)
  | _ => none

end MTT.MT1
