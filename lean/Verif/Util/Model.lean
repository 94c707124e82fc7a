/-!
# Model of `include/MTToolBox/util.hpp`

Unsigned machine words are `BitVec w`.  Where the C++ program has undefined behaviour the model
returns `none`.
-/

namespace MTT.Util

/-! ## Counting and reversing bits -/

/-- `count_bit(uint16_t)`, util.hpp:378-384.  The C++ operators promote to `int`, but no intermediate
value exceeds 16 bits, so the arithmetic is that of `BitVec 16`. -/
def countBit16 (x : BitVec 16) : Nat :=
  let x := x - ((x >>> 1) &&& 0x5555#16)
  let x := ((x >>> 2) &&& 0x3333#16) + (x &&& 0x3333#16)
  let x := ((x >>> 4) + x) &&& 0x0f0f#16
  let x := x + (x >>> 8)
  (x &&& 0x1f#16).toNat

/-- `count_bit(uint32_t)`, util.hpp:399-406. -/
def countBit32 (x : BitVec 32) : Nat :=
  let x := x - ((x >>> 1) &&& 0x55555555#32)
  let x := ((x >>> 2) &&& 0x33333333#32) + (x &&& 0x33333333#32)
  let x := ((x >>> 4) + x) &&& 0x0f0f0f0f#32
  let x := x + (x >>> 8)
  let x := x + (x >>> 16)
  (x &&& 0x3f#32).toNat

/-- `count_bit(uint64_t)`, util.hpp:421-430. -/
def countBit64 (x : BitVec 64) : Nat :=
  let x := x - ((x >>> 1) &&& 0x5555555555555555#64)
  let x := ((x >>> 2) &&& 0x3333333333333333#64) + (x &&& 0x3333333333333333#64)
  let x := ((x >>> 4) + x) &&& 0x0f0f0f0f0f0f0f0f#64
  let x := x + (x >>> 8)
  let x := x + (x >>> 16)
  let x := x + (x >>> 32)
  (x &&& 0x7f#64).toNat

/-- `calc_1pos(uint16_t)`, util.hpp:280-288.  `y & -y` is computed in `int` after promotion, so there
is no overflow; the result is cast back to 16 bits. -/
def calc1pos16 (x : BitVec 16) : Option Int :=
  if x = 0 then some (-1)
  else
    let y : BitVec 32 := x.signExtend 32
    some (15 - (countBit16 (((y &&& -y) - 1#32).setWidth 16) : Int))

/-- `calc_1pos(uint32_t)`, util.hpp:314-322.  `-y` overflows (undefined behaviour) when `y` is
`INT32_MIN`. -/
def calc1pos32 (x : BitVec 32) : Option Int :=
  if x = 0 then some (-1)
  else if x = BitVec.intMin 32 then none
  else some (31 - (countBit32 ((x &&& -x) - 1#32) : Int))

/-- `calc_1pos(uint64_t)`, util.hpp:348-356.  `-y` overflows (undefined behaviour) when `y` is
`INT64_MIN`. -/
def calc1pos64 (x : BitVec 64) : Option Int :=
  if x = 0 then some (-1)
  else if x = BitVec.intMin 64 then none
  else some (63 - (countBit64 ((x &&& -x) - 1#64) : Int))

/-- `calc_1pos(uint32_t)` as compiled with wrapping signed negation (`-fwrapv`, and in practice every
two's complement compiler): the same code without the undefined case. -/
def calc1posWrap32 (x : BitVec 32) : Int :=
  if x = 0 then -1 else 31 - (countBit32 ((x &&& -x) - 1#32) : Int)

/-- `calc_1pos(uint64_t)` with wrapping signed negation. -/
def calc1posWrap64 (x : BitVec 64) : Int :=
  if x = 0 then -1 else 63 - (countBit64 ((x &&& -x) - 1#64) : Int)

/-- `reverse_bit(uint32_t)`, util.hpp:454-465. -/
def reverseBit32 (x : BitVec 32) : BitVec 32 :=
  let y := 0x55555555#32
  let x := ((x >>> 1) &&& y) ||| ((x &&& y) <<< 1)
  let y := 0x33333333#32
  let x := ((x >>> 2) &&& y) ||| ((x &&& y) <<< 2)
  let y := 0x0f0f0f0f#32
  let x := ((x >>> 4) &&& y) ||| ((x &&& y) <<< 4)
  let y := 0x00ff00ff#32
  let x := ((x >>> 8) &&& y) ||| ((x &&& y) <<< 8)
  (x >>> 16) ||| (x <<< 16)

/-- `reverse_bit(uint64_t)`, util.hpp:480-493. -/
def reverseBit64 (x : BitVec 64) : BitVec 64 :=
  let y := 0x5555555555555555#64
  let x := ((x >>> 1) &&& y) ||| ((x &&& y) <<< 1)
  let y := 0x3333333333333333#64
  let x := ((x >>> 2) &&& y) ||| ((x &&& y) <<< 2)
  let y := 0x0f0f0f0f0f0f0f0f#64
  let x := ((x >>> 4) &&& y) ||| ((x &&& y) <<< 4)
  let y := 0x00ff00ff00ff00ff#64
  let x := ((x >>> 8) &&& y) ||| ((x &&& y) <<< 8)
  let y := 0x0000ffff0000ffff#64
  let x := ((x >>> 16) &&& y) ||| ((x &&& y) <<< 16)
  (x >>> 32) ||| (x <<< 32)

/-! ## Arithmetic helpers -/

/-- `floor2p(n)`, util.hpp:98-105, for a non-negative argument.  `none` means that the recursion is
still running after `fuel` calls.  No overflow: the result never exceeds `n`. -/
def floor2p : (fuel : Nat) → (n : Nat) → Option Nat
  | 0, _ => none
  | fuel + 1, n =>
    if n = 1 then some 1
    else match floor2p fuel (n / 2) with
      | none => none
      | some r => some (2 * r)

/-- Outcome of `get_range`. -/
inductive RangeResult
  | value (r : Int)
  | exits        -- the message is printed and the process exits with status 0
  | undefined    -- `end - start + 1` overflows `int`
deriving DecidableEq, Repr

/-- `get_range(input, start, end)`, util.hpp:169-178, for an unsigned `input` of at most 64 bits.
`start` and `end` are values of type `int`. -/
def getRange (input : Nat) (start «end» : Int) : RangeResult :=
  if «end» < start then .exits
  else if «end» - start + 1 > 2147483647 then .undefined
  else .value (((input % («end» - start + 1).toNat : Nat) : Int) + start)

/-- Inner loop of `fill_table`, util.hpp:199-203: `for (j = 1, k = 0; j <= i; j <<= 1, k++)`.
`fuel` bounds the number of iterations; 31 suffice for every `int`. -/
def fillLoop {w : Nat} (src : Nat → BitVec w) (i : Nat) : (fuel j k : Nat) → BitVec w → BitVec w
  | 0, _, _, acc => acc
  | fuel + 1, j, k, acc =>
    if j ≤ i then
      fillLoop src i fuel (j <<< 1) (k + 1) (if i &&& j ≠ 0 then acc ^^^ src k else acc)
    else acc

/-- Outer loop of `fill_table`, util.hpp:197-206; `n` iterations starting at `i`. -/
def fillOuter {w : Nat} (src : Nat → BitVec w) : (n i : Nat) → (Nat → BitVec w) → (Nat → BitVec w)
  | 0, _, dist => dist
  | n + 1, i, dist =>
    fillOuter src n (i + 1) (fun x => if x = i then fillLoop src i 31 1 0 (dist i) else dist x)

/-- `fill_table(dist_tbl, src_tbl, size)`, util.hpp:197-206.  Tables are functions of the index.
Assumption: `size ≤ 2^30`, so that `j <<= 1` does not overflow. -/
def fillTable {w : Nat} (dist src : Nat → BitVec w) (size : Nat) : Nat → BitVec w :=
  fillOuter src (size - 1) 1 dist

/-! ## Bits and GF(2) vectors -/

/-- `getBitOfPos(bits, pos)`, util.hpp:609-612; a shift by a negative amount or by `w` or more is
undefined. -/
def getBitOfPos {w : Nat} (bits : BitVec w) (pos : Int) : Option Nat :=
  if 0 ≤ pos ∧ pos < w then some ((bits >>> pos.toNat) &&& 1#w).toNat else none

/-- `setBitOfPos(&bits, pos, b)`, util.hpp:632-638. -/
def setBitOfPos {w : Nat} (bits : BitVec w) (pos : Int) (b : Nat) : Option (BitVec w) :=
  if 0 ≤ pos ∧ pos < w then
    let b := b &&& 1
    let mask := ~~~(1#w <<< pos.toNat)
    some ((bits &&& mask) ||| (BitVec.ofNat w b <<< pos.toNat))
  else none

/-- Loop of `toGF2Vec`, util.hpp:541-549: `n` iterations with the current `mask`. -/
def toLoop {w : Nat} (value : BitVec w) : Nat → BitVec w → List Bool
  | 0, _ => []
  | n + 1, mask => (value &&& mask != 0) :: toLoop value n (mask >>> 1)

/-- `toGF2Vec(result, value)`, util.hpp:536-550.  `vec_GF2` is a list of bits. -/
def toGF2Vec {w : Nat} (value : BitVec w) : List Bool :=
  toLoop value w (1#w <<< (w - 1))

/-- Loop of `fromGF2Vec`, util.hpp:664-671. -/
def fromLoop {w : Nat} : List Bool → Int → BitVec w → BitVec w → Option (BitVec w)
  | [], _, _, result => some result
  | b :: bs, pos, mask, result =>
    let result := if b then result ||| mask else result
    let pos := pos - 1
    match setBitOfPos 0 pos 1 with
    | none => none
    | some mask => fromLoop bs pos mask result

/-- `fromGF2Vec(value)`, util.hpp:655-673, for a vector of `w` bits. -/
def fromGF2Vec {w : Nat} (value : List Bool) : Option (BitVec w) :=
  match setBitOfPos (0 : BitVec w) ((w : Int) - 1) 1 with
  | none => none
  | some mask => fromLoop value ((w : Int) - 1) mask 0

/-- The same loop when an undefined shift merely produces some unspecified word `junk` (what a
compiler does in practice). -/
def fromLoopJunk {w : Nat} (junk : BitVec w) : List Bool → Int → BitVec w → BitVec w → BitVec w
  | [], _, _, result => result
  | b :: bs, pos, mask, result =>
    let result := if b then result ||| mask else result
    let pos := pos - 1
    fromLoopJunk junk bs pos ((setBitOfPos 0 pos 1).getD junk) result

/-- `fromGF2Vec` with unspecified results for undefined shifts. -/
def fromGF2VecJunk {w : Nat} (junk : BitVec w) (value : List Bool) : BitVec w :=
  fromLoopJunk junk value ((w : Int) - 1) ((setBitOfPos (0 : BitVec w) ((w : Int) - 1) 1).getD junk) 0

end MTT.Util
