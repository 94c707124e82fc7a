import Verif.Util.Model

/-!
# Model of `union w128_t` (`samples/sfmtdc/w128.hpp`; `samples/dSFMTdc/w128.hpp` is the same apart from casts)

A `w128_t` is 128 bits of memory on a little-endian machine: `u[i]` are bits `32 i` to `32 i + 31` and `u64[j]` bits
`64 j` to `64 j + 63`.  (Reading another member of the union than the one written last is what the compilers of
the project define; the C++ standard does not.)  `none` is an undefined shift or negation.
-/

namespace MTT.W128

abbrev W128 := BitVec 128

/-- `x.u[i]`. -/
def u (x : W128) (i : Nat) : BitVec 32 := x.extractLsb' (32 * i) 32

/-- `x.u64[j]`. -/
def u64 (x : W128) (j : Nat) : BitVec 64 := x.extractLsb' (64 * j) 64

/-- A `w128_t` whose members `u64[0]`, `u64[1]` have been assigned. -/
def mk64 (a b : BitVec 64) : W128 := b ++ a

/-- A `w128_t` whose members `u[0]`, …, `u[3]` have been assigned. -/
def mk32 (a b c d : BitVec 32) : W128 := (d ++ c) ++ (b ++ a)

/-- `x << k`, `x >> k` for `uint64_t`. -/
def shl64 (x : BitVec 64) (k : Int) : Option (BitVec 64) := if 0 ≤ k ∧ k < 64 then some (x <<< k.toNat) else none
def shr64 (x : BitVec 64) (k : Int) : Option (BitVec 64) := if 0 ≤ k ∧ k < 64 then some (x >>> k.toNat) else none

/-- `make_msb_mask`, w128.hpp:43-57. -/
def makeMsbMask (n : Int) : Option W128 :=
  if n = 128 then some (mk64 0xffffffffffffffff 0xffffffffffffffff)
  else if n < 64 then (shr64 (~~~ 0) n).map fun x => mk64 0 (~~~ x)
  else (shr64 (~~~ 0) (n - 64)).map fun x => mk64 (~~~ x) 0xffffffffffffffff

/-- `and_mask`, w128.hpp:59-64. -/
def andMask (a b : W128) : W128 := mk64 (u64 a 0 &&& u64 b 0) (u64 a 1 &&& u64 b 1)

/-- `getOne`, w128.hpp:66-72. -/
def getOne : W128 := mk64 1 0

/-- `getBitOfPos`, w128.hpp:74-85. -/
def getBitOfPos (bits : W128) (pos : Int) : Option (BitVec 64) :=
  if pos = 0 then some (u64 bits 0 &&& 1)
  else if pos < 64 then (shr64 (u64 bits 0) pos).map (· &&& 1)
  else if pos = 64 then some (u64 bits 1 &&& 1)
  else (shr64 (u64 bits 1) (pos - 64)).map (· &&& 1)

/-- `setBitOfPos`, w128.hpp:87-108. -/
def setBitOfPos (bits : W128) (pos : Int) (b : BitVec 32) : Option W128 :=
  let b := b &&& 1
  if pos = 0 then
    some (mk64 ((u64 bits 0 &&& ~~~ (1 : BitVec 64)) ||| b.setWidth 64) (u64 bits 1))
  else if pos < 64 then
    match shl64 1 pos, shl64 (b.setWidth 64) pos with
    | some m, some c => some (mk64 ((u64 bits 0 &&& ~~~ m) ||| c) (u64 bits 1))
    | _, _ => none
  else if pos = 64 then
    some (mk64 (u64 bits 0) ((u64 bits 1 &&& ~~~ (1 : BitVec 64)) ||| b.setWidth 64))
  else
    match shl64 1 (pos - 64), shl64 (b.setWidth 64) (pos - 64) with
    | some m, some c => some (mk64 (u64 bits 0) ((u64 bits 1 &&& ~~~ m) ||| c))
    | _, _ => none

/-- `isZero`, w128.hpp:110-113. -/
def isZero (x : W128) : Bool := u64 x 0 == 0 && u64 x 1 == 0

/-- `operator>>`, w128.hpp:121-139. -/
def shr (x : W128) (s : Int) : Option W128 :=
  if s = 0 then some x
  else if s = 64 then some (mk64 (u64 x 1) 0)
  else if s ≥ 64 then (shr64 (u64 x 1) (s - 64)).map fun y => mk64 y 0
  else
    match shl64 (u64 x 1) (64 - s), shr64 (u64 x 1) s, shr64 (u64 x 0) s with
    | some w, some h, some l => some (mk64 (w ||| l) h)
    | _, _, _ => none

/-- `operator<<`, w128.hpp:141-159. -/
def shl (x : W128) (s : Int) : Option W128 :=
  if s = 0 then some x
  else if s = 64 then some (mk64 0 (u64 x 0))
  else if s > 64 then (shl64 (u64 x 0) (s - 64)).map fun y => mk64 0 y
  else
    match shr64 (u64 x 0) (64 - s), shl64 (u64 x 0) s, shl64 (u64 x 1) s with
    | some w, some l, some h => some (mk64 l (w ||| h))
    | _, _, _ => none

/-- `operator&`, `operator^`, `operator~`, `operator|=`, `operator^=`, `operator==`, w128.hpp:161-196. -/
def and (x y : W128) : W128 := mk64 (u64 x 0 &&& u64 y 0) (u64 x 1 &&& u64 y 1)
def xor (x y : W128) : W128 := mk64 (u64 x 0 ^^^ u64 y 0) (u64 x 1 ^^^ u64 y 1)
def not (x : W128) : W128 := mk64 (~~~ u64 x 0) (~~~ u64 x 1)
def orEq (x y : W128) : W128 := mk64 (u64 x 0 ||| u64 y 0) (u64 x 1 ||| u64 y 1)
def xorEq (x y : W128) : W128 := mk64 (u64 x 0 ^^^ u64 y 0) (u64 x 1 ^^^ u64 y 1)
def beq (x y : W128) : Bool := u64 x 0 == u64 y 0 && u64 x 1 == u64 y 1

/-- `63 - count_bit((uint64_t)(y & -y) - 1)` for `int64_t y`, w128.hpp:215-217, 219-221: `-y` overflows for the
most negative value. -/
def low1 (x : BitVec 64) : Option Int :=
  if x = 0x8000000000000000 then none else some (63 - Util.countBit64 ((x &&& -x) - 1))

/-- `calc_1pos`, w128.hpp:209-223. -/
def calc1pos (x : W128) : Option Int :=
  if isZero x then some (-1)
  else if u64 x 0 = 0 then low1 (u64 x 1)
  else (low1 (u64 x 0)).map (· + 64)

/-- `calc_1pos` compiled so that the negation wraps around. -/
def calc1posWrap (x : W128) : Int :=
  if isZero x then -1
  else if u64 x 0 = 0 then 63 - Util.countBit64 ((u64 x 1 &&& -(u64 x 1)) - 1)
  else 63 - Util.countBit64 ((u64 x 0 &&& -(u64 x 0)) - 1) + 64

/-- `convert<w128_t>(uint64_t)`, `convert<w128_t>(uint32_t)`, w128.hpp:225-239. -/
def convert64 (x : BitVec 64) : W128 := mk64 x 0
def convert32 (x : BitVec 32) : W128 := mk64 (x.setWidth 64) 0

/-- `reverse_bit`, w128.hpp:241-246. -/
def reverseBit (x : W128) : W128 := mk64 (Util.reverseBit64 (u64 x 1)) (Util.reverseBit64 (u64 x 0))

end MTT.W128
