import Mathlib.Data.Rat.Defs
import Mathlib.Algebra.Order.Field.Rat

/-!
# Model of the TinyMT reference code (`test/tinymt32.[ch]`, `test/tinymt64.[ch]`) and of the classes `Tiny32`, `Tiny64`

Arithmetic on `uint32_t` and `uint64_t` is arithmetic on bit vectors.  The switch `LINEARITY_CHECK` is the argument `lin`.
-/

namespace MTT.TinyRef

/-! ## 32 bit -/

/-- `tinymt32_t`, tinymt32.h:36-41. -/
structure T32 where
  s0 : BitVec 32
  s1 : BitVec 32
  s2 : BitVec 32
  s3 : BitVec 32
  mat1 : BitVec 32
  mat2 : BitVec 32
  tmat : BitVec 32
deriving DecidableEq

/-- The array `status`. -/
def T32.status (r : T32) : Fin 4 → BitVec 32
  | 0 => r.s0
  | 1 => r.s1
  | 2 => r.s2
  | 3 => r.s3

/-- The object with the array `st` in place of `status`. -/
def T32.withStatus (r : T32) (st : Fin 4 → BitVec 32) : T32 :=
  { r with s0 := st 0, s1 := st 1, s2 := st 2, s3 := st 3 }

/-- `tinymt32_next_state`, tinymt32.h:70-88. -/
def next32 (r : T32) : T32 :=
  let y := r.s3
  let x := (r.s0 &&& 0x7fffffff) ^^^ r.s1 ^^^ r.s2
  let x := x ^^^ (x <<< 1)
  let y := y ^^^ ((y >>> 1) ^^^ x)
  let r' := { r with s0 := r.s1, s1 := r.s2, s2 := x ^^^ (y <<< 10), s3 := y }
  if (y &&& 1) ≠ 0 then { r' with s1 := r'.s1 ^^^ r.mat1, s2 := r'.s2 ^^^ r.mat2 } else r'

/-- `t1` of the tempering functions, tinymt32.h:99-105. -/
def t1 (lin : Bool) (r : T32) : BitVec 32 := if lin then r.s0 ^^^ (r.s2 >>> 8) else r.s0 + (r.s2 >>> 8)

/-- `tinymt32_temper`, tinymt32.h:96-111. -/
def temper32 (lin : Bool) (r : T32) : BitVec 32 :=
  let t0 := r.s3 ^^^ t1 lin r
  if (t1 lin r &&& 1) ≠ 0 then t0 ^^^ r.tmat else t0

/-- The word `conv.u` of `tinymt32_temper_conv` (`one = 0x3f800000`), tinymt32.h:119-141, and of
`tinymt32_temper_conv_open` (`one = 0x3f800001`), tinymt32.h:149-171. -/
def conv32 (one : BitVec 32) (lin : Bool) (r : T32) : BitVec 32 :=
  let t0 := r.s3 ^^^ t1 lin r
  if (t1 lin r &&& 1) ≠ 0 then ((t0 ^^^ r.tmat) >>> 9) ||| one else (t0 >>> 9) ||| one

/-- `tinymt32_generate_uint32`, tinymt32.h:178-181. -/
def gen32 (lin : Bool) (r : T32) : T32 × BitVec 32 := (next32 r, temper32 lin (next32 r))

/-- `period_certification`, tinymt32.c:44-54 (`'T'`, `'I'`, `'N'`, `'Y'` in ASCII). -/
def certify32 (r : T32) : T32 :=
  if (r.s0 &&& 0x7fffffff) = 0 ∧ r.s1 = 0 ∧ r.s2 = 0 ∧ r.s3 = 0 then
    { r with s0 := 84, s1 := 73, s2 := 78, s3 := 89 }
  else r

/-- One pass of the loop of `tinymt32_init`, tinymt32.c:67-71. -/
def initStep32 (st : Fin 4 → BitVec 32) (i : Nat) : Fin 4 → BitVec 32 :=
  let p := st (Fin.ofNat 4 (i - 1))
  Function.update st (Fin.ofNat 4 i) (st (Fin.ofNat 4 i) ^^^ (BitVec.ofNat 32 i + (1812433253 : BitVec 32) * (p ^^^ (p >>> 30))))

/-- `status` before the certification in `tinymt32_init`, tinymt32.c:63-71. -/
def initLoop32 (r : T32) (seed : BitVec 32) : T32 :=
  r.withStatus ((List.range' 1 7).foldl initStep32 ({ r with s0 := seed, s1 := r.mat1, s2 := r.mat2, s3 := r.tmat } : T32).status)

/-- `tinymt32_init`, tinymt32.c:62-76. -/
def init32 (r : T32) (seed : BitVec 32) : T32 := next32^[8] (certify32 (initLoop32 r seed))

/-- `ini_func1`, tinymt32.c:26-28. -/
def ini1_32 (x : BitVec 32) : BitVec 32 := (x ^^^ (x >>> 27)) * (1664525 : BitVec 32)

/-- `ini_func2`, tinymt32.c:36-38. -/
def ini2_32 (x : BitVec 32) : BitVec 32 := (x ^^^ (x >>> 27)) * (1566083941 : BitVec 32)

/-- The two rounds of the array initialisation, tinymt32.c:111-140 and tinymt64.c:102-125: `f` is `ini_func1`, and `k`
the number added to `r` besides `i`. -/
def round1 {w : Nat} (f : BitVec w → BitVec w) (p : (Fin 4 → BitVec w) × Nat) (k : BitVec w) :
    (Fin 4 → BitVec w) × Nat :=
  let (st, i) := p
  let r := f (st (Fin.ofNat 4 i) ^^^ st (Fin.ofNat 4 (i + 1)) ^^^ st (Fin.ofNat 4 (i + 4 - 1)))
  let st := Function.update st (Fin.ofNat 4 (i + 1)) (st (Fin.ofNat 4 (i + 1)) + r)
  let r := r + (k + BitVec.ofNat w i)
  let st := Function.update st (Fin.ofNat 4 (i + 1 + 1)) (st (Fin.ofNat 4 (i + 1 + 1)) + r)
  let st := Function.update st (Fin.ofNat 4 i) r
  (st, (i + 1) % 4)

/-- See `round1`; `f` is `ini_func2`. -/
def round2 {w : Nat} (f : BitVec w → BitVec w) (p : (Fin 4 → BitVec w) × Nat) : (Fin 4 → BitVec w) × Nat :=
  let (st, i) := p
  let r := f (st (Fin.ofNat 4 i) + st (Fin.ofNat 4 (i + 1)) + st (Fin.ofNat 4 (i + 4 - 1)))
  let st := Function.update st (Fin.ofNat 4 (i + 1)) (st (Fin.ofNat 4 (i + 1)) ^^^ r)
  let r := r - BitVec.ofNat w i
  let st := Function.update st (Fin.ofNat 4 (i + 1 + 1)) (st (Fin.ofNat 4 (i + 1 + 1)) ^^^ r)
  let st := Function.update st (Fin.ofNat 4 i) r
  (st, (i + 1) % 4)

/-- The array `st` after the loops of `tinymt32_init_by_array`, tinymt32.c:91-140, and of `tinymt64_init_by_array`,
tinymt64.c:78-125, from its starting value; `key` is the array with `key_length` elements. -/
def arrayLoop {w : Nat} (f1 f2 : BitVec w → BitVec w) (st : Fin 4 → BitVec w) (key : List (BitVec w)) :
    Fin 4 → BitVec w :=
  let count := if key.length + 1 > 8 then key.length + 1 else 8
  let r := f1 (st 0 ^^^ st 1 ^^^ st 3)
  let st := Function.update st 1 (st 1 + r)
  let r := r + BitVec.ofNat w key.length
  let st := Function.update st 2 (st 2 + r)
  let st := Function.update st 0 r
  let count := count - 1
  let p := (key.take count).foldl (round1 f1) (st, 1)
  let p := (fun p => round1 f1 p 0)^[count - min count key.length] p
  ((round2 f2)^[4] p).1

/-- `tinymt32_init_by_array`, tinymt32.c:85-145; `none`: `key_length + 1` overflows `int` (undefined).  A negative
`key_length` is not modelled. -/
def initByArray32 (r : T32) (key : List (BitVec 32)) : Option T32 :=
  if key.length + 1 < 2 ^ 31 then
    let st := ({ r with s0 := 0, s1 := r.mat1, s2 := r.mat2, s3 := r.tmat } : T32).status
    some (next32^[8] (certify32 (r.withStatus (arrayLoop ini1_32 ini2_32 st key))))
  else none

/-! ## 64 bit -/

/-- `tinymt64_t`, tinymt64.h:36-41. -/
structure T64 where
  s0 : BitVec 64
  s1 : BitVec 64
  mat1 : BitVec 32
  mat2 : BitVec 32
  tmat : BitVec 64
deriving DecidableEq

/-- `tinymt64_next_state`, tinymt64.h:70-85. -/
def next64 (r : T64) : T64 :=
  let s0 := r.s0 &&& 0x7fffffffffffffff
  let x := s0 ^^^ r.s1
  let x := x ^^^ (x <<< 12)
  let x := x ^^^ (x >>> 32)
  let x := x ^^^ (x <<< 32)
  let x := x ^^^ (x <<< 11)
  let r' := { r with s0 := r.s1, s1 := x }
  if (x &&& 1) ≠ 0 then
    { r' with s0 := r'.s0 ^^^ r.mat1.setWidth 64, s1 := r'.s1 ^^^ (r.mat2.setWidth 64 <<< 32) }
  else r'

/-- `x` of the tempering functions, tinymt64.h:94-100. -/
def tx (lin : Bool) (r : T64) : BitVec 64 := (if lin then r.s0 ^^^ r.s1 else r.s0 + r.s1) ^^^ (r.s0 >>> 8)

/-- `tinymt64_temper`, tinymt64.h:93-105. -/
def temper64 (lin : Bool) (r : T64) : BitVec 64 :=
  if (tx lin r &&& 1) ≠ 0 then tx lin r ^^^ r.tmat else tx lin r

/-- The word `conv.u` of `tinymt64_temper_conv` (`one = 0x3ff0000000000000`), tinymt64.h:113-131, and of
`tinymt64_temper_conv_open` (`one = 0x3ff0000000000001`), tinymt64.h:139-157. -/
def conv64 (one : BitVec 64) (lin : Bool) (r : T64) : BitVec 64 :=
  if (tx lin r &&& 1) ≠ 0 then ((tx lin r ^^^ r.tmat) >>> 12) ||| one else (tx lin r >>> 12) ||| one

/-- `tinymt64_generate_uint64`, tinymt64.h:164-167. -/
def gen64 (lin : Bool) (r : T64) : T64 × BitVec 64 := (next64 r, temper64 lin (next64 r))

/-- `period_certification`, tinymt64.c:44-50. -/
def certify64 (r : T64) : T64 :=
  if (r.s0 &&& 0x7fffffffffffffff) = 0 ∧ r.s1 = 0 then { r with s0 := 84, s1 := 77 } else r

/-- One pass of the loop of `tinymt64_init`, tinymt64.c:61-65. -/
def initStep64 (st : Fin 2 → BitVec 64) (i : Nat) : Fin 2 → BitVec 64 :=
  let p := st (Fin.ofNat 2 (i - 1))
  Function.update st (Fin.ofNat 2 i)
    (st (Fin.ofNat 2 i) ^^^ (BitVec.ofNat 64 i + (6364136223846793005 : BitVec 64) * (p ^^^ (p >>> 62))))

/-- The array of two words. -/
def arr2 (a b : BitVec 64) : Fin 2 → BitVec 64
  | 0 => a
  | 1 => b

/-- `status` before the certification in `tinymt64_init`, tinymt64.c:59-65. -/
def initLoop64 (r : T64) (seed : BitVec 64) : T64 :=
  let st := (List.range' 1 7).foldl initStep64
    (arr2 (seed ^^^ (r.mat1.setWidth 64 <<< 32)) (r.mat2.setWidth 64 ^^^ r.tmat))
  { r with s0 := st 0, s1 := st 1 }

/-- `tinymt64_init`, tinymt64.c:58-67. -/
def init64 (r : T64) (seed : BitVec 64) : T64 := certify64 (initLoop64 r seed)

/-- `ini_func1`, tinymt64.c:26-28. -/
def ini1_64 (x : BitVec 64) : BitVec 64 := (x ^^^ (x >>> 59)) * (2173292883993 : BitVec 64)

/-- `ini_func2`, tinymt64.c:36-38. -/
def ini2_64 (x : BitVec 64) : BitVec 64 := (x ^^^ (x >>> 59)) * (58885565329898161 : BitVec 64)

/-- The array of four words. -/
def arr4 (a b c d : BitVec 64) : Fin 4 → BitVec 64
  | 0 => a
  | 1 => b
  | 2 => c
  | 3 => d

/-- `tinymt64_init_by_array`, tinymt64.c:76-129 (in this function the two loops use `st[i]` without `% size`: `i` stays
below 4); `none` as for `initByArray32`. -/
def initByArray64 (r : T64) (key : List (BitVec 64)) : Option T64 :=
  if key.length + 1 < 2 ^ 31 then
    let st := arrayLoop ini1_64 ini2_64 (arr4 0 (r.mat1.setWidth 64) (r.mat2.setWidth 64) r.tmat) key
    some (certify64 { r with s0 := st 0 ^^^ st 1, s1 := st 2 ^^^ st 3 })
  else none

/-! ## The classes of `test/test_generator.hpp` -/

/-- `Tiny32(seed)`, test_generator.hpp:20-25; the members not set here are overwritten by `tinymt32_init`. -/
def tiny32 (seed : BitVec 32) : T32 := init32 ⟨0, 0, 0, 0, 0x8f7011ee, 0xfc78ff1f, 0x3793fdff⟩ seed

/-- `Tiny64(seed)`, test_generator.hpp:115-120. -/
def tiny64 (seed : BitVec 64) : T64 := init64 ⟨0, 0, 0xfa051f40, 0xffd0fff4, 0x58d02ffeffbfffbc⟩ seed

/-! ## Floating point

A float is its value, a rational number; `rnd` is the rounding of an operation.  All values met here are finite. -/

/-- Value of a `float` with a normal exponent field (sign, exponent, mantissa). -/
def decode32 (u : BitVec 32) : ℚ :=
  (if u.getLsbD 31 then -1 else 1) * (1 + ((u.extractLsb' 0 23).toNat : ℚ) / 2 ^ 23) *
    (2 : ℚ) ^ (((u.extractLsb' 23 8).toNat : ℤ) - 127)

/-- Value of a `double` with a normal exponent field. -/
def decode64 (u : BitVec 64) : ℚ :=
  (if u.getLsbD 63 then -1 else 1) * (1 + ((u.extractLsb' 0 52).toNat : ℚ) / 2 ^ 52) *
    (2 : ℚ) ^ (((u.extractLsb' 52 11).toNat : ℤ) - 1023)

section Float

variable (rnd : ℚ → ℚ) (lin : Bool)

/-- `TINYMT32_MUL`, tinymt32.h:27. -/
def mul32 : ℚ := rnd (1 / 16777216)

/-- `tinymt32_generate_float`, tinymt32.h:191-194; the unsigned integer is converted to `float`. -/
def genFloat (r : T32) : T32 × ℚ :=
  (next32 r, rnd (rnd (((temper32 lin (next32 r)) >>> 8).toNat : ℚ) * mul32 rnd))

/-- `tinymt32_generate_float12`, tinymt32.h:202-205. -/
def genFloat12 (r : T32) : T32 × ℚ := (next32 r, decode32 (conv32 0x3f800000 lin (next32 r)))

/-- `tinymt32_generate_float01`, tinymt32.h:213-216. -/
def genFloat01 (r : T32) : T32 × ℚ := (next32 r, rnd (decode32 (conv32 0x3f800000 lin (next32 r)) - 1))

/-- `tinymt32_generate_floatOC`, tinymt32.h:224-227: `tinymt32_generate_float` makes a second step. -/
def genFloatOC (r : T32) : T32 × ℚ :=
  let p := genFloat rnd lin (next32 r)
  (p.1, rnd (1 - p.2))

/-- `tinymt32_generate_floatOO`, tinymt32.h:235-238. -/
def genFloatOO (r : T32) : T32 × ℚ := (next32 r, rnd (decode32 (conv32 0x3f800001 lin (next32 r)) - 1))

/-- `tinymt32_generate_32double`, tinymt32.h:248-251; `rnd` rounds to `double`. -/
def gen32double (r : T32) : T32 × ℚ :=
  (next32 r, rnd (rnd ((temper32 lin (next32 r)).toNat : ℚ) * rnd (1 / 4294967296)))

/-- `TINYMT64_MUL`, tinymt64.h:27. -/
def mul64 : ℚ := rnd (1 / 9007199254740992)

/-- `tinymt64_generate_double`, tinymt64.h:175-178. -/
def genDouble (r : T64) : T64 × ℚ :=
  (next64 r, rnd (rnd (((temper64 lin (next64 r)) >>> 11).toNat : ℚ) * mul64 rnd))

/-- `tinymt64_generate_double01`, tinymt64.h:186-189. -/
def genDouble01 (r : T64) : T64 × ℚ := (next64 r, rnd (decode64 (conv64 0x3ff0000000000000 lin (next64 r)) - 1))

/-- `tinymt64_generate_double12`, tinymt64.h:197-200. -/
def genDouble12 (r : T64) : T64 × ℚ := (next64 r, decode64 (conv64 0x3ff0000000000000 lin (next64 r)))

/-- `tinymt64_generate_doubleOC`, tinymt64.h:208-211. -/
def genDoubleOC (r : T64) : T64 × ℚ := (next64 r, rnd (2 - decode64 (conv64 0x3ff0000000000000 lin (next64 r))))

/-- `tinymt64_generate_doubleOO`, tinymt64.h:219-222. -/
def genDoubleOO (r : T64) : T64 × ℚ := (next64 r, rnd (decode64 (conv64 0x3ff0000000000001 lin (next64 r)) - 1))

end Float

end MTT.TinyRef
