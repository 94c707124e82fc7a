import Verif.PIS.Model

/-!
# Model of the xorshift samples (`samples/XORSHIFT`)
-/

namespace MTT.XorShift

/-- Object of `class XorShift`, samples/XORSHIFT/xorshift-4.cpp:20-146: the shift amounts and the
pattern number, and the four state words.  The `uint16_t` parameters are natural numbers; `setUpParam`
(the only writer, below) keeps the shift amounts under 32, which is what makes the shifts defined. -/
structure St where
  pat : Nat
  a : Nat
  b : Nat
  c : Nat
  x : BitVec 32
  y : BitVec 32
  z : BitVec 32
  w : BitVec 32
deriving DecidableEq

/-- `g`, xorshift-4.cpp:46-67. -/
def g (s : St) (t : BitVec 32) : BitVec 32 :=
  match s.pat with
  | 0 | 1 =>
    let t := t ^^^ (t >>> s.a)
    t ^^^ (t <<< s.b)
  | 2 | 3 =>
    let t := t ^^^ (t <<< s.a)
    t ^^^ (t >>> s.b)
  | 4 | 5 => t ^^^ (t >>> s.a)
  | _ => t ^^^ (t <<< s.a)

/-- `h`, xorshift-4.cpp:69-92. -/
def h (s : St) (t : BitVec 32) : BitVec 32 :=
  match s.pat with
  | 0 | 2 => t ^^^ (t <<< s.c)
  | 1 | 3 => t ^^^ (t >>> s.c)
  | 4 | 6 =>
    let t := t ^^^ (t >>> s.b)
    t ^^^ (t <<< s.c)
  | _ =>
    let t := t ^^^ (t <<< s.b)
    t ^^^ (t >>> s.c)

/-- `generate()`, xorshift-4.cpp:38-45. -/
def generate (s : St) : St × BitVec 32 :=
  let t := h s s.x
  let w' := g s s.w ^^^ t
  ({ s with x := s.y, y := s.z, z := s.w, w := w' }, w')

/-- `generate(int outBitLen)`, xorshift-4.cpp:93-97 (`outBitLen` from 1 to 32: the shift amount
`32 - outBitLen` must be below 32). -/
def generateV (v : Nat) (s : St) : St × BitVec 32 :=
  let mask := (~~~ (0 : BitVec 32)) <<< (32 - v)
  let r := generate s
  (r.1, r.2 &&& mask)

/-- `isZero`, xorshift-4.cpp:98. -/
def isZero (s : St) : Bool := s.x == 0 && s.y == 0 && s.z == 0 && s.w == 0

/-- `setZero`, xorshift-4.cpp:99. -/
def setZero (s : St) : St := { s with x := 0, y := 0, z := 0, w := 0 }

/-- `add`, xorshift-4.cpp:100-110 (the argument has the same class, so the cast succeeds). -/
def add (s t : St) : St :=
  { s with x := s.x ^^^ t.x, y := s.y ^^^ t.y, z := s.z ^^^ t.z, w := s.w ^^^ t.w }

/-- `seed`, xorshift-4.cpp:121-124. -/
def seed (v : BitVec 32) (s : St) : St := { s with w := ~~~v, x := v, y := v, z := v }

/-- `setUpParam`, xorshift-4.cpp:126-138; `r` is the number delivered by the parameter generator. -/
def setUpParam (r : BitVec 32) (s : St) : St :=
  let c := r &&& 0x1f
  let r := r >>> 5
  let b := r &&& 0x1f
  let r := r >>> 5
  let a := r &&& 0x1f
  let r := r >>> 5
  { s with pat := (r &&& 0x7).toNat, a := a.toNat, b := b.toNat, c := c.toNat }

/-- The interface of the class, `bitSize` is xorshift-4.cpp:125. -/
def ops : GenOps St 32 where
  generate := generate
  generateV := generateV
  add := add
  setZero := setZero
  isZero := isZero
  bitSize := 128

/-- `generate()` of `class XorShift` of samples/XORSHIFT/xorshift-5.cpp:22-28 (`a = 20, b = 11, c = 7`,
line 58); the same statements as `xorshift128_generate`, samples/XORSHIFT/xorshift128.c:11-20. -/
def generate5 (s : St) : St × BitVec 32 :=
  let t := s.x ^^^ (s.x <<< 11)
  let t := t ^^^ (t >>> 7)
  let w' := (s.w ^^^ (s.w <<< 20)) ^^^ t
  ({ s with x := s.y, y := s.z, z := s.w, w := w' }, w')

/-- `generate()` of samples/XORSHIFT/xorshift-1.cpp:19-23 and xorshift-2.cpp:22-26
(`a = 5, b = 14, c = 1`). -/
def generate1 (s : St) : St × BitVec 32 :=
  let t := s.x ^^^ (s.x <<< 5)
  let w' := (s.w ^^^ (s.w >>> 1)) ^^^ (t ^^^ (t >>> 14))
  ({ s with x := s.y, y := s.z, z := s.w, w := w' }, w')

/-! ## `samples/XORSHIFT/xorshift128.c` -/

/-- The words of `xorshift128_t` (xorshift128.h). -/
structure X128 where
  x : BitVec 32
  y : BitVec 32
  z : BitVec 32
  w : BitVec 32
deriving DecidableEq

/-- One step of the loop of `xorshift128_init`, xorshift128.c:26-30.  `ar` is uninitialised apart from
`ar[0]`; every cell is written before it is read, so the other cells start with arbitrary values. -/
def initStep (i : Nat) (ar : Fin 4 → BitVec 32) : Fin 4 → BitVec 32 :=
  let p := ar (Fin.ofNat 4 (i - 1))
  Function.update ar (Fin.ofNat 4 i) (1812433253 * (p ^^^ (p >>> 30)) + BitVec.ofNat 32 i)

/-- `xorshift128_init`, xorshift128.c:22-35; `junk` is the uninitialised contents of `ar`. -/
def init (junk : Fin 4 → BitVec 32) (seed : BitVec 32) : X128 :=
  let ar := Function.update junk 0 seed
  let ar := (List.range' 1 7).foldl (fun ar i => initStep i ar) ar
  ⟨ar 0, ar 1, ar 2, ar 3⟩

/-- `ini_func1`, xorshift128.c:108-110. -/
def iniFunc1 (x : BitVec 32) : BitVec 32 := (x ^^^ (x >>> 27)) * 1664525

/-- `ini_func2`, xorshift128.c:111-113. -/
def iniFunc2 (x : BitVec 32) : BitVec 32 := (x ^^^ (x >>> 27)) * 1566083941

/-- One round of the first two loops of `xorshift128_init_by_array`, xorshift128.c:65-84; `k` is the
number added to `r` besides `i`. -/
def round1 (k : BitVec 32) (p : (Fin 4 → BitVec 32) × Nat) : (Fin 4 → BitVec 32) × Nat :=
  let (st, i) := p
  let r := iniFunc1 (st (Fin.ofNat 4 i) ^^^ st (Fin.ofNat 4 (i + 1)) ^^^ st (Fin.ofNat 4 (i + 3)))
  let st := Function.update st (Fin.ofNat 4 (i + 1)) (st (Fin.ofNat 4 (i + 1)) + r)
  let r := r + (k + BitVec.ofNat 32 i)
  let st := Function.update st (Fin.ofNat 4 (i + 2)) (st (Fin.ofNat 4 (i + 2)) + r)
  let st := Function.update st (Fin.ofNat 4 i) r
  (st, (i + 1) % 4)

/-- One round of the last loop, xorshift128.c:85-94. -/
def round2 (p : (Fin 4 → BitVec 32) × Nat) : (Fin 4 → BitVec 32) × Nat :=
  let (st, i) := p
  let r := iniFunc2 (st (Fin.ofNat 4 i) + st (Fin.ofNat 4 (i + 1)) + st (Fin.ofNat 4 (i + 3)))
  let st := Function.update st (Fin.ofNat 4 (i + 1)) (st (Fin.ofNat 4 (i + 1)) ^^^ r)
  let r := r - BitVec.ofNat 32 i
  let st := Function.update st (Fin.ofNat 4 (i + 2)) (st (Fin.ofNat 4 (i + 2)) ^^^ r)
  let st := Function.update st (Fin.ofNat 4 i) r
  (st, (i + 1) % 4)

/-- `period_certification`, xorshift128.c:99-107. -/
def periodCertification (s : X128) : X128 :=
  if s.x == 0 && s.y == 0 && s.z == 0 && s.w == 0 then
    ⟨0x58004f#32 ||| 0, 0x520053, 0x480049, 0x460054⟩
  else s

/-- The local array `st` at the end of `xorshift128_init_by_array`, xorshift128.c:37-94. -/
def initByArraySt (key : List (BitVec 32)) : Fin 4 → BitVec 32 :=
  let length := key.length
  let count := if length + 1 > 8 then length + 1 else 8
  let st : Fin 4 → BitVec 32 := fun _ => 0
  let r := iniFunc1 (st 0 ^^^ st 1 ^^^ st 3)
  let st := Function.update st 1 (st 1 + r)
  let r := r + BitVec.ofNat 32 length
  let st := Function.update st 2 (st 2 + r)
  let st := Function.update st 0 r
  let count := count - 1
  let p := (key.take count).foldl (fun p k => round1 k p) (st, 1)
  let p := Nat.repeat (round1 0) (count - min count length) p
  (Nat.repeat round2 4 p).1

/-- `xorshift128_init_by_array`, xorshift128.c:37-97: the computed array `st` is a local variable and is
never stored; only `period_certification(xor)` touches the object. -/
def initByArray (key : List (BitVec 32)) (s : X128) : X128 :=
  let _st := initByArraySt key
  periodCertification s

end MTT.XorShift
