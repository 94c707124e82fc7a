import Verif.PIS.Model
import Verif.Samples.TinyRef

/-!
# Model of the generator classes of the tests: `RTiny32` and `RLittle32` (`test/test_generator.hpp`)

The shift amounts and `pos` are `int` in the code; here they are natural numbers (the constructors and `setUpParam` are only used with
numbers that are not negative).  A shift by 32 or more is undefined in C++; the theorems assume shift amounts below 32 wherever it matters.
-/

namespace MTT.Tests

/-! ## RTiny32 -/

/-- The parameters of `RTiny32`, test_generator.hpp:235-240. -/
structure RTPar where
  mat1 : BitVec 32
  mat2 : BitVec 32
  sh1 : ℕ
  sh2 : ℕ
  sh3 : ℕ
  sh4 : ℕ
deriving DecidableEq

/-- An object `RTiny32`, test_generator.hpp:156-251: the parameters and the four words of `state`. -/
structure RT where
  par : RTPar
  s0 : BitVec 32
  s1 : BitVec 32
  s2 : BitVec 32
  s3 : BitVec 32
deriving DecidableEq

/-- The array `state`. -/
def RT.arr (r : RT) : Fin 4 → BitVec 32
  | 0 => r.s0
  | 1 => r.s1
  | 2 => r.s2
  | 3 => r.s3

/-- `RTiny32::generate`, test_generator.hpp:194-214. -/
def rtGen (r : RT) : RT × BitVec 32 :=
  let x := r.s0
  let y := r.s1
  let y := y ^^^ (y >>> r.par.sh1)
  let y := y ^^^ (y <<< r.par.sh2)
  let x := x ^^^ (x <<< r.par.sh3)
  let x := x ^^^ (x >>> r.par.sh4)
  let x := x ^^^ y
  let r' := { r with s0 := r.s1, s1 := r.s2, s2 := r.s3, s3 := x }
  let r'' := if (x &&& 1) ≠ 0 then { r' with s1 := r'.s1 ^^^ r.par.mat1, s2 := r'.s2 ^^^ r.par.mat2 } else r'
  (r'', r''.s0)

/-- One turn of the loop of `RTiny32::seed`, test_generator.hpp:221-226. -/
def rtSeedStep (st : Fin 4 → BitVec 32) (i : ℕ) : Fin 4 → BitVec 32 :=
  let p := st (Fin.ofNat 4 (i - 1))
  Function.update st (Fin.ofNat 4 i) (st (Fin.ofNat 4 i) ^^^ (BitVec.ofNat 32 i + (1812433253 : BitVec 32) * (p ^^^ (p >>> 30))))

/-- `RTiny32::seed`, test_generator.hpp:216-227 (`min_loop = 8`). -/
def rtSeed (v : BitVec 32) (r : RT) : RT :=
  let st := (List.range' 1 7).foldl rtSeedStep ({ r with s0 := v, s1 := r.par.mat1, s2 := r.par.mat2, s3 := 0 } : RT).arr
  { r with s0 := st 0, s1 := st 1, s2 := st 2, s3 := st 3 }

/-- `RTiny32(mat1, mat2, sh1, sh2, sh3, sh4, value)`, test_generator.hpp:158-163; the words of `state` are overwritten by `seed`. -/
def rtNew (p : RTPar) (v : BitVec 32) : RT := rtSeed v ⟨p, 0, 0, 0, 0⟩

/-- `RTiny32(value)`, test_generator.hpp:165-169. -/
def rtDefault (v : BitVec 32) : RT := rtNew ⟨0x7c9e604d, 0xe91ac974, 2, 16, 24, 23⟩ v

/-- `RTiny32::setUpParam`, test_generator.hpp:175-182; `f` are the numbers of the parameter generator.  The state is not touched. -/
def rtSetUp (f : ℕ → BitVec 32) (r : RT) : RT :=
  { r with par := ⟨f 0, f 1, (f 2 % 32).toNat, (f 3 % 32).toNat, (f 4 % 32).toNat, (f 5 % 32).toNat⟩ }

/-- `RTiny32` as seen by `minpoly`, which uses `generate` and `bitSize` (test_generator.hpp:229-231) only.  The class has no other
operations; the remaining fields are filled in because `GenOps` has them. -/
def rtOps : GenOps RT 32 where
  generate := rtGen
  generateV v s := ((rtGen s).1, (rtGen s).2 &&& ((~~~ (0 : BitVec 32)) <<< (32 - v)))
  add a b := { a with s0 := a.s0 ^^^ b.s0, s1 := a.s1 ^^^ b.s1, s2 := a.s2 ^^^ b.s2, s3 := a.s3 ^^^ b.s3 }
  setZero a := { a with s0 := 0, s1 := 0, s2 := 0, s3 := 0 }
  isZero a := a.s0 == 0 && a.s1 == 0 && a.s2 == 0 && a.s3 == 0
  bitSize := 128

/-! ## RLittle32 -/

/-- The parameters of `RLittle32`, test_generator.hpp:332-337. -/
structure RLPar where
  mat1 : BitVec 32
  pos : ℕ
  sh1 : ℕ
  sh2 : ℕ
  sh3 : ℕ
  sh4 : ℕ
deriving DecidableEq

/-- An object `RLittle32`, test_generator.hpp:253-349: `state` has 17 words. -/
structure RL where
  par : RLPar
  index : ℕ
  state : ℕ → BitVec 32

/-- The value that `RLittle32::generate` stores and returns, test_generator.hpp:300-308, from `x = state[index]` and
`y = state[(index + pos) % length]`. -/
def rlNew1 (p : RLPar) (x y : BitVec 32) : BitVec 32 :=
  let y := y ^^^ (y >>> p.sh1)
  let y := y ^^^ (y <<< p.sh2)
  let x := x ^^^ (x <<< p.sh3)
  let x := x ^^^ (x >>> p.sh4)
  let x := x ^^^ y
  if (y &&& 1) ≠ 0 then x ^^^ p.mat1 else x

/-- `RLittle32::generate`, test_generator.hpp:292-310. -/
def rlGen (r : RL) : RL × BitVec 32 :=
  let i := (r.index + 1) % 17
  let v := rlNew1 r.par (r.state (i % 17)) (r.state ((i + r.par.pos) % 17))
  ({ r with index := i, state := Function.update r.state i v }, v)

/-- One turn of the second loop of `RLittle32::seed`, test_generator.hpp:318-323. -/
def rlSeedStep (st : ℕ → BitVec 32) (i : ℕ) : ℕ → BitVec 32 :=
  Function.update st i (st i ^^^ (BitVec.ofNat 32 i + (1812433253 : BitVec 32) * (st (i - 1) ^^^ (st (i - 1) >>> 30))))

/-- `RLittle32::seed`, test_generator.hpp:312-325. -/
def rlSeed (v : BitVec 32) (r : RL) : RL :=
  let st := (List.range 17).foldl (fun a i => Function.update a i 0) r.state
  let st := Function.update st 0 v
  let st := Function.update st 1 r.par.mat1
  { r with state := (List.range' 1 16).foldl rlSeedStep st, index := 16 }

/-- `RLittle32(mat1, pos, sh1, sh2, sh3, sh4, value)`, test_generator.hpp:255-261; `junk` is what `new` left in the array. -/
def rlNew (junk : ℕ → BitVec 32) (p : RLPar) (v : BitVec 32) : RL := rlSeed v ⟨p, 0, junk⟩

/-- `RLittle32(value)`, test_generator.hpp:263-267. -/
def rlDefault (junk : ℕ → BitVec 32) (v : BitVec 32) : RL := rlNew junk ⟨0x7c9e604d, 8, 2, 16, 24, 23⟩ v

/-- `RLittle32::setUpParam`, test_generator.hpp:273-281. -/
def rlSetUp (f : ℕ → BitVec 32) (r : RL) : RL :=
  rlSeed 1234 { r with par :=
    ⟨f 0, (f 1 % 17).toNat, (f 2 % 32).toNat, (f 3 % 32).toNat, (f 4 % 32).toNat, (f 5 % 32).toNat⟩ }

/-- `RLittle32` as seen by `minpoly` (see `rtOps`); `bitSize` is test_generator.hpp:327-329. -/
def rlOps : GenOps RL 32 where
  generate := rlGen
  generateV v s := ((rlGen s).1, (rlGen s).2 &&& ((~~~ (0 : BitVec 32)) <<< (32 - v)))
  add a b := { a with state := (List.range 17).foldl (fun c j => Function.update c ((a.index + j) % 17)
    (c ((a.index + j) % 17) ^^^ b.state ((b.index + j) % 17))) a.state }
  setZero a := { a with state := (List.range 17).foldl (fun c i => Function.update c i 0) a.state }
  isZero a := (List.range 17).all fun i => a.state i == 0
  bitSize := 544

end MTT.Tests
