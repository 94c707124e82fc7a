import Mathlib.Data.Nat.Basic
import Mathlib.Tactic.Common
import Mathlib.Logic.Function.Basic

/-!
# Model of `MersenneTwister.hpp` and `MersenneTwister64.hpp`

The word arrays are memories whose cells may be uninitialised.  Every access is checked: reading a cell that
was never written, or any access outside the allocated array, makes the whole call `none`.
-/

namespace MTT.MT

/-- Contents of an array; `none`: never written. -/
abbrev Mem (w : ℕ) := ℕ → Option (BitVec w)

variable {w : ℕ}

/-- Checked read from an array of `cap` words. -/
def rd (cap : ℕ) (m : Mem w) (i : ℕ) : Option (BitVec w) := if i < cap then m i else none

/-- Checked write. -/
def wr (cap : ℕ) (m : Mem w) (i : ℕ) (v : BitVec w) : Option (Mem w) :=
  if i < cap then some (Function.update m i (some v)) else none

/-- The constants in which the seeding functions of the two classes differ: words allocated, words used,
multiplier and shift of the seeding recurrence, the two multipliers of the array seeding, the final word 0. -/
structure Consts (w : ℕ) where
  cap : ℕ
  N : ℕ
  mul : BitVec w
  sh : ℕ
  mul1 : BitVec w
  mul2 : BitVec w
  msb : BitVec w

/-- The loop of `seed(value)`: `k` turns left, next index `i`.  MersenneTwister.hpp:141-145,
MersenneTwister64.hpp:145-149. -/
def seedLoop (C : Consts w) : ℕ → ℕ → Mem w → Option (Mem w)
  | 0, _, m => some m
  | k + 1, i, m =>
    match rd C.cap m (i - 1) with
    | none => none
    | some p =>
      match wr C.cap m i (C.mul * (p ^^^ (p >>> C.sh)) + BitVec.ofNat w i) with
      | none => none
      | some m => seedLoop C k (i + 1) m

/-- `seed(value)` without the update of `mti`.  MersenneTwister.hpp:139-146, MersenneTwister64.hpp:143-151. -/
def seedMem (C : Consts w) (v : BitVec w) (m : Mem w) : Option (Mem w) :=
  match wr C.cap m 0 v with
  | none => none
  | some m => seedLoop C (C.N - 1) 1 m

/-- `i++; if (i >= N) { mt[0] = mt[N-1]; i = 1; }`.  MersenneTwister.hpp:210-215, 224-228,
MersenneTwister64.hpp:215-220, 228-232. -/
def bump (C : Consts w) (i : ℕ) (m : Mem w) : Option (Mem w × ℕ) :=
  if i + 1 ≥ C.N then
    match rd C.cap m (C.N - 1) with
    | none => none
    | some c => (wr C.cap m 0 c).map fun m => (m, 1)
  else some (m, i + 1)

/-- First loop of `seed_array`.  `cells` is the readable memory behind the key pointer, already converted to
words (for `seed(const std::string&)` the sign-extended characters and the terminating 0); `len` is
`key_length`.  MersenneTwister.hpp:205-219, MersenneTwister64.hpp:210-224. -/
def arr1 (C : Consts w) (cells : List (BitVec w)) (len : ℕ) : ℕ → ℕ → ℕ → Mem w → Option (Mem w × ℕ)
  | 0, i, _, m => some (m, i)
  | k + 1, i, j, m =>
    match rd C.cap m i, rd C.cap m (i - 1), cells[j]? with
    | some a, some b, some v =>
      match wr C.cap m i ((a ^^^ ((b ^^^ (b >>> C.sh)) * C.mul1)) + v + BitVec.ofNat w j) with
      | none => none
      | some m =>
        match bump C i m with
        | none => none
        | some (m, i) => arr1 C cells len k i (if j + 1 ≥ len then 0 else j + 1) m
    | _, _, _ => none

/-- Second loop of `seed_array`.  MersenneTwister.hpp:220-229, MersenneTwister64.hpp:225-233. -/
def arr2 (C : Consts w) : ℕ → ℕ → Mem w → Option (Mem w × ℕ)
  | 0, i, m => some (m, i)
  | k + 1, i, m =>
    match rd C.cap m i, rd C.cap m (i - 1) with
    | some a, some b =>
      match wr C.cap m i ((a ^^^ ((b ^^^ (b >>> C.sh)) * C.mul2)) - BitVec.ofNat w i) with
      | none => none
      | some m =>
        match bump C i m with
        | none => none
        | some (m, i) => arr2 C k i m
    | _, _ => none

/-- `seed_array(value, key_length)` without the update of `mti`.  MersenneTwister.hpp:195-233,
MersenneTwister64.hpp:200-237. -/
def seedArrayMem (C : Consts w) (cells : List (BitVec w)) (len : ℕ) (m : Mem w) : Option (Mem w) :=
  match seedMem C (BitVec.ofNat w 19650218) m with
  | none => none
  | some m =>
    match arr1 C cells len (if C.N > len then C.N else len) 1 0 m with
    | none => none
    | some (m, i) =>
      match arr2 C (C.N - 1) i m with
      | none => none
      | some (m, _) => wr C.cap m 0 C.msb

/-- Object: the array and `mti`. -/
structure St (w : ℕ) where
  mem : Mem w
  mti : ℕ

/-! ## 32-bit class -/

/-- Constants of `MersenneTwister` (line 299 and the seeding functions). -/
def C32 : Consts 32 := ⟨1024, 624, 1812433253, 30, 1664525, 1566083941, 0x80000000⟩

/-- `seed(uint64_t)`, MersenneTwister.hpp:139-146. -/
def seed32 (v : BitVec 64) (s : St 32) : Option (St 32) :=
  (seedMem C32 (v.setWidth 32) s.mem).map fun m => ⟨m, C32.N⟩

/-- `seed(const std::string&)`, `seed(const uint32_t*, int)`, MersenneTwister.hpp:159-178. -/
def seedArr32 (cells : List (BitVec 32)) (len : ℕ) (s : St 32) : Option (St 32) :=
  (seedArrayMem C32 cells len s.mem).map fun m => ⟨m, C32.N⟩

/-- `temper`, MersenneTwister.hpp:302-308. -/
def temper32 (y : BitVec 32) : BitVec 32 :=
  let y := y ^^^ (y >>> 11)
  let y := y ^^^ ((y <<< 7) &&& 0x9d2c5680)
  let y := y ^^^ ((y <<< 15) &&& 0xefc60000)
  y ^^^ (y >>> 18)

/-- `next`, MersenneTwister.hpp:280-296. -/
def next32 (s : St 32) : Option (St 32 × BitVec 32) :=
  let i0 := (1024 - 624 + s.mti) &&& 0x3ff
  let i1 := (1024 - 624 + s.mti + 1) &&& 0x3ff
  let i2 := (1024 - 624 + 397 + s.mti) &&& 0x3ff
  match rd 1024 s.mem i0, rd 1024 s.mem i1, rd 1024 s.mem i2 with
  | some u, some l, some m =>
    let y := (u &&& 0x80000000) ||| (l &&& 0x7fffffff)
    let v := m ^^^ (y >>> 1) ^^^ (if (y &&& 1) = 1 then 0x9908b0df else 0)
    match wr 1024 s.mem s.mti v with
    | none => none
    | some mem => some (⟨mem, (s.mti + 1) &&& 0x3ff⟩, temper32 v)
  | _, _, _ => none

/-- `getUint64`, MersenneTwister.hpp:263-267. -/
def getU64_32 (s : St 32) : Option (St 32 × BitVec 64) :=
  match next32 s with
  | none => none
  | some (s, a) =>
    match next32 s with
    | none => none
    | some (s, b) => some (s, ((a.setWidth 64) <<< 32) ||| b.setWidth 64)

/-! ## 64-bit class -/

/-- Constants of `MersenneTwister64` (line 309 and the seeding functions). -/
def C64 : Consts 64 :=
  ⟨312, 312, 6364136223846793005, 62, 3935559000370003845, 2862933555777941757, 1 <<< 63⟩

/-- `seed(uint64_t)`, MersenneTwister64.hpp:143-151. -/
def seed64 (v : BitVec 64) (s : St 64) : Option (St 64) :=
  (seedMem C64 v s.mem).map fun m => ⟨m, 0⟩

/-- `seed(const std::string&)`, `seed(const uint64_t*, int)`, MersenneTwister64.hpp:164-183. -/
def seedArr64 (cells : List (BitVec 64)) (len : ℕ) (s : St 64) : Option (St 64) :=
  (seedArrayMem C64 cells len s.mem).map fun m => ⟨m, 0⟩

/-- `temper`, MersenneTwister64.hpp:312-318. -/
def temper64 (y : BitVec 64) : BitVec 64 :=
  let y := y ^^^ ((y >>> 29) &&& 0x5555555555555555)
  let y := y ^^^ ((y <<< 17) &&& 0x71D67FFFEDA60000)
  let y := y ^^^ ((y <<< 37) &&& 0xFFF7EEE000000000)
  y ^^^ (y >>> 43)

/-- `next`, MersenneTwister64.hpp:280-292. -/
def next64 (s : St 64) : Option (St 64 × BitVec 64) :=
  match rd 312 s.mem s.mti, rd 312 s.mem ((s.mti + 1) % 312), rd 312 s.mem ((s.mti + 156) % 312) with
  | some u, some l, some m =>
    let x := (u &&& 0xFFFFFFFF80000000) ||| (l &&& 0x7FFFFFFF)
    let v := m ^^^ (x >>> 1) ^^^ (if (x &&& 1) = 1 then 0xB5026F5AA96619E9 else 0)
    match wr 312 s.mem s.mti v with
    | none => none
    | some mem => some (⟨mem, (s.mti + 1) % 312⟩, temper64 v)
  | _, _, _ => none

/-- `getUint32`, MersenneTwister64.hpp:250-252. -/
def getU32_64 (s : St 64) : Option (St 64 × BitVec 32) :=
  (next64 s).map fun q => (q.1, (BitVec.ushiftRight q.2 32).setWidth 32)

/-! ## Histories of calls -/

/-- Calls on an object with `w`-bit words. -/
inductive Op (w : ℕ)
  | seed (v : BitVec 64)
  | seedArr (cells : List (BitVec w)) (len : ℕ)
  | getNative
  | getOther

/-- One call of the 32-bit object with its result (`0` for the seeding calls). -/
def step32 (s : St 32) : Op 32 → Option (St 32 × BitVec 64)
  | .seed v => (seed32 v s).map fun s => (s, 0)
  | .seedArr cells len => (seedArr32 cells len s).map fun s => (s, 0)
  | .getNative => (next32 s).map fun q => (q.1, q.2.setWidth 64)
  | .getOther => getU64_32 s

/-- One call of the 64-bit object. -/
def step64 (s : St 64) : Op 64 → Option (St 64 × BitVec 64)
  | .seed v => (seed64 v s).map fun s => (s, 0)
  | .seedArr cells len => (seedArr64 cells len s).map fun s => (s, 0)
  | .getNative => next64 s
  | .getOther => (getU32_64 s).map fun q => (q.1, q.2.setWidth 64)

/-- A history of calls and their results. -/
def run (step : St w → Op w → Option (St w × BitVec 64)) (s : St w) :
    List (Op w) → Option (St w × List (BitVec 64))
  | [] => some (s, [])
  | o :: os =>
    match step s o with
    | none => none
    | some (s, v) => (run step s os).map fun q => (q.1, v :: q.2)

/-- A freshly allocated array with nothing written. -/
def fresh : St w := ⟨fun _ => none, 0⟩

end MTT.MT
