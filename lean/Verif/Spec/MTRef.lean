import Mathlib.Logic.Function.Basic

/-!
# The published Mersenne Twisters

Definitions of MT19937 and MT19937-64 with all constants written out, independent of the model of the code.
-/

namespace MTT.MTRef

/-- One step of the published initialisation of MT19937. -/
def init32 (i : Nat) (p : BitVec 32) : BitVec 32 := 1812433253 * (p ^^^ (p >>> 30)) + BitVec.ofNat 32 (i + 1)

/-- Initial words of MT19937 for a seed. -/
def seed32 (v : BitVec 32) : Nat → BitVec 32
  | 0 => v
  | i + 1 => init32 i (seed32 v i)

/-- Published array initialisation of MT19937, first loop: `k` turns left. -/
def mix32 (v : Nat → BitVec 32) (len : Nat) : Nat → Nat → Nat → (Nat → BitVec 32) → (Nat → BitVec 32) × Nat
  | 0, i, _, f => (f, i)
  | k + 1, i, j, f =>
    let f := Function.update f i ((f i ^^^ ((f (i - 1) ^^^ (f (i - 1) >>> 30)) * 1664525)) + v j + BitVec.ofNat 32 j)
    let j := if j + 1 < len then j + 1 else 0
    if i + 1 ≥ 624 then mix32 v len k 1 j (Function.update f 0 (f 623)) else mix32 v len k (i + 1) j f

/-- Second loop. -/
def mix32' : Nat → Nat → (Nat → BitVec 32) → (Nat → BitVec 32)
  | 0, _, f => f
  | k + 1, i, f =>
    let f := Function.update f i ((f i ^^^ ((f (i - 1) ^^^ (f (i - 1) >>> 30)) * 1566083941)) - BitVec.ofNat 32 i)
    if i + 1 ≥ 624 then mix32' k 1 (Function.update f 0 (f 623)) else mix32' k (i + 1) f

/-- Initial words of MT19937 for a key. -/
def array32 (v : Nat → BitVec 32) (len : Nat) : Nat → BitVec 32 :=
  let p := mix32 v len (max 624 len) 1 0 (seed32 19650218)
  Function.update (mix32' 623 p.2 p.1) 0 0x80000000

/-- The recurrence of MT19937. -/
def IsSeq32 (x : Nat → BitVec 32) : Prop := ∀ k,
  x (k + 624) = x (k + 397) ^^^
    ((((x k &&& 0x80000000) ||| (x (k + 1) &&& 0x7fffffff)) >>> 1) ^^^
      (if (x (k + 1)).getLsbD 0 then 0x9908b0df else 0))

/-- Tempering of MT19937. -/
def temper32 (y : BitVec 32) : BitVec 32 :=
  let y := y ^^^ (y >>> 11)
  let y := y ^^^ ((y <<< 7) &&& 0x9d2c5680)
  let y := y ^^^ ((y <<< 15) &&& 0xefc60000)
  y ^^^ (y >>> 18)

/-- One step of the published initialisation of MT19937-64. -/
def init64 (i : Nat) (p : BitVec 64) : BitVec 64 :=
  6364136223846793005 * (p ^^^ (p >>> 62)) + BitVec.ofNat 64 (i + 1)

/-- Initial words of MT19937-64 for a seed. -/
def seed64 (v : BitVec 64) : Nat → BitVec 64
  | 0 => v
  | i + 1 => init64 i (seed64 v i)

/-- Published array initialisation of MT19937-64, first loop. -/
def mix64 (v : Nat → BitVec 64) (len : Nat) : Nat → Nat → Nat → (Nat → BitVec 64) → (Nat → BitVec 64) × Nat
  | 0, i, _, f => (f, i)
  | k + 1, i, j, f =>
    let f := Function.update f i
      ((f i ^^^ ((f (i - 1) ^^^ (f (i - 1) >>> 62)) * 3935559000370003845)) + v j + BitVec.ofNat 64 j)
    let j := if j + 1 < len then j + 1 else 0
    if i + 1 ≥ 312 then mix64 v len k 1 j (Function.update f 0 (f 311)) else mix64 v len k (i + 1) j f

/-- Second loop. -/
def mix64' : Nat → Nat → (Nat → BitVec 64) → (Nat → BitVec 64)
  | 0, _, f => f
  | k + 1, i, f =>
    let f := Function.update f i
      ((f i ^^^ ((f (i - 1) ^^^ (f (i - 1) >>> 62)) * 2862933555777941757)) - BitVec.ofNat 64 i)
    if i + 1 ≥ 312 then mix64' k 1 (Function.update f 0 (f 311)) else mix64' k (i + 1) f

/-- Initial words of MT19937-64 for a key. -/
def array64 (v : Nat → BitVec 64) (len : Nat) : Nat → BitVec 64 :=
  let p := mix64 v len (max 312 len) 1 0 (seed64 19650218)
  Function.update (mix64' 311 p.2 p.1) 0 0x8000000000000000

/-- The recurrence of MT19937-64. -/
def IsSeq64 (x : Nat → BitVec 64) : Prop := ∀ k,
  x (k + 312) = x (k + 156) ^^^
    ((((x k &&& 0xFFFFFFFF80000000) ||| (x (k + 1) &&& 0x7FFFFFFF)) >>> 1) ^^^
      (if (x (k + 1)).getLsbD 0 then 0xB5026F5AA96619E9 else 0))

/-- Tempering of MT19937-64. -/
def temper64 (y : BitVec 64) : BitVec 64 :=
  let y := y ^^^ ((y >>> 29) &&& 0x5555555555555555)
  let y := y ^^^ ((y <<< 17) &&& 0x71D67FFFEDA60000)
  let y := y ^^^ ((y <<< 37) &&& 0xFFF7EEE000000000)
  y ^^^ (y >>> 43)

-- The published first outputs for the seed 5489 (3499211612 and 14514284786278117030).
example (x : Nat → BitVec 32) (hx : IsSeq32 x) (h0 : ∀ j, j < 624 → x j = seed32 5489 j) :
    temper32 (x 624) = 3499211612 := by
  have h := hx 0
  rw [h0 (0 + 397) (by decide), h0 0 (by decide), h0 (0 + 1) (by decide)] at h
  rw [show x 624 = _ from h]
  decide +kernel

example (x : Nat → BitVec 64) (hx : IsSeq64 x) (h0 : ∀ j, j < 312 → x j = seed64 5489 j) :
    temper64 (x 312) = 14514284786278117030 := by
  have h := hx 0
  rw [h0 (0 + 156) (by decide), h0 0 (by decide), h0 (0 + 1) (by decide)] at h
  rw [show x 312 = _ from h]
  decide +kernel

end MTT.MTRef
