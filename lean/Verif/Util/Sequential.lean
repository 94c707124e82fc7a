import Mathlib.Data.Nat.Basic
import Mathlib.Tactic.Common

/-!
# Model of `include/MTToolBox/Sequential.hpp`

The type parameter `T` is an unsigned word `BitVec w` (the library and its samples use `uint32_t` and
`uint64_t`).  The default constructor (line 58), which leaves all members uninitialised, is not modelled.
-/

namespace MTT.Seq

/-- Members `status`, `mask`, `error`. -/
structure St (w : Nat) where
  status : BitVec w
  mask : BitVec w
  error : Bool
deriving DecidableEq

variable {w : Nat}

/-- `Sequential(T p_mask)`, Sequential.hpp:73-77. -/
def make1 (mask : BitVec w) : St w := ⟨-1, mask, false⟩

/-- `Sequential(T p_mask, T seed)`, Sequential.hpp:93-97. -/
def make2 (mask seed : BitVec w) : St w := ⟨seed, mask, false⟩

/-- `reseed`, Sequential.hpp:156-159. -/
def reseed (seed : BitVec w) (s : St w) : St w := { s with status := seed, error := false }

/-- `seed(uint32_t)` / `seed(uint64_t)`, Sequential.hpp:123-138: conversion to `T`. -/
def seed {n : Nat} (value : BitVec n) (s : St w) : St w := reseed (value.setWidth w) s

/-- `next`, Sequential.hpp:224-234.  `none` is the exception `underflow_error`. -/
def next (s : St w) : St w × Option (BitVec w) :=
  if s.error then (s, none)
  else
    let s := if s.status = 0 then { s with error := true } else s
    let work := s.status
    let s := { s with status := s.status - 1 }
    (s, some (work ^^^ s.mask))

/-- `getUint32`, Sequential.hpp:178-180: implicit conversion of the result. -/
def getUint32 (s : St w) : St w × Option (BitVec 32) :=
  ((next s).1, (next s).2.map (·.setWidth 32))

/-- `getUint64`, Sequential.hpp:199-201. -/
def getUint64 (s : St w) : St w × Option (BitVec 64) :=
  ((next s).1, (next s).2.map (·.setWidth 64))

/-- Calls on the object. -/
inductive Op (w : Nat)
  | seed32 (v : BitVec 32)
  | seed64 (v : BitVec 64)
  | reseed (v : BitVec w)
  | next

/-- Effect of one call and its result (`none` for the seeding calls). -/
def step (s : St w) : Op w → St w × Option (Option (BitVec w))
  | .seed32 v => (seed v s, none)
  | .seed64 v => (seed v s, none)
  | .reseed v => (reseed v s, none)
  | .next => ((next s).1, some (next s).2)

/-- A history of calls: final state and results of the `next` calls. -/
def run (s : St w) : List (Op w) → St w × List (Option (BitVec w))
  | [] => (s, [])
  | o :: os =>
    let r := step s o
    let rest := run r.1 os
    (rest.1, match r.2 with | some x => x :: rest.2 | none => rest.2)

end MTT.Seq
