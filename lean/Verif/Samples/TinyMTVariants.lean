import Verif.Samples.TinyMTDC

/-!
# Model of the variants of `tinymt32::temper` that are chosen when the program is compiled
-/

namespace MTT.TinyMT

open Search

/-- Which of the macros `NO_TEMPER`, `NON_LINEAR` is defined, tinymt32search.hpp:326-342; `NO_TEMPER` comes first, so that
`NON_LINEAR` has no effect beside it. -/
inductive Macro
  | none
  | nonLinear
  | noTemper

/-- `temper`, tinymt32search.hpp:325-344, with the macros. -/
def temperC : Macro → St → BitVec 32
  | .none, s => temper s
  | .nonLinear, s =>
    let t0 := s.s3
    let t1 := s.s0 + (s.s2 >>> 8)
    let t0 := t0 ^^^ t1
    if (t1 &&& 1) ≠ 0 then t0 ^^^ s.tmat else t0
  | .noTemper, s => s.s0

/-- `generate()`, tinymt32search.hpp:237-240. -/
def generateC (c : Macro) (s : St) : St × BitVec 32 := (nextState s, temperC c (nextState s))

/-- `generate(int bit_len)`, tinymt32search.hpp:249-259 (`bit_len` from 1 to 32). -/
def generateVC (c : Macro) (v : Nat) (s : St) : St × BitVec 32 :=
  let r := generateC c s
  let u := if s.rev then Util.reverseBit32 r.2 else r.2
  let mask := (~~~ (0 : BitVec 32)) <<< (32 - v)
  (r.1, u &&& mask)

/-- The interface of the class compiled with the macro. -/
def opsC (c : Macro) : GenOps St 32 := { ops with generate := generateC c, generateV := generateVC c }

/-- What the recursion search uses of it, as `searchOps`. -/
def searchOpsC (c : Macro) : SearchOps St (Seq.St 32) 32 := { searchOps with gen := opsC c }

end MTT.TinyMT
