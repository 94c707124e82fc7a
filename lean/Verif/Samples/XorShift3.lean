import Verif.Samples.XorShift
import Verif.Search.Model
import Verif.Util.Sequential
import Verif.Period.Tables

/-!
# Model of samples/XORSHIFT/xorshift-3.cpp: search over the shift amounts `a`, `b`, `c`

Objects are those of `Verif/Samples/XorShift`; the field `pat` is not used (the class has no such member).
-/

namespace MTT.XorShift3

open Polynomial PIS Search

abbrev St := XorShift.St

/-- `generate()`, xorshift-3.cpp:36-40. -/
def generate (s : St) : St × BitVec 32 :=
  let t := s.x ^^^ (s.x <<< s.a)
  let w' := (s.w ^^^ (s.w >>> s.c)) ^^^ (t ^^^ (t >>> s.b))
  ({ s with x := s.y, y := s.z, z := s.w, w := w' }, w')

/-- `generate(int outBitLen)`, xorshift-3.cpp:41-45. -/
def generateV (v : Nat) (s : St) : St × BitVec 32 :=
  let mask := (~~~ (0 : BitVec 32)) <<< (32 - v)
  let r := generate s
  (r.1, r.2 &&& mask)

/-- `isZero`, xorshift-3.cpp:46. -/
def isZero (s : St) : Bool := s.x == 0 && s.y == 0 && s.z == 0 && s.w == 0

/-- `setZero`, xorshift-3.cpp:47. -/
def setZero (s : St) : St := { s with x := 0, y := 0, z := 0, w := 0 }

/-- `add`, xorshift-3.cpp:48-58 (the argument has the same class, so the cast succeeds). -/
def add (s t : St) : St :=
  { s with x := s.x ^^^ t.x, y := s.y ^^^ t.y, z := s.z ^^^ t.z, w := s.w ^^^ t.w }

/-- `seed`, xorshift-3.cpp:69-72. -/
def seed (v : BitVec 32) (s : St) : St := { s with w := ~~~v, x := v, y := v, z := v }

/-- `setUpParam`, xorshift-3.cpp:74-81; `r` is the number delivered by the parameter generator. -/
def setUpParam (r : BitVec 32) (s : St) : St :=
  let a := r &&& 0x1f
  let r := r >>> 5
  let b := r &&& 0x1f
  let r := r >>> 5
  let c := r &&& 0x1f
  { s with a := a.toNat, b := b.toNat, c := c.toNat }

/-- The interface of the class, `bitSize` is xorshift-3.cpp:73. -/
def ops : GenOps St 32 where
  generate := generate
  generateV := generateV
  add := add
  setZero := setZero
  isZero := isZero
  bitSize := 128

/-- What the search uses of the class. -/
def searchOps : SearchOps St (Seq.St 32) 32 where
  gen := ops
  setUp s src := match Seq.getUint32 src with
    | (src', some r) => some (setUpParam r s, src')
    | (_, none) => none
  seedOne := seed 1

/-- Printed parameters `a, b, c`. -/
abbrev Par := ℕ × ℕ × ℕ

/-- `getParamString`, xorshift-3.cpp:85-91. -/
def par (s : St) : Par := (s.a, s.b, s.c)

/-- `XorShift(uint32_t v)`, xorshift-3.cpp:22-27. -/
def make (v : BitVec 32) : St := seed v ⟨0, 0, 0, 0, 0, 0, 0, 0⟩

/-- `main` with its calls of `search`, xorshift-3.cpp:102-131.  `tries` is the argument of `rs.start`
(0x7fff in the source).  The result is the list of the printed parameters with the printed delta; `none`: out
of fuel, undefined behaviour, or an exception other than that of the parameter source.  `seq` is the
`Sequential` object, shared by all calls of `search`. -/
noncomputable def mainLoop (mps : MPS) (prim : ℕ → (ZMod 2)[X] → Option Bool) (tries : ℕ)
    (junkVeq : ℕ → ℕ) : ℕ → Seq.St 32 → Option (List (Par × ℤ))
  | 0, _ => none
  | fuel + 1, seq =>
    match start mps searchOps prim tries ⟨make 1, seq, 0, 0⟩ with
    | .undef => none
    | .threw _ => some []
    | .ret false st => mainLoop mps prim tries junkVeq fuel st.src
    | .ret true st =>
      match getAllEquidist ops Util.calc1posWrap32 st.rand 32 128 (32 * (33 * 128) + 33) junkVeq with
      | .error _ => none
      | .ok r => (mainLoop mps prim tries junkVeq fuel st.src).map ((par st.rand, r.sum) :: ·)

end MTT.XorShift3
