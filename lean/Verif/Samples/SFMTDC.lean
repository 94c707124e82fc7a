import Verif.Anni.Search
import Verif.Anni.Instances
import Verif.Samples.LineText

/-!
# Model of the programs `samples/sfmtdc/sfmtdc.cpp` and `samples/sfmtdc/sfmtdcfixed.cpp`

The second differs from the first only by `#define SFMT_PARAM_FIXED 1` (sfmtdcfixed.cpp:34).

The random numbers of the `MersenneTwister` object are an arbitrary sequence.  NTL's `MinPolySeq` and `kernel` are
parameters.  What the program leaves uninitialised is in `Junk`.  Not modelled: `seed = ...`, `verbose`, the header, the
formatting, option parsing except the list of exponents.
-/

namespace MTT.SFMT

open Polynomial PIS Search W128 Parity Anni SIMD

/-- `allowed_mexp`, sfmtdc.cpp:233-236. -/
def allowedMexp : List Nat := [607, 1279, 2281, 3217, 4253, 4423, 9689, 9941, 11213, 19937, 21701, 23209, 44497]

/-- What is not initialised: the array of the state (sfmtsearch.hpp:170-193), the local arrays `veq`, `veq32`, `veq64`; and
the word that an undefined shift yields in the parity search. -/
structure Junk where
  state : Nat → W128
  veq : Nat → Nat
  veq32 : Nat → Int
  veq64 : Nat → Int
  shift : W128

/-- What the search uses of `sfmt`: `setUpParam` takes thirteen numbers from the source. -/
def setUp (s : St) (f : Nat → BitVec 32) : Option (St × (Nat → BitVec 32)) :=
  (setUpParam f s).map fun s' => (s', fun k => f (k + 13))

/-- `setUpParam` with `SFMT_PARAM_FIXED`, sfmtsearch.hpp:457-481: nine numbers; the shifts are fixed (465-470). -/
def setUpFixed (s : St) (f : Nat → BitVec 32) : Option (St × (Nat → BitVec 32)) :=
  if s.size = 2 then none
  else some ({ s with param := ⟨((f 0) % (BitVec.ofNat 32 s.size - 2) + 1).toInt.toNat, 19, 1, 7, 1,
      f 1 ||| f 2, f 3 ||| f 4, f 5 ||| f 6, f 7 ||| f 8⟩ }, fun k => f (k + 9))

/-- A printed line: `getParamString` (sfmtsearch.hpp:114-134) and the three sums, sfmtdc.cpp:134-136. -/
structure Line extends Fields where
  delta32 : Int
  delta64 : Int
  delta128 : Int

/-- The fields that `getParamString` prints, sfmtsearch.hpp:576-578. -/
def fieldsOf (g : St) : Fields := ⟨g.mexp, g.param, g.parity1, g.parity2, g.parity3, g.parity4⟩

/-- The object that printed parameters make: the constructor with parameters, sfmtsearch.hpp:220-234. -/
def Fields.gen (l : Fields) : St := ctorPar l.mexp l.param l.parity1 l.parity2 l.parity3 l.parity4

/-- How the function `search` ends: `return 0` after `count` lines; `search failed` and `return 0`; `return -1`; an
exception; something undefined.  In the first two cases with the printed lines. -/
inductive Outcome
  | done (lines : List Line)
  | failed (lines : List Line)
  | minusOne
  | threw
  | undef

noncomputable section

/-- The three measurements, sfmtdc.cpp:108-133 and calc_equidist.cpp:53-69: of the 128-bit words of `g128`, of the 32-bit and
of the 64-bit words of `g`.  `none` is an exception. -/
def deltas (J : Junk) (mexp : ℕ) (lsb : Bool) (g128 g : St) : Option (ℤ × ℤ × ℤ) :=
  let n := mexp / 128 + 1
  match getAllEquidist (ops n) calc1posWrap g128 128 mexp (128 * (129 * mexp) + 129) J.veq with
  | .error _ => none
  | .ok r128 =>
    match calcSIMD (simdOps n) (simdAlg info32 lsb) calc1posWrap (128 * (129 * mexp) + 129) mexp 32 g J.veq32 with
    | .error _ => none
    | .ok r32 =>
      match calcSIMD (simdOps n) (simdAlg info64 lsb) calc1posWrap (128 * (129 * mexp) + 129) mexp 64 g J.veq64 with
      | .error _ => none
      | .ok r64 => some (r32.2, r64.2, r128.sum)

/-- One turn of the loop after a successful `ars.start`, sfmtdc.cpp:92-137: the printed line and the object.  Both seeds
are the same: `getOne<w128_t>()` and `{{1, 0, 0, 0}}`. -/
def measure (mps : MPS) (kernel : KernelFn) (fuel : ℕ) (J : Junk) (mexp : ℕ) (g : St) (irreducible : (ZMod 2)[X]) :
    Except Outcome (Line × St) :=
  let n := mexp / 128 + 1
  if Period.deg irreducible ≠ mexp then .error .minusOne
  else match searchParity (rops n mexp) words128 fuel kernel J.shift g irreducible with
    | .error _ => .error .threw
    | .ok (_, g) =>
      let g := seed (mk32 1 0 0 0) g
      match anniS mps (rops n mexp) g with
      | none => .error .undef
      | some (_, false) => .error .minusOne
      | some (g, true) =>
        match deltas J mexp false g g with
        | none => .error .threw
        | some (d32, d64, d128) => .ok (⟨fieldsOf g, d32, d64, d128⟩, g)

/-- The loop, sfmtdc.cpp:90-158, with `c` lines to print and the lines already printed (last first); `su` is
`setUpParam`. -/
def dcLoop (mps : MPS) (kernel : KernelFn) (su : St → (ℕ → BitVec 32) → Option (St × (ℕ → BitVec 32))) (fuel : ℕ) (J : Junk)
    (mexp : ℕ) :
    ℕ → RSt St (ℕ → BitVec 32) → List Line → Outcome
  | 0, _, out => .done out.reverse
  | c + 1, st, out =>
    match rStart mps (dOps (rops (mexp / 128 + 1) mexp) su (seed getOne)) mexp (mexp * 100) st with
    | .undef => .undef
    | .threw _ => .threw
    | .ret false _ => .failed out.reverse
    | .ret true st =>
      match measure mps kernel fuel J mexp st.rand st.irreducible with
      | .error o => o
      | .ok (l, g) => dcLoop mps kernel su fuel J mexp c { st with rand := g } (l :: out)

/-- `search(opt, count)`, sfmtdc.cpp:77-164; `f` are the numbers of the Mersenne Twister. -/
def dcSearch (mps : MPS) (kernel : KernelFn) (fuel : ℕ) (J : Junk) (mexp count : ℕ) (f : ℕ → BitVec 32) : Outcome :=
  dcLoop mps kernel setUp fuel J mexp count ⟨ctor mexp J.state, f, 0, 0, 0⟩ []

/-- `search(opt, count)` of sfmtdcfixed.cpp:78-165. -/
def dcFixed (mps : MPS) (kernel : KernelFn) (fuel : ℕ) (J : Junk) (mexp count : ℕ) (f : ℕ → BitVec 32) : Outcome :=
  dcLoop mps kernel setUpFixed fuel J mexp count ⟨ctor mexp J.state, f, 0, 0, 0⟩ []

end

end MTT.SFMT
