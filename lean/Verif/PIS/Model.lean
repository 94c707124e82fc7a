import Mathlib.Logic.Function.Basic

/-!
# Model of the PIS algorithm of `include/MTToolBox/AlgorithmEquidistribution.hpp`

The generator is an abstract object with the operations of
`include/MTToolBox/EquidistributionCalculatable.hpp`.  Words `U` are `BitVec w`.
Simplifications: `int` counters are `Nat` (`MTT.PIS.count_le` bounds the counters of live entries by the degree of
the characteristic polynomial, so the C++ `int` does not overflow); an array of pointers is a function from indices; `DEBUG` code is omitted.
-/

namespace MTT

/-- Operations of a generator object, `include/MTToolBox/EquidistributionCalculatable.hpp`
(`generate()` from `AbstractGenerator.hpp`; `generate(int)`, `add`, `setZero`, `isZero`, `bitSize`).
`add a b` is the new value of `a` after `a.add(b)`; `clone()` is the identity on values. -/
structure GenOps (σ : Type) (w : Nat) where
  generate : σ → σ × BitVec w
  generateV : Nat → σ → σ × BitVec w
  add : σ → σ → σ
  setZero : σ → σ
  isZero : σ → Bool
  bitSize : Nat

namespace PIS

/-- `class linear_generator_vector`, AlgorithmEquidistribution.hpp:86-235:
fields `rand`, `count`, `zero`, `next`. -/
structure Entry (σ : Type) (w : Nat) where
  rand : σ
  count : Nat
  zero : Bool
  next : BitVec w

/-- Abnormal outcomes: an unchecked array index out of range (`basis[pivot_index]` with
`pivot_index` = -1 or too large, lines 646-658), the two `logic_error`s of lines 690-701, the
`logic_error` of lines 718-729, and a loop that did not finish within the fuel. -/
inductive PisError
  | indexOutOfRange
  | pivotTooLarge
  | pivotNotDecreasing
  | overTheoreticalBound
  | outOfFuel
deriving DecidableEq, Repr

section
variable {σ : Type} {w : Nat}
/- `step` is `rand->generate(bit_len)` for the current accuracy -/
variable (step : σ → σ × BitVec w) (addf : σ → σ → σ) (bitSize : Nat)

/-- `next = rand->generate(bit_len); count++;` (lines 580-581, 591-592). -/
def Entry.gen (e : Entry σ w) : Entry σ w :=
  { e with rand := (step e.rand).1, next := (step e.rand).2, count := e.count + 1 }

/-- The loop `while (isZero(next))` of `next_state`, lines 582-593.  The argument is
`2*bitSize() - zero_count`; when it is exhausted the test `zero_count > bitSize()*2` succeeds. -/
def nextLoop : Nat → Entry σ w → Entry σ w
  | r, e =>
    if e.next ≠ 0 then e
    else match r with
      | 0 => { e with zero := true }
      | r + 1 => nextLoop r (e.gen step)

/-- `linear_generator_vector::next_state`, lines 573-594. -/
def nextState (e : Entry σ w) : Entry σ w :=
  if e.zero then e else nextLoop step (2 * bitSize) (e.gen step)

/-- `linear_generator_vector::add`, lines 547-553. -/
def Entry.add (a b : Entry σ w) : Entry σ w :=
  { a with rand := addf a.rand b.rand, next := a.next ^^^ b.next }

/-- `swap(basis[i], basis[j])`. -/
def swapE (b : Nat → Entry σ w) (i j : Nat) : Nat → Entry σ w :=
  Function.update (Function.update b i (b j)) j (b i)

/- `calc1pos` is the overload of `calc_1pos` for the word type. -/
variable (calc1pos : BitVec w → Int)

/-- The `while` loop of `get_equidist_main`, lines 620-703 (`m` is `bit_len`). -/
def mainLoop (m : Nat) : Nat → (Nat → Entry σ w) → Int → Except PisError (Nat → Entry σ w)
  | 0, _, _ => .error .outOfFuel
  | fuel + 1, b, pivot =>
    if (b m).zero then .ok b
    else if pivot < 0 ∨ (m : Int) ≤ pivot then .error .indexOutOfRange
    else
      let p := pivot.toNat
      let b1 := if (b m).count > (b p).count then swapE b m p else b
      let b2 := Function.update b1 m ((b1 m).add addf (b1 p))
      if (b2 m).next = 0 then
        let b3 := Function.update b2 m (nextState step bitSize (b2 m))
        mainLoop m fuel b3 (calc1pos (b3 m).next)
      else
        let q := calc1pos (b2 m).next
        if (m : Int) ≤ q then .error .pivotTooLarge
        else if pivot ≤ q then .error .pivotNotDecreasing
        else mainLoop m fuel b2 q

/-- Lines 706-711: minimum of `basis[0..m-1]->count`. -/
def minCount (b : Nat → Entry σ w) (m : Nat) : Nat :=
  (List.range (m - 1)).foldl
    (fun mn i => if mn > (b (i + 1)).count then (b (i + 1)).count else mn) (b 0).count

/-- `get_equidist_main(v)`, lines 613-731.  Returns the new basis array and `k(v)`. -/
def getEquidistMain (stateBitSize fuel m : Nat) (b : Nat → Entry σ w) :
    Except PisError ((Nat → Entry σ w) × Nat) :=
  match mainLoop step addf bitSize calc1pos m fuel b (calc1pos (b m).next) with
  | .error e => .error e
  | .ok b' =>
    if minCount b' m > stateBitSize / m then .error .overTheoreticalBound
    else .ok (b', minCount b' m)

end

section
variable {σ : Type} {w : Nat} (G : GenOps σ w) (calc1pos : BitVec w → Int)

/-- Constructor, lines 293-308: standard basis entries (lines 145-157) and the generator itself
(lines 114-121), the latter advanced by `next_state(bit_length)`. -/
def construct (g : σ) (bitLen : Nat) : Nat → Entry σ w := fun i =>
  if i < bitLen then
    { rand := G.setZero g, count := 0, zero := false, next := 1#w <<< (w - i - 1) }
  else
    nextState (G.generateV bitLen) G.bitSize
      { rand := g, count := 0, zero := false, next := 0 }

/-- `adjust(new_len)`, lines 396-407, on an array of `size` entries. -/
def adjust (size newLen : Nat) (b : Nat → Entry σ w) : Nat → Entry σ w := fun i =>
  if i < size then
    let e := { b i with next := (b i).next &&& ((BitVec.allOnes w) <<< (w - newLen)) }
    if e.next = 0 then nextState (G.generateV newLen) G.bitSize e else e
  else b i

/-- Result of the calculation: the array `veq` (index `v-1` holds `k(v)`) and the sum. -/
structure EquidistResult where
  veq : Nat → Nat
  sum : Int

/-- `for (; bit_len >= 1; bit_len--)` of `get_all_equidist`, lines 480-484. -/
def allLoop (size stateBitSize fuel : Nat) :
    Nat → (Nat → Entry σ w) → EquidistResult → Except PisError EquidistResult
  | 0, _, r => .ok r
  | v + 1, b, r =>
    match getEquidistMain (G.generateV (v + 1)) G.add G.bitSize calc1pos stateBitSize fuel (v + 1)
        (adjust G size (v + 1) b) with
    | .error e => .error e
    | .ok (b', k) =>
      allLoop size stateBitSize fuel v b'
        { veq := Function.update r.veq v k, sum := r.sum + ((stateBitSize / (v + 1) : Nat) - (k : Int)) }

/-- `AlgorithmEquidistribution(g, bitLen, mexp).get_all_equidist(veq)`, lines 293-308 and 467-486;
`stateBitSize` is `mexp` if given and `bitSize()` otherwise.  `veq0` is the initial content of the
caller's array.  Precondition of the code: `1 ≤ bitLen ≤ w`. -/
def getAllEquidist (g : σ) (bitLen stateBitSize fuel : Nat) (veq0 : Nat → Nat) :
    Except PisError EquidistResult :=
  match getEquidistMain (G.generateV bitLen) G.add G.bitSize calc1pos stateBitSize fuel bitLen
      (construct G g bitLen) with
  | .error e => .error e
  | .ok (b, k) =>
    allLoop G calc1pos (bitLen + 1) stateBitSize fuel (bitLen - 1) b
      { veq := Function.update veq0 (bitLen - 1) k, sum := (stateBitSize / bitLen : Nat) - (k : Int) }

/-- `get_equidist(&sum)`, lines 521-533: `k(bit_length)` and the sum over the smaller accuracies. -/
def getEquidist (g : σ) (bitLen stateBitSize fuel : Nat) : Except PisError (Nat × Int) :=
  match getEquidistMain (G.generateV bitLen) G.add G.bitSize calc1pos stateBitSize fuel bitLen
      (construct G g bitLen) with
  | .error e => .error e
  | .ok (b, k) =>
    match allLoop G calc1pos (bitLen + 1) stateBitSize fuel (bitLen - 1) b
        { veq := fun _ => 0, sum := 0 } with
    | .error e => .error e
    | .ok r => .ok (k, r.sum)

end
end PIS
end MTT
