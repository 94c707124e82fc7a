import Verif.Lin.Model
import Verif.Util.Model
import Verif.Samples.W128

/-!
# Model of `AlgorithmCalculateParity.hpp`

The generator is an abstract object with the operations of `ReducibleGenerator.hpp`.  Simplifications:
`new G(g)` copies the value and `delete` does nothing; the array `bases` is a function from indices, with an error
for an index out of range; `while` loops without a syntactic bound take fuel; `DEBUG` code is omitted; NTL's
`kernel` is a parameter; the shift by a negative amount at the end of two loops (undefined in C++, its result is not
used) yields the arbitrary word `junk`.
-/

namespace MTT.Parity

open Polynomial

/-- The additional operations of `ReducibleGenerator.hpp:83-124`: `getParityValue`, `setParityValue`, `setOneBit`,
`getMexp`. -/
structure ROps (σ : Type) (w : ℕ) extends GenOps σ w where
  getParity : σ → BitVec w
  setParity : BitVec w → σ → σ
  setOneBit : ℕ → σ → σ
  mexp : ℕ

/-- The operations on words used by the class: `calc_1pos` and `setZero(mask); setBitOfPos(&mask, pos, 1)` (`none`
for an undefined shift). -/
structure WordOps (w : ℕ) where
  calc1pos : BitVec w → Int
  setPos : Int → Option (BitVec w)

/-- The word operations of `util.hpp` for `uint32_t`. -/
def words32 : WordOps 32 := ⟨Util.calc1posWrap32, fun pos => Util.setBitOfPos 0 pos 1⟩
/-- The word operations of `util.hpp` for `uint64_t`. -/
def words64 : WordOps 64 := ⟨Util.calc1posWrap64, fun pos => Util.setBitOfPos 0 pos 1⟩
/-- The word operations of `samples/include/w128.hpp`. -/
def words128 : WordOps 128 := ⟨W128.calc1posWrap, fun pos => W128.setBitOfPos 0 pos 1⟩

/-- `struct internal_state`, AlgorithmCalculateParity.hpp:182-186. -/
structure IS (σ : Type) (w : ℕ) where
  zero : Bool
  next : BitVec w
  rg : σ

/-- Abnormal outcomes: the loop of `set_state` did not end within the fuel; `bases[-1]` in `addBase`; `throw "pivot >
size error"` (line 361); `mx.SetDims` with a negative size or `mx.put` with a column out of range (line 408, 419);
`throw "parity vector can't find"` (line 428). -/
inductive Err
  | outOfFuel
  | indexOutOfRange
  | pivotTooLarge
  | dims
  | noVector
deriving DecidableEq, Repr

noncomputable section

variable {σ : Type} {w : ℕ} (R : ROps σ w) (W : WordOps w)

/-- The loop of `set_state`, lines 263-270. -/
def setStateLoop : ℕ → IS σ w → Option (IS σ w)
  | 0, _ => none
  | fuel + 1, st =>
    if st.next ≠ 0 then some st
    else if R.isZero st.rg then some { st with zero := true }
    else
      let rg := (R.generate st.rg).1
      setStateLoop fuel { st with rg := rg, next := R.getParity rg }

/-- `set_state`, lines 250-275. -/
def setState (fuel : ℕ) (st : IS σ w) : Option (IS σ w) :=
  if R.isZero st.rg then some { st with zero := true, next := 0 }
  else
    let rg := (R.generate st.rg).1
    setStateLoop R fuel { zero := false, rg := rg, next := R.getParity rg }

/-- `add_state`, lines 292-295. -/
def addState (dist src : IS σ w) : IS σ w :=
  { dist with rg := R.add dist.rg src.rg, next := dist.next ^^^ src.next }

/-- `get_next_state`, lines 308-313. -/
def getNextState (fuel : ℕ) (st : IS σ w) : Option (IS σ w) :=
  if st.zero then some st else setState R fuel st

/-- `calc_basis`, lines 202-237: `k = maxdegree - *bit_pos` turns left. -/
def calcBasis (fuel : ℕ) (f : (ZMod 2)[X]) : ℕ → ℕ → IS σ w → Option (IS σ w × ℕ)
  | 0, bitPos, st => some (st, bitPos)
  | k + 1, bitPos, st =>
    let rg := R.setOneBit bitPos st.rg
    let rg := Lin.annihilate R.toGenOps f rg
    match setState R fuel { st with rg := rg } with
    | none => none
    | some st => if st.zero then calcBasis fuel f k (bitPos + 1) st else some (st, bitPos + 1)

/-- The loop of `addBase`, lines 338-369: `k = count + 1` turns left. -/
def addBaseLoop (fuel : ℕ) : ℕ → (ℕ → IS σ w) → IS σ w → Except Err ((ℕ → IS σ w) × IS σ w)
  | 0, bases, work => .ok (bases, work)
  | k + 1, bases, work =>
    match (if work.next = 0 then getNextState R fuel work else some work) with
    | none => .error .outOfFuel
    | some work' =>
      if work.next = 0 ∧ work'.zero then .ok (bases, work')
      else
        let pivot := W.calc1pos work'.next
        if pivot ≥ w then .error .pivotTooLarge
        else if pivot < 0 then .error .indexOutOfRange
        else if (bases pivot.toNat).next = 0 then
          .ok (Function.update bases pivot.toNat (addState R (bases pivot.toNat) work'), work')
        else addBaseLoop fuel k bases (addState R work' (bases pivot.toNat))

/-- `addBase(bases, word_width, work)`, lines 333-373. -/
def addBase (fuel : ℕ) (bases : ℕ → IS σ w) (work : IS σ w) : Except Err ((ℕ → IS σ w) × IS σ w) :=
  addBaseLoop R W fuel (w * 10 + 1) bases work

/-- `count`, lines 146-151. -/
def countBases (bases : ℕ → IS σ w) : ℕ := ((List.range w).filter fun i => (bases i).next ≠ 0).length

/-- The loop of `searchParity`, lines 143-157.  Every turn advances `bit_pos`, so `k = maxdegree` turns are enough
(`MTT.Parity.searchLoop_spec`). -/
def searchLoop (fuel : ℕ) (f : (ZMod 2)[X]) (baseNum : Int) :
    ℕ → ℕ → (ℕ → IS σ w) → IS σ w → Except Err (ℕ → IS σ w)
  | 0, bitPos, bases, _ => if bitPos < R.bitSize then .error .outOfFuel else .ok bases
  | k + 1, bitPos, bases, work =>
    if bitPos < R.bitSize then
      match calcBasis R fuel f (R.bitSize - bitPos) bitPos work with
      | none => .error .outOfFuel
      | some (work, bitPos) =>
        match addBase R W fuel bases work with
        | .error e => .error e
        | .ok (bases, work) =>
          if (countBases bases : Int) ≥ baseNum then .ok bases
          else searchLoop fuel f baseNum k bitPos bases work
    else .ok bases

/-- The loop of `fromGF2Vec`, util.hpp:660-671, for any word type (`Verif.Util.fromLoopJunk` is the case of the
integer types). -/
def fromLoop (junk : BitVec w) : List Bool → Int → BitVec w → BitVec w → BitVec w
  | [], _, _, result => result
  | b :: bs, pos, mask, result =>
    fromLoop junk bs (pos - 1) ((W.setPos (pos - 1)).getD junk) (if b then result ||| mask else result)

/-- `fromGF2Vec<U>(value)`, util.hpp:655-673. -/
def fromVec (junk : BitVec w) (value : List Bool) : BitVec w :=
  fromLoop W junk value ((w : Int) - 1) ((W.setPos ((w : Int) - 1)).getD junk) 0

/-- The type of NTL's `kernel(X, A)` for `mat_GF2`: the rows of `X`. -/
abbrev KernelFn := (n m : ℕ) → (Fin n → Fin m → ZMod 2) → List (Fin n → ZMod 2)

/-- The columns written by lines 413-426: the words of the non-empty bases, in order. -/
def columns (bases : ℕ → IS σ w) : List (BitVec w) :=
  ((List.range w).map fun j => (bases j).next).filter fun x => x ≠ 0

/-- The matrix `mx` after lines 407-430: row `i` belongs to the mask with bit `w - 1 - i`; the entries not written
stay 0. -/
def matrix (junk : BitVec w) (size : ℕ) (cols : List (BitVec w)) : Fin w → Fin size → ZMod 2 := fun i cnt =>
  match cols[(cnt : ℕ)]? with
  | none => 0
  | some x => if ((W.setPos ((w : Int) - 1 - (i : ℕ))).getD junk) &&& x ≠ 0 then 1 else 0

/-- `search_parity_check_vector(base, size)`, lines 391-445. -/
def searchParityCheckVector (kernel : KernelFn) (junk : BitVec w) (bases : ℕ → IS σ w) (size : Int) :
    Except Err (BitVec w) :=
  if size < 0 ∨ size < (columns bases).length then .error .dims
  else
    match kernel w size.toNat (matrix W junk size.toNat (columns bases)) with
    | [] => .error .noVector
    | x :: _ => .ok (fromVec W junk (List.ofFn fun i => decide (x i ≠ 0)))

/-- `searchParity(g, f)`, lines 110-179: the returned vector and the new value of `g`. -/
def searchParity (fuel : ℕ) (kernel : KernelFn) (junk : BitVec w) (g : σ) (f : (ZMod 2)[X]) :
    Except Err (BitVec w × σ) :=
  let baseNum : Int := (R.bitSize : Int) - (R.mexp : Int)
  let init : IS σ w := { zero := true, next := 0, rg := R.setZero g }
  match searchLoop R W fuel f baseNum R.bitSize 0 (fun _ => init) init with
  | .error e => .error e
  | .ok bases =>
    match searchParityCheckVector W kernel junk bases baseNum with
    | .error e => .error e
    | .ok parity => .ok (parity, R.setParity parity g)

end

end MTT.Parity
