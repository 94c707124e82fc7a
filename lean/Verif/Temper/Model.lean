import Mathlib.Data.Nat.Basic
import Mathlib.Tactic.Common

/-!
# Model of `AlgorithmPartialBitPattern.hpp` and `AlgorithmBestBits.hpp`

`U` is a word type of `w` bits, at least as wide as `int` (all uses in the repository are `uint32_t` and
`uint64_t`), so that shifts are done in `U`.  `none` is an undefined shift, an index outside an array, or an
abnormal end of the equidistribution calculation.
-/

namespace MTT.Temper

/-- `x << k`. -/
def shlC {w : Nat} (x : BitVec w) (k : Int) : Option (BitVec w) :=
  if 0 ≤ k ∧ k < w then some (x <<< k.toNat) else none

/-- `x >> k`. -/
def shrC {w : Nat} (x : BitVec w) (k : Int) : Option (BitVec w) :=
  if 0 ≤ k ∧ k < w then some (x >>> k.toNat) else none

/-- What a tempering search uses of a generator (`TemperingCalculatable.hpp`): `setTemperingPattern(mask,
pattern, index)`, `setUpTempering`, `setReverseOutput`, `resetReverseOutput`, `bitSize`; and
`AlgorithmEquidistribution(rand, bit_length).get_all_equidist(veq)` as a function `delta` of the generator. -/
structure TemperOps (σ : Type) (w : Nat) where
  setPat : BitVec w → BitVec w → Nat → σ → σ
  setUp : σ → σ
  setRev : σ → σ
  resetRev : σ → σ
  bitSize : Nat
  delta : Nat → σ → Option Int
  countBit : BitVec w → Nat

variable {σ : Type} {w : Nat}

/-! ## `AlgorithmPartialBitPattern` -/

/-- Template parameters. -/
structure PBPar where
  bitLen : Nat
  paramNum : Nat
  tryLen : Nat
  step : Nat
  lsb : Bool

/-- `make_mask`, AlgorithmPartialBitPattern.hpp:330-346. -/
def makeMask (bitLen : Nat) (lsb : Bool) (start size : Int) : Option (BitVec w) :=
  let mask := ~~~ (0 : BitVec w)
  let size := if start + size > bitLen then bitLen - start else size
  if lsb then
    match shrC mask start with
    | none => none
    | some mask =>
      match shlC mask (bitLen - size) with
      | none => none
      | some mask => shrC mask (bitLen - start - size)
  else
    match shlC mask start with
    | none => none
    | some mask =>
      match shrC mask (bitLen - size) with
      | none => none
      | some mask => shlC mask (bitLen - start - size)

/-- `make_temper_bit`, AlgorithmPartialBitPattern.hpp:178-184. -/
def makeTemperBit (R : TemperOps σ w) (mask : BitVec w) (pos : Nat) (pattern : BitVec w) (s : σ) : σ :=
  R.setUp (R.setPat mask pattern pos s)

/-- The pattern of loop index `i`, AlgorithmPartialBitPattern.hpp:247-251. -/
def patternOf (P : PBPar) (v size : Int) (i : Nat) : Option (BitVec w) :=
  if P.lsb then shlC (BitVec.ofNat w i) v else shlC (BitVec.ofNat w i) (P.bitLen - v - size)

/-- Local variables of the search loop. -/
structure Acc (σ : Type) (w : Nat) where
  rand : σ
  minDelta : Int
  minPattern : BitVec w

/-- The loop of `search_best_temper`, AlgorithmPartialBitPattern.hpp:246-270: `n` turns left, the next loop
index is `n - 1`. -/
def bestLoop (R : TemperOps σ w) (P : PBPar) (mask : BitVec w) (pos : Nat) (v size : Int) :
    Nat → Acc σ w → Option (Acc σ w)
  | 0, a => some a
  | i + 1, a =>
    match patternOf P v size i with
    | none => none
    | some pattern =>
      let rand := makeTemperBit R mask pos pattern a.rand
      match R.delta P.bitLen rand with
      | none => none
      | some delta =>
        bestLoop R P mask pos v size i
          (if delta < a.minDelta then ⟨rand, delta, pattern⟩
          else if delta = a.minDelta then
            if R.countBit a.minPattern < R.countBit pattern then ⟨rand, a.minDelta, pattern⟩
            else ⟨rand, a.minDelta, a.minPattern⟩
          else ⟨rand, a.minDelta, a.minPattern⟩)

/-- `search_best_temper(rand, v_bit, param_pos, max_v_bit)`, AlgorithmPartialBitPattern.hpp:235-278.  The
result is the generator and `min_delta`.  `1 << size` is an `int`. -/
def searchBest (R : TemperOps σ w) (P : PBPar) (v : Int) (pos : Nat) (maxV : Int) (s : σ) :
    Option (σ × Int) :=
  let size := maxV - v
  match (makeMask P.bitLen P.lsb v size : Option (BitVec w)) with
  | none => none
  | some mask =>
    if size < 0 ∨ 31 ≤ size then none
    else match bestLoop R P mask pos v size (2 ^ size.toNat) ⟨s, R.bitSize * P.bitLen, 0⟩ with
      | none => none
      | some a => some (makeTemperBit R mask pos a.minPattern a.rand, a.minDelta)

/-- The inner loop over the parameters, AlgorithmPartialBitPattern.hpp:151-153: `k` turns left, next `i`. -/
def paramLoop (R : TemperOps σ w) (P : PBPar) (p maxDepth : Int) : Nat → Nat → σ × Int → Option (σ × Int)
  | 0, _, q => some q
  | k + 1, i, q =>
    match searchBest R P p i maxDepth q.1 with
    | none => none
    | some q => paramLoop R P p maxDepth k (i + 1) q

/-- The outer loop, AlgorithmPartialBitPattern.hpp:146-154; out of fuel is `none`. -/
def depthLoop (R : TemperOps σ w) (P : PBPar) : Nat → Nat → σ × Int → Option (σ × Int)
  | 0, _, _ => none
  | fuel + 1, p, q =>
    if p < P.tryLen then
      let maxDepth := if p + P.step > P.tryLen then P.tryLen else p + P.step
      match paramLoop R P p maxDepth P.paramNum 0 q with
      | none => none
      | some q => depthLoop R P fuel (p + P.step) q
    else some q

/-- `operator()(rand)`, AlgorithmPartialBitPattern.hpp:129-161: the generator afterwards. -/
def partialBitPattern (R : TemperOps σ w) (P : PBPar) (fuel : Nat) (s : σ) : Option σ :=
  let s := if P.lsb then R.setRev s else R.resetRev s
  (depthLoop R P fuel 0 (s, 1000)).map fun q => R.resetRev q.1

/-! ## `AlgorithmBestBits` -/

/-- Members of `AlgorithmBestBits`: `shifts[]` (of length `size`), `limit`; `obSize` is the width of `U`;
`num_pat` is computed from `size`. -/
structure BBPar where
  shifts : List Int
  limit : Nat

/-- `size`. -/
def BBPar.size (B : BBPar) : Nat := B.shifts.length

/-- `num_pat`, AlgorithmBestBits.hpp:237, 383. -/
def BBPar.numPat (B : BBPar) : Nat := B.size * (B.size + 1) / 2

/-- The loop variables of `inRange` and `make_pattern` other than `mask`. -/
structure Walk where
  index : Nat
  idx : Nat
  rdx : Int
  sum : Int

/-- Start values, AlgorithmBestBits.hpp:469-473, 523-527. -/
def Walk.start (B : BBPar) : Walk := ⟨0, 0, B.size - 1, 0⟩

/-- `index = index + 1; if (index >= size) { sum += shifts[rdx]; index = idx; idx++; rdx--; }`,
AlgorithmBestBits.hpp:483-489, 534-540.  `none`: `shifts[rdx]` outside the table. -/
def Walk.next (B : BBPar) (k : Walk) : Option Walk :=
  if k.index + 1 ≥ B.size then
    if 0 ≤ k.rdx then
      match B.shifts[k.rdx.toNat]? with
      | none => none
      | some x => some ⟨k.idx, k.idx + 1, k.rdx - 1, k.sum + x⟩
    else none
  else some { k with index := k.index + 1 }

/-- The loop of `inRange`, AlgorithmBestBits.hpp:528-541: `m` is the number of the bit of `mask` plus one, 0
when `mask` is 0. -/
def inRangeLoop (B : BBPar) (w : Nat) (pat : Nat) (v : Int) : Nat → Walk → Option Bool
  | 0, _ => some true
  | m + 1, k =>
    match B.shifts[k.index]? with
    | none => none
    | some x =>
      if pat.testBit m ∧ v + x + k.sum > w then some false
      else match k.next B with
        | none => none
        | some k => inRangeLoop B w pat v m k

/-- `inRange(pat, v)`, AlgorithmBestBits.hpp:522-543.  `1 << (num_pat - 1)` is an `int`: `num_pat` from 1 to
30 (the caller also forms `1 << num_pat`).  (If `pat` does not have the bit the table is not read; reading it unconditionally in the model only
adds failures.) -/
def inRange (B : BBPar) (w : Nat) (pat : Nat) (v : Int) : Option Bool :=
  if 1 ≤ B.numPat ∧ B.numPat ≤ 30 then inRangeLoop B w pat v B.numPat (Walk.start B) else none

/-- The loop of `make_pattern`, AlgorithmBestBits.hpp:475-490. -/
def makePatternLoop (B : BBPar) (pat : Nat) (v : Int) (paraMask : BitVec w) :
    Nat → Walk → (Nat → BitVec w) → Option (Nat → BitVec w)
  | 0, _, p => some p
  | m + 1, k, p =>
    if B.size ≤ k.index then none
    else
      let sh : Int := w - v - k.sum - 1
      let p? : Option (Nat → BitVec w) :=
        if (w : Int) > v + k.sum + 1 then
          match shlC (1 : BitVec w) sh with
          | none => none
          | some one =>
            some (Function.update p k.index
              (if pat.testBit m then p k.index ||| (one &&& paraMask) else p k.index &&& ~~~ one))
        else some p
      match p? with
      | none => none
      | some p =>
        match k.next B with
        | none => none
        | some k => makePatternLoop B pat v paraMask m k p

/-- `make_pattern(result, pat, v, para)`, AlgorithmBestBits.hpp:458-496: the new parameters. -/
def makePattern (B : BBPar) (pat : Nat) (v : Int) (para : Nat → BitVec w) : Option (Nat → BitVec w) :=
  match shrC (~~~ (0 : BitVec w)) v with
  | none => none
  | some paraMask =>
    if 1 ≤ B.numPat ∧ B.numPat ≤ 30 then
      makePatternLoop B pat v paraMask B.numPat (Walk.start B) para
    else none

/-- `class temper_params`, AlgorithmBestBits.hpp:75-134. -/
structure TempP (w : Nat) where
  param : Nat → BitVec w
  delta : Int

/-- `for (j...) rand.setTemperingPattern(mask, param[j], j)` with the mask of all ones,
AlgorithmBestBits.hpp:392-394, 326-328: `k` turns left, next `j`. -/
def setAll (R : TemperOps σ w) (param : Nat → BitVec w) : Nat → Nat → σ → σ
  | 0, _, s => s
  | k + 1, j, s => setAll R param k (j + 1) (R.setPat (~~~ (0 : BitVec w)) (param j) j s)

/-- The loop of `search_best_temper`, AlgorithmBestBits.hpp:384-403: `n` turns left (next index `n - 1`),
the local `delta`, and the vector `current`. -/
def bbLoop (R : TemperOps σ w) (B : BBPar) (v : Nat) (para : TempP w) :
    Nat → σ → Int → List (TempP w) → Option (σ × List (TempP w))
  | 0, s, _, cur => some (s, cur)
  | i + 1, s, delta, cur =>
    match inRange B w i v with
    | none => none
    | some false => bbLoop R B v para i s delta cur
    | some true =>
      match makePattern B i v para.param with
      | none => none
      | some param =>
        let s := setAll R param B.size 0 s
        match R.delta (v + 1) s with
        | none => none
        | some d =>
          if d ≤ delta then bbLoop R B v para i s d (cur ++ [⟨param, d⟩])
          else bbLoop R B v para i s delta cur

/-- `for (i < params.size()) search_best_temper(rand, p, *params[i], current)`,
AlgorithmBestBits.hpp:303-306. -/
def bbAll (R : TemperOps σ w) (B : BBPar) (v : Nat) :
    List (TempP w) → σ → List (TempP w) → Option (σ × List (TempP w))
  | [], s, cur => some (s, cur)
  | para :: ps, s, cur =>
    match bbLoop R B v para (2 ^ B.numPat) s (R.bitSize * w) cur with
    | none => none
    | some (s, cur) => bbAll R B v ps s cur

/-- The smallest `delta`, AlgorithmBestBits.hpp:307-312. -/
def minDelta (init : Int) (cur : List (TempP w)) : Int :=
  cur.foldl (fun d q => if q.delta < d then q.delta else d) init

/-- The loop over the bits, AlgorithmBestBits.hpp:300-325: `n` turns left, next `p`. -/
def bbBits (R : TemperOps σ w) (B : BBPar) : Nat → Nat → σ → List (TempP w) → Option (σ × List (TempP w))
  | 0, _, s, params => some (s, params)
  | n + 1, p, s, params =>
    match bbAll R B p params s [] with
    | none => none
    | some (s, cur) =>
      let delta := minDelta (R.bitSize * w) cur
      bbBits R B n (p + 1) s (cur.filter fun q => q.delta = delta)

/-- `operator()(rand)`, AlgorithmBestBits.hpp:283-337.  `none` also if `params[0]` does not exist. -/
def bestBits (R : TemperOps σ w) (B : BBPar) (s : σ) : Option σ :=
  match bbBits R B B.limit 0 (R.resetRev s) [⟨fun _ => 0, 0⟩] with
  | none => none
  | some (_, []) => none
  | some (s, q :: _) => some (R.resetRev (R.setUp (setAll R q.param B.size 0 s)))

end MTT.Temper
