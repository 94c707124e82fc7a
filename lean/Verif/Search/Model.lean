import Verif.PIS.Model
import Verif.Period.Model
import Verif.Util.Model
import Verif.Util.Lcm

/-!
# Model of `minpoly` (`period.hpp`), `AlgorithmRecursionSearch.hpp`,
`AlgorithmReducibleRecursionSearch.hpp`

NTL's `MinPolySeq` is a parameter `mps`; what is assumed of it is `MTT.MinPolySeqSpec`.
-/

namespace MTT.Search

open Polynomial

noncomputable section

/-- Type of NTL's `MinPolySeq(h, a, m)`: the vector `a` with its length, and the bound `m`. -/
abbrev MPS := (n : ℕ) → (Fin n → ZMod 2) → ℕ → (ZMod 2)[X]

variable {σ π : Type} {w : ℕ}

/-- The loop `v[i] = getBitOfPos(generator.generate(), pos)` of `minpoly`, period.hpp:70-73.
`none`: undefined shift. -/
def collect (G : GenOps σ w) (pos : ℤ) : ℕ → σ → Option (σ × List (ZMod 2))
  | 0, s => some (s, [])
  | n + 1, s =>
    let r := G.generate s
    match Util.getBitOfPos r.2 pos with
    | none => none
    | some b => (collect G pos n r.1).map fun q => (q.1, (b : ZMod 2) :: q.2)

/-- `minpoly(poly, generator, pos, stateSize)`, period.hpp:55-75.  The generator is advanced. -/
def minpoly (mps : MPS) (G : GenOps σ w) (pos : ℤ) (stateSize : ℤ) (s : σ) :
    Option (σ × (ZMod 2)[X]) :=
  let size := if stateSize ≤ 0 then G.bitSize else stateSize.toNat
  (collect G pos (2 * size) s).map fun q => (q.1, mps (2 * size) (fun i => q.2.getD i 0) size)

/-- What a search needs of a generator class: the generator operations, `setUpParam` with a parameter
source `π` (`none`: the source throws, e.g. `Sequential` at its end) and `seed(1)`. -/
structure SearchOps (σ π : Type) (w : ℕ) where
  gen : GenOps σ w
  setUp : σ → π → Option (σ × π)
  seedOne : σ → σ

/-- Members of `AlgorithmRecursionSearch`: `*rand`, `*baseGenerator`, `poly`, `count`. -/
structure St (σ π : Type) where
  rand : σ
  src : π
  poly : (ZMod 2)[X]
  count : ℕ

/-- Outcome of a call: it returns, an exception leaves it, or it executes something undefined. -/
inductive Res (α : Type)
  | ret (b : Bool) (st : α)
  | threw (st : α)
  | undef

/-- One turn of the loop of `AlgorithmRecursionSearch::start`, AlgorithmRecursionSearch.hpp:178-191;
`prim` is `(*isPrime)(size, poly)`.  `ret true`: `return true`; `ret false`: next turn. -/
def tryOnce (mps : MPS) (D : SearchOps σ π w) (prim : ℕ → (ZMod 2)[X] → Option Bool) (st : St σ π) :
    Res (St σ π) :=
  match D.setUp st.rand st.src with
  | none => .threw st
  | some (rand, src) =>
    let rand := D.seedOne rand
    match minpoly mps D.gen 0 0 rand with
    | none => .undef
    | some (rand, poly) =>
      let st : St σ π := ⟨rand, src, poly, st.count + 1⟩
      let degree := Period.deg poly
      if degree ≠ D.gen.bitSize then .ret false st
      else match prim D.gen.bitSize poly with
        | none => .undef
        | some b => .ret b st

/-- `AlgorithmRecursionSearch::start(try_count)`, AlgorithmRecursionSearch.hpp:174-194. -/
def start (mps : MPS) (D : SearchOps σ π w) (prim : ℕ → (ZMod 2)[X] → Option Bool) :
    ℕ → St σ π → Res (St σ π)
  | 0, st => .ret false st
  | n + 1, st =>
    match tryOnce mps D prim st with
    | .ret true st => .ret true st
    | .ret false st => start mps D prim n st
    | .threw st => .threw st
    | .undef => .undef

/-- Members of `AlgorithmReducibleRecursionSearch`. -/
structure RSt (σ π : Type) where
  rand : σ
  src : π
  poly : (ZMod 2)[X]
  irreducible : (ZMod 2)[X]
  count : ℕ

/-- One turn of the loop of `AlgorithmReducibleRecursionSearch::start`,
AlgorithmReducibleRecursionSearch.hpp:123-160.  The fuel of `hasFactorOfDegree` is the degree plus one
(C31 shows that this is enough). -/
def rTryOnce (mps : MPS) (D : SearchOps σ π w) (mexp : ℕ) (st : RSt σ π) : Res (RSt σ π) :=
  match D.setUp st.rand st.src with
  | none => .threw st
  | some (rand, src) =>
    let rand := D.seedOne rand
    match minpoly mps D.gen 0 0 rand with
    | none => .undef
    | some (rand, poly) =>
      let st : RSt σ π := ⟨rand, src, poly, poly, st.count + 1⟩
      if Period.deg st.irreducible < mexp then .ret false st
      else match Period.hasFactorOfDegree (st.irreducible.natDegree + 1) st.irreducible mexp with
        | none => .undef
        | some (hasFactor, irr) =>
          let st := { st with irreducible := irr }
          if hasFactor = false then .ret false st
          else
            let degree := Period.deg st.irreducible
            if degree ≠ mexp then .ret false st
            else .ret true st

/-- `AlgorithmReducibleRecursionSearch::start(try_count)`,
AlgorithmReducibleRecursionSearch.hpp:120-162. -/
def rStart (mps : MPS) (D : SearchOps σ π w) (mexp : ℕ) : ℕ → RSt σ π → Res (RSt σ π)
  | 0, st => .ret false st
  | n + 1, st =>
    match rTryOnce mps D mexp st with
    | .ret true st => .ret true st
    | .ret false st => rStart mps D mexp n st
    | .threw st => .threw st
    | .undef => .undef

/-- The loop of `calcCharacteristicPolynomial`, AlgorithmReducibleRecursionSearch.hpp:257-267; `i` is the
bit number, `k` the number of turns left.  `LCM(lcmpoly, lcmpoly, minpol)` is the model of C11 with the
variables `lcmpoly` = 0 and `minpol` = 1. -/
def charPolyLoop (mps : MPS) (G : GenOps σ w) : ℕ → ℕ → σ → (ZMod 2)[X] → Option (σ × (ZMod 2)[X])
  | 0, _, s, lcm => some (s, lcm)
  | k + 1, i, s, lcm =>
    if Period.deg lcm = G.bitSize then some (s, lcm)
    else match minpoly mps G i 0 s with
      | none => none
      | some (s, minpol) =>
        match Util.LCM (fun v => if v = 0 then lcm else minpol) 0 0 1 with
        | none => none
        | some m => charPolyLoop mps G k (i + 1) s (m 0)

/-- `calcCharacteristicPolynomial(rand, poly)`, AlgorithmReducibleRecursionSearch.hpp:247-273. -/
def calcCharPoly (mps : MPS) (G : GenOps σ w) (s : σ) (poly : (ZMod 2)[X]) :
    Option (σ × (ZMod 2)[X]) :=
  charPolyLoop mps G w 0 s poly

end

end MTT.Search
