import Verif.PIS.Model
import Verif.Period.Model

/-!
# Model of `TestLinearity.hpp` and of `annihilate` (`ReducibleGenerator.hpp`)
-/

namespace MTT.Lin

open Polynomial

variable {σ : Type} {w : ℕ}

/-- The loop of `test1`, TestLinearity.hpp:113-118 (`k` turns left). -/
def test1Loop (G : GenOps σ w) : ℕ → σ → Bool
  | 0, _ => true
  | k + 1, g2 =>
    let r := G.generate g2
    if r.2 ≠ 0 then false else test1Loop G k r.1

/-- `test1`, TestLinearity.hpp:108-128. -/
def test1 (G : GenOps σ w) (g1 : σ) : Bool := test1Loop G 100 (G.add g1 g1)

/-- The loop of `test2`, TestLinearity.hpp:136-149. -/
def test2Loop (G : GenOps σ w) : ℕ → σ → σ → σ → Bool
  | 0, _, _, _ => true
  | k + 1, g1, g2, g3 =>
    let r1 := G.generate g1
    let r2 := G.generate g2
    let r3 := G.generate g3
    if ¬ (r1.2 ^^^ r2.2) = r3.2 then false else test2Loop G k r1.1 r2.1 r3.1

/-- `test2`, TestLinearity.hpp:130-159. -/
def test2 (G : GenOps σ w) (g1 g2 : σ) : Bool := test2Loop G 100 g1 g2 (G.add g2 g1)

/-- `operator()`, TestLinearity.hpp:96-105; `seed` is the `seed` of the generator class. -/
def testLinearity (G : GenOps σ w) (seed : σ → BitVec w → σ) (g : σ) : Bool :=
  let g1 := seed g (BitVec.ofNat w 1234)
  let g2 := seed g (BitVec.ofNat w 4321)
  test1 G g1 && test2 G g1 g2

noncomputable section

/-- The loop of `annihilate`, ReducibleGenerator.hpp:147-152: `k` turns left, next exponent `i`. -/
def annLoop (G : GenOps σ w) (p : (ZMod 2)[X]) : ℕ → ℕ → σ → σ → σ
  | 0, _, rg, _ => rg
  | k + 1, i, rg, other =>
    annLoop G p k (i + 1) (if p.coeff i ≠ 0 then G.add rg other else rg) (G.generate other).1

/-- `annihilate(rg, poly)`, ReducibleGenerator.hpp:142-154.  (NTL: the degree of the zero polynomial is
-1.) -/
def annihilate (G : GenOps σ w) (p : (ZMod 2)[X]) (rg : σ) : σ :=
  annLoop G p (Period.deg p + 1).toNat 0 (G.setZero rg) rg

end

end MTT.Lin
