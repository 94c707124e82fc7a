import Verif.Samples.Repeat
import Verif.Samples.SetsExample

/-!
# C122: concrete runs
-/

namespace MTT.SFMT

open Polynomial PIS Search Anni Parity W128

variable {mps mps' : MPS} {kernel kernel' : KernelFn}

/-- Two runs that print the line of SFMT607, the second after more lines: with other uninitialised memory and other functions of
NTL the three sums are the same. -/
example (hm : MinPolySeqSpec mps) (hm' : MinPolySeqSpec mps') (hK : KernelSpec kernel) (hK' : KernelSpec kernel') (J J' : Junk)
    (f : ℕ → BitVec 32) (hf : ∀ i < 13, f i = src607.getD i 0) :
    ∃ l L' l', dcSearch mps kernel 641 J 607 1 f = .done [l] ∧ l.param = P607 ∧
      (dcSearch mps' kernel' 700 J' 607 5 f = .done (l' :: L') ∨ dcSearch mps' kernel' 700 J' 607 5 f = .failed (l' :: L')) ∧
      l'.param = P607 ∧ (l'.delta32, l'.delta64, l'.delta128) = (l.delta32, l.delta64, l.delta128) := by
  obtain ⟨l, h1, h2, -⟩ := finds_sfmt607 hm hK (fuel := 641) (by decide) J f hf
  rcases dcSearch_extends hm hm' hK hK' (mexp := 607) (by decide) (fuel := 641) (fuel' := 700) (by decide) (by decide) J J'
    (count := 1) (count' := 5) (by decide) f with ⟨L, L', e1, e2, e3⟩ | ⟨L, L', e1, -⟩
  · rw [h1] at e1
    injection e1 with e1
    subst e1
    cases L' with
    | nil => exact absurd (List.prefix_nil.1 e3) (by simp)
    | cons l' L' =>
      rw [List.map_cons, List.map_cons, List.cons_prefix_cons] at e3
      have e4 := e3.1
      unfold Line.seen at e4
      rw [Prod.mk.injEq] at e4
      exact ⟨l, L', l', h1, h2, e2, e4.1 ▸ h2, e4.2.symm⟩
  · rw [h1] at e1
    cases e1

end MTT.SFMT

namespace MTT.DSFMT

open Polynomial PIS Search Anni Parity W128

variable {mps mps' : MPS} {kernel kernel' : KernelFn} {xgcd xgcd' : XgcdFn}

/-- Two runs that print dSFMT1279. -/
example (hm : MinPolySeqSpec mps) (hm' : MinPolySeqSpec mps') (hK : KernelSpec kernel) (hK' : KernelSpec kernel') (hX : XgcdSpec xgcd)
    (hX' : XgcdSpec xgcd') (J J' : Junk) (f : ℕ → BitVec 64) (hf : ∀ i < 6, f i = src1279.getD i 0) :
    ∃ l l', dcSearch mps kernel xgcd 1377 J 1279 1 none f = .done [l] ∧ l.param = P1279 ∧
      dcSearch mps' kernel' xgcd' 1400 J' 1279 1 none f = .done [l'] ∧ l'.param = P1279 ∧ l'.delta52 = l.delta52 := by
  obtain ⟨l, h1, h2, -⟩ := finds_dsfmt1279 hm hK hX (fuel := 1377) (by decide) J f hf
  obtain ⟨l', h1', h2', -⟩ := finds_dsfmt1279 hm' hK' hX' (fuel := 1400) (by decide) J' f hf
  obtain ⟨L, L', e1, e2⟩ := dcSearch_repeats hm hm' hK hK' hX hX' (mexp := 1279) (by decide) (fixedSL1 := none) (fun x hx => by cases hx)
    (fuel := 1377) (fuel' := 1400) (by decide) (by decide) J J' 1 f
  rw [h1, h1'] at e1
  rcases e1 with ⟨e, e'⟩ | ⟨e, -⟩
  · injection e with e
    injection e' with e'
    subst e e'
    rw [List.map_singleton, List.map_singleton, List.cons.injEq] at e2
    have e4 := e2.1
    unfold Line.seen at e4
    rw [Prod.mk.injEq] at e4
    exact ⟨l, l', h1, h2, h1', h2', e4.2.symm⟩
  · cases e

end MTT.DSFMT
