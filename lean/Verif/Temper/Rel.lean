import Verif.Temper.Model

/-!
# The tempering search cannot see more than the measured defects

Lemmas for C120: two generators on which the measured defects agree stay related by any relation that the elementary steps keep.
-/

namespace MTT.Temper

variable {σ : Type} {w : ℕ}

/-- What relates two generators during the search. -/
structure Related (R R' : TemperOps σ w) (L : ℕ) (Rel : σ → σ → Prop) : Prop where
  pat : ∀ s t m p i, Rel s t → Rel (R.setUp (R.setPat m p i s)) (R'.setUp (R'.setPat m p i t))
  setRev : ∀ s t, Rel s t → Rel (R.setRev s) (R'.setRev t)
  resetRev : ∀ s t, Rel s t → Rel (R.resetRev s) (R'.resetRev t)
  delta : ∀ s t, Rel s t → R.delta L s = R'.delta L t
  size : R.bitSize = R'.bitSize
  count : R.countBit = R'.countBit

/-- Both undefined, or results that are related and agree in the rest. -/
def Both {α β : Type} (Q : α → β → Prop) : Option α → Option β → Prop
  | none, none => True
  | some a, some b => Q a b
  | _, _ => False

variable {R R' : TemperOps σ w} {P : PBPar} {Rel : σ → σ → Prop}

theorem bestLoop_rel (h : Related R R' P.bitLen Rel) (mask : BitVec w) (pos : ℕ) (v size : ℤ) :
    ∀ (k : ℕ) (a b : Acc σ w), Rel a.rand b.rand → a.minDelta = b.minDelta → a.minPattern = b.minPattern →
      Both (fun a b => Rel a.rand b.rand ∧ a.minDelta = b.minDelta ∧ a.minPattern = b.minPattern)
        (bestLoop R P mask pos v size k a) (bestLoop R' P mask pos v size k b)
  | 0, a, b, h1, h2, h3 => ⟨h1, h2, h3⟩
  | k + 1, a, b, h1, h2, h3 => by
    unfold bestLoop
    cases patternOf P v size k with
    | none => trivial
    | some pattern =>
      dsimp only
      have hr : Rel (makeTemperBit R mask pos pattern a.rand) (makeTemperBit R' mask pos pattern b.rand) := h.pat _ _ _ _ _ h1
      rw [h.delta _ _ hr]
      cases R'.delta P.bitLen (makeTemperBit R' mask pos pattern b.rand) with
      | none => trivial
      | some d =>
        dsimp only
        rw [h2, h3, h.count]
        apply bestLoop_rel h
        · split_ifs <;> exact hr
        · split_ifs <;> rfl
        · split_ifs <;> rfl

theorem searchBest_rel (h : Related R R' P.bitLen Rel) (v : ℤ) (pos : ℕ) (maxV : ℤ) {s t : σ} (hs : Rel s t) :
    Both (fun a b => Rel a.1 b.1 ∧ a.2 = b.2) (searchBest R P v pos maxV s) (searchBest R' P v pos maxV t) := by
  unfold searchBest
  dsimp only
  cases (makeMask P.bitLen P.lsb v (maxV - v) : Option (BitVec w)) with
  | none => trivial
  | some mask =>
    dsimp only
    by_cases hc : maxV - v < 0 ∨ 31 ≤ maxV - v
    · rw [if_pos hc, if_pos hc]
      trivial
    · rw [if_neg hc, if_neg hc]
      have := bestLoop_rel h mask pos v (maxV - v) (2 ^ (maxV - v).toNat) ⟨s, R.bitSize * P.bitLen, 0⟩ ⟨t, R'.bitSize * P.bitLen, 0⟩ hs
        (by rw [h.size]) rfl
      revert this
      cases bestLoop R P mask pos v (maxV - v) (2 ^ (maxV - v).toNat) ⟨s, R.bitSize * P.bitLen, 0⟩ <;>
        cases bestLoop R' P mask pos v (maxV - v) (2 ^ (maxV - v).toNat) ⟨t, R'.bitSize * P.bitLen, 0⟩ <;> intro this
      · trivial
      · exact this
      · exact this
      · obtain ⟨h1, h2, h3⟩ := this
        refine ⟨?_, h2⟩
        dsimp only
        rw [h3]
        exact h.pat _ _ _ _ _ h1

theorem paramLoop_rel (h : Related R R' P.bitLen Rel) (p maxDepth : ℤ) : ∀ (k i : ℕ) (a b : σ × ℤ), Rel a.1 b.1 → a.2 = b.2 →
    Both (fun a b => Rel a.1 b.1 ∧ a.2 = b.2) (paramLoop R P p maxDepth k i a) (paramLoop R' P p maxDepth k i b)
  | 0, _, _, _, h1, h2 => ⟨h1, h2⟩
  | k + 1, i, a, b, h1, h2 => by
    unfold paramLoop
    have := searchBest_rel h p i maxDepth h1
    revert this
    cases searchBest R P p i maxDepth a.1 <;> cases searchBest R' P p i maxDepth b.1 <;> intro this
    · trivial
    · exact False.elim this
    · exact False.elim this
    · exact paramLoop_rel h p maxDepth k (i + 1) _ _ this.1 this.2

theorem depthLoop_rel (h : Related R R' P.bitLen Rel) : ∀ (fuel p : ℕ) (a b : σ × ℤ), Rel a.1 b.1 → a.2 = b.2 →
    Both (fun a b => Rel a.1 b.1 ∧ a.2 = b.2) (depthLoop R P fuel p a) (depthLoop R' P fuel p b)
  | 0, _, _, _, _, _ => trivial
  | fuel + 1, p, a, b, h1, h2 => by
    unfold depthLoop
    by_cases hp : p < P.tryLen
    · rw [if_pos hp, if_pos hp]
      dsimp only
      generalize ((if p + P.step > P.tryLen then P.tryLen else p + P.step : ℕ) : ℤ) = M
      have := paramLoop_rel h p M P.paramNum 0 a b h1 h2
      revert this
      cases paramLoop R P p M P.paramNum 0 a <;> cases paramLoop R' P p M P.paramNum 0 b <;> intro this
      · trivial
      · exact False.elim this
      · exact False.elim this
      · exact depthLoop_rel h fuel _ _ _ this.1 this.2
    · rw [if_neg hp, if_neg hp]
      exact ⟨h1, h2⟩

theorem partialBitPattern_rel (h : Related R R' P.bitLen Rel) (fuel : ℕ) {s t : σ} (hs : Rel s t) :
    Both Rel (partialBitPattern R P fuel s) (partialBitPattern R' P fuel t) := by
  unfold partialBitPattern
  dsimp only
  have key : ∀ s t, Rel s t → Both Rel ((depthLoop R P fuel 0 (s, 1000)).map fun q => R.resetRev q.1)
      ((depthLoop R' P fuel 0 (t, 1000)).map fun q => R'.resetRev q.1) := fun s t hs => by
    have := depthLoop_rel h fuel 0 (s, 1000) (t, 1000) hs rfl
    revert this
    cases depthLoop R P fuel 0 (s, 1000) <;> cases depthLoop R' P fuel 0 (t, 1000) <;> intro this
    · trivial
    · exact False.elim this
    · exact False.elim this
    · exact h.resetRev _ _ this.1
  cases P.lsb with
  | true => exact key _ _ (h.setRev _ _ hs)
  | false => exact key _ _ (h.resetRev _ _ hs)

end MTT.Temper
