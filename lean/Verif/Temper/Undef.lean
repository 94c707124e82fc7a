import Verif.Temper.Props

/-!
# C35: when the partial bit pattern search is undefined

The hypotheses on the template parameter `step_bit_len` in `partialBitPattern_correct` cannot be dropped.
-/

namespace MTT.Temper

variable {σ : Type} {w : ℕ}

theorem searchBest_undef (R : TemperOps σ w) (P : PBPar) (pos : ℕ) {size : ℕ}
    (h : P.bitLen = w ∧ size = 0 ∨ 31 ≤ size) (s : σ) : searchBest R P 0 pos size s = none := by
  unfold searchBest
  dsimp only
  cases hm : (makeMask P.bitLen P.lsb 0 ((size : ℤ) - 0) : Option (BitVec w)) with
  | none => rfl
  | some m =>
    rcases h with ⟨h1, h2⟩ | h2
    · have := makeMask_undefined (w := w) P.lsb 0 size (.inr h2)
      rw [h1, sub_zero] at hm
      rw [Nat.cast_zero] at this
      rw [this] at hm
      cases hm
    · dsimp only
      rw [if_pos (.inr (by omega))]

/-- **C35.**  The search is undefined in its first step if `step_bit_len` is 0 (a shift by the whole width in `make_mask`),
and if both `step_bit_len` and `try_bit_len` are at least 31 (`1 << size` in an `int`). -/
theorem partialBitPattern_undefined (R : TemperOps σ w) (P : PBPar) (hn : 1 ≤ P.paramNum) (ht : 1 ≤ P.tryLen)
    (h : P.bitLen = w ∧ P.step = 0 ∨ 31 ≤ P.step ∧ 31 ≤ P.tryLen) (fuel : ℕ) (s : σ) :
    partialBitPattern R P fuel s = none := by
  unfold partialBitPattern
  dsimp only
  generalize (if P.lsb then R.setRev s else R.resetRev s) = s'
  cases fuel with
  | zero => rfl
  | succ fuel =>
    rw [depthLoop, if_pos (by omega)]
    dsimp only
    obtain ⟨k, hk⟩ : ∃ k, P.paramNum = k + 1 := ⟨P.paramNum - 1, by omega⟩
    generalize hd : (if 0 + P.step > P.tryLen then P.tryLen else 0 + P.step) = d
    have hs : P.bitLen = w ∧ d = 0 ∨ 31 ≤ d := by
      split at hd <;> omega
    have e : paramLoop R P ((0 : ℕ) : ℤ) d P.paramNum 0 (s', 1000) = none := by
      rw [hk, paramLoop, Nat.cast_zero, searchBest_undef R P 0 hs]
    rw [e]
    rfl

/-- The 32-bit searches of the samples with `step_bit_len = 31` would be such a case; any class serves. -/
example (R : TemperOps σ 32) (s : σ) : partialBitPattern R ⟨32, 1, 31, 31, false⟩ 100 s = none :=
  partialBitPattern_undefined R _ (by decide) (by decide) (.inr (by decide)) 100 s

end MTT.Temper
