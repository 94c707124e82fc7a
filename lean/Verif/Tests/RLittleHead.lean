import Verif.Tests.RLittleProps

/-!
# `test_rlittle`: the ten numbers printed first and the parameters of the later turns (C96)
-/

namespace MTT.Tests

open PIS Polynomial Search GF2

/-- Only the seventeen words of the array matter. -/
theorem rlOut_congr {r r' : RL} (hp : r.par = r'.par) (hi : r.index = r'.index) (h : ∀ i < 17, r.state i = r'.state i) (n : ℕ) :
    (stateAt rlOps r n).par = (stateAt rlOps r' n).par ∧ (stateAt rlOps r n).index = (stateAt rlOps r' n).index ∧
      (∀ i < 17, (stateAt rlOps r n).state i = (stateAt rlOps r' n).state i) ∧ outAt rlOps r n = outAt rlOps r' n := by
  have key : ∀ {a b : RL}, a.par = b.par → a.index = b.index → (∀ i < 17, a.state i = b.state i) →
      (rlGen a).1.par = (rlGen b).1.par ∧ (rlGen a).1.index = (rlGen b).1.index ∧
        (∀ i < 17, (rlGen a).1.state i = (rlGen b).1.state i) ∧ (rlGen a).2 = (rlGen b).2 := by
    intro a b h1 h2 h3
    have e : ∀ k, a.state (k % 17) = b.state (k % 17) := fun k => h3 _ (Nat.mod_lt _ (by decide))
    refine ⟨h1, ?_, fun i hi => ?_, ?_⟩
    · simp only [rlGen, h2]
    · simp only [rlGen, h1, h2, e, Function.update_apply, h3 i hi]
    · simp only [rlGen, h1, h2, e]
  have hs : (stateAt rlOps r n).par = (stateAt rlOps r' n).par ∧ (stateAt rlOps r n).index = (stateAt rlOps r' n).index ∧
      (∀ i < 17, (stateAt rlOps r n).state i = (stateAt rlOps r' n).state i) := by
    induction n with
    | zero => exact ⟨hp, hi, h⟩
    | succ n ih =>
      obtain ⟨k1, k2, k3, -⟩ := key ih.1 ih.2.1 ih.2.2
      exact ⟨k1, k2, k3⟩
  exact ⟨hs.1, hs.2.1, hs.2.2, (key hs.1 hs.2.1 hs.2.2).2.2.2⟩

/-- **C96.**  The ten numbers that are printed first, whatever the uninitialised array contains. -/
theorem head_text (junk : ℕ → BitVec 32) : headSpec (rlDefault junk 1234) =
    "bfababf4\nf48baf61\n5acd1c34\n155305e1\na97d690\n78c64b44\nbc9270c\n7b76bc17\n3911e9f5\n2023a6e6\n".toList := by
  have h : headSpec (rlDefault junk 1234) = headSpec (rlDefault (fun _ => 0) 1234) := by
    unfold headSpec
    apply List.flatMap_congr
    intro i _
    rw [(rlOut_congr (r := rlDefault junk 1234) (r' := rlDefault (fun _ => 0) 1234) rfl rfl
      (((rlSeed_good ⟨_, 0, junk⟩ ⟨_, 0, fun _ => 0⟩ 1234 1234).2.2.2 rfl).2 rfl) i).2.2.2]
  rw [h]
  decide +kernel

/-- **C96.**  The object in the later turns: the parameters come from six numbers of `mt` each, in this order, and the state is that of
`seed(1234)`, whatever it was before. -/
theorem rlAt_succ (junk f : ℕ → BitVec 32) (i : ℕ) : (rlAt junk f (i + 1)).par =
    ⟨f (6 * i), (f (6 * i + 1)).toNat % 17, (f (6 * i + 2)).toNat % 32, (f (6 * i + 3)).toNat % 32, (f (6 * i + 4)).toNat % 32,
      (f (6 * i + 5)).toNat % 32⟩ ∧ (rlAt junk f (i + 1)).index = 16 ∧ (rlAt junk f (i + 1)).state 0 = 1234 := by
  refine ⟨?_, rfl, ?_⟩
  · simp only [rlAt, rlSetUp, rlSeed, BitVec.toNat_umod]; rfl
  · simp [rlAt, rlSetUp, rlSeed, List.range', List.foldl, rlSeedStep]

-- two different arrays, both overwritten by the seed
example : headSpec (rlDefault (fun i => BitVec.ofNat 32 i) 1234) = headSpec (rlDefault (fun _ => 7) 1234) := by
  rw [head_text, head_text]

-- the second turn when the numbers are 0, 1, 2, …
example : (rlAt (fun _ => 0) (fun i => BitVec.ofNat 32 i) 2).par = ⟨6, 7, 8, 9, 10, 11⟩ := (rlAt_succ _ _ 1).1

end MTT.Tests
