import Verif.Samples.SFMTSets
import Verif.Samples.DSFMTSets
import Verif.Samples.RMTSets
import Verif.Samples.SFMTDCExample
import Verif.Samples.DSFMTDCExample
import Verif.Samples.RMTDCExample

/-!
# C121: concrete runs
-/

namespace MTT.SFMT

open Polynomial PIS Search Anni Parity W128

variable {mps : MPS} {kernel : KernelFn}

theorem good607 : Good 607 P607 := by
  have hi : Inv1 5 607 { ctor 607 (fun _ => 0) with param := P607 } :=
    ⟨⟨by decide, rfl, show 0 < 5 by decide, show 1 ≤ 2 by decide, show 2 < 5 by decide, parOK607⟩, rfl, rfl, rfl, rfl⟩
  refine (good_iff (mexp := 607) (su := setUp) (by decide) (s := { ctor 607 (fun _ => 0) with param := P607 }) hi).1 ?_
  obtain ⟨g, q, g1, g2, g3, g4⟩ := hasLarge607 fun _ => 0
  rw [one_eq] at g3
  exact ⟨{ ctor 607 (fun _ => 0) with param := P607 }, q, g, hi, rfl, g3, g1, g2, g4⟩

theorem set607 (f : ℕ → BitVec 32) (hf : ∀ i, f i = src607.getD (i % 13) 0) (i : ℕ) : setAt 607 f i = P607 := by
  have h0 : f (13 * i) = src607.getD 0 0 := by rw [hf, Nat.mul_mod_right]
  have h : ∀ j < 13, f (13 * i + j) = src607.getD j 0 := fun j hj => by rw [hf, Nat.mul_add_mod, Nat.mod_eq_of_lt hj]
  unfold setAt
  rw [h0, h 1 (by omega), h 2 (by omega), h 3 (by omega), h 4 (by omega), h 5 (by omega), h 6 (by omega), h 7 (by omega), h 8 (by omega),
    h 9 (by omega), h 10 (by omega), h 11 (by omega), h 12 (by omega), Par.mk.injEq]
  decide +kernel

/-- If the source delivers the thirteen numbers of SFMT607 over and over, a run prints as many lines as wanted, all with its set. -/
example (hm : MinPolySeqSpec mps) (hK : KernelSpec kernel) (J : Junk) (count : ℕ) :
    ∃ lines, dcSearch mps kernel 641 J 607 count (fun i => src607.getD (i % 13) 0) = .done lines ∧
      lines.map (fun l => l.param) = List.replicate count P607 := by
  obtain ⟨idx, k, lines, -, h2, h3⟩ := dcSearch_sets hm hK (mexp := 607) (by decide) (show 5 * 128 < 641 by decide) J count
    fun i => src607.getD (i % 13) 0
  have hs : setAt 607 (fun i => src607.getD (i % 13) 0) = fun _ => P607 := funext (set607 _ fun _ => rfl)
  rw [hs] at h2 h3
  rcases h3 with ⟨h3, h4⟩ | ⟨-, -, h4⟩
  · refine ⟨lines, h3, ?_⟩
    rw [h2, ← h4, List.map_const']
  · exact absurd good607 (h4 k le_rfl (by omega))

/-- The program with fixed shifts, for any source. -/
example (hm : MinPolySeqSpec mps) (hK : KernelSpec kernel) (J : Junk) (f : ℕ → BitVec 32) :
    PrintsSets 607 (setFixedAt 607 f) 3 (dcFixed mps kernel 641 J 607 3 f) :=
  dcFixed_sets hm hK (mexp := 607) (by decide) (show 5 * 128 < 641 by decide) J 3 f

end MTT.SFMT

namespace MTT.DSFMT

open Polynomial PIS Search Anni Parity W128

variable {mps : MPS} {kernel : KernelFn} {xgcd : XgcdFn}

theorem good1279 : Good 12 1279 P1279 := by
  refine (good_iff (mexp := 1279) (n := 12) (by decide) (by decide) rfl (inv1279 fun _ => 0)).1 ?_
  obtain ⟨g, q, g1, g2, g3, g4⟩ := hasLarge1279 fun _ => 0
  rw [one_eq] at g3
  exact ⟨{ ctor 1279 (fun _ => 0) with param := P1279 }, q, g, inv1279 _, rfl, g3, g1, g2, g4⟩

theorem set1279 (f : ℕ → BitVec 64) (hf : ∀ i, f i = src1279.getD (i % 6) 0) (i : ℕ) : setAt 12 none f i = P1279 := by
  have h0 : f (6 * i) = src1279.getD 0 0 := by rw [hf, Nat.mul_mod_right]
  have h : ∀ j < 6, f (6 * i + j) = src1279.getD j 0 := fun j hj => by rw [hf, Nat.mul_add_mod, Nat.mod_eq_of_lt hj]
  unfold setAt
  dsimp only
  rw [h0, h 1 (by omega), h 2 (by omega), h 3 (by omega), h 4 (by omega), h 5 (by omega), Par.mk.injEq]
  decide +kernel

/-- If the source delivers the six numbers of dSFMT1279 over and over, a run prints as many lines as wanted, all with its set. -/
example (hm : MinPolySeqSpec mps) (hK : KernelSpec kernel) (hX : XgcdSpec xgcd) (J : Junk) (count : ℕ) :
    ∃ lines, dcSearch mps kernel xgcd 1377 J 1279 count none (fun i => src1279.getD (i % 6) 0) = .done lines ∧
      lines.map (fun l => l.param) = List.replicate count P1279 := by
  obtain ⟨idx, k, lines, -, h2, h3⟩ := dcSearch_sets hm hK hX (mexp := 1279) (by decide) (fixedSL1 := none) (fun x hx => by cases hx)
    (show 12 * 104 + 128 < 1377 by decide) J count fun i => src1279.getD (i % 6) 0
  have hs : setAt ((1279 - 128) / 104 + 1) none (fun i => src1279.getD (i % 6) 0) = fun _ => P1279 := funext (set1279 _ fun _ => rfl)
  rw [hs] at h2 h3
  rcases h3 with ⟨h3, h4⟩ | ⟨-, -, h4⟩
  · refine ⟨lines, h3, ?_⟩
    rw [h2, ← h4, List.map_const']
  · exact absurd good1279 (h4 k le_rfl (by omega))

end MTT.DSFMT

namespace MTT.RMT

open Polynomial PIS Search Temper Parity Text

variable {mps : MPS} {kernel : KernelFn}

/-- A run that prints one line, with the set of the source. -/
example (hm : MinPolySeqSpec mps) (hK : KernelSpec kernel) (junk : ℕ → BitVec 64) (veq : ℕ → ℕ)
    (junkPos : ℕ) (junkA : BitVec 64) (junkS : ℕ → BitVec 64) :
    ∃ l, rmtMain mps kernel (fun r => some (1 <<< r)) junk veq 1 521 1 junkPos junkA junkS
      (fun i => if i % 2 = 0 then 8 else 0x30d53385bb8d8600) = some (.normal [l]) ∧
      (l.param.pos, l.param.mata) = (8, 0x30d53385bb8d8600) := by
  obtain ⟨f, hf⟩ : ∃ f : ℕ → BitVec 64, f = fun i => if i % 2 = 0 then 8 else 0x30d53385bb8d8600 := ⟨_, rfl⟩
  rw [← hf]
  have hs : ∀ i, setAt 521 f i = (8, 0x30d53385bb8d8600) := fun i => by
    unfold setAt
    rw [hf]
    dsimp only
    rw [if_pos (by omega), if_neg (by omega)]
    rfl
  obtain ⟨e, he⟩ := run521 hm hK (fun r => some (1 <<< r)) junk veq le_rfl junkPos junkA junkS f (by rw [hf]; rfl) (by rw [hf]; rfl)
  obtain ⟨k, b, c, hp⟩ := (rmtMain_sets (kernel := kernel) hm (by decide) junk veq 1 1 junkPos junkA junkS f).1 e he
  rcases rmtMain_correct hm hK (by decide) junk veq 1 1 junkPos junkA junkS _ he with ⟨L, h1, h2, h3⟩ | ⟨L, -, -, ⟨r, -, h⟩, -⟩
  · obtain ⟨l, rfl⟩ := List.length_eq_one_iff.1 h2
    subst h1
    refine ⟨l, he, ?_⟩
    unfold Ends.printed PrintsSets at hp
    obtain ⟨m, -, hm', -⟩ := hp
    rw [hm', hs]
  · cases h

end MTT.RMT
