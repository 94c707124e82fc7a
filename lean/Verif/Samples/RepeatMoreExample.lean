import Verif.Samples.RepeatMore
import Verif.Samples.MT2FirstExample
import Verif.Samples.MTGPFirstExample

/-!
# C126: runs that meet the hypotheses
-/

namespace MTT.MTDC

open Polynomial PIS Search MTRec

/-- The run that prints the line of MT19937 twice, and a run with one line, with other contents of what is not initialised. -/
example {mps : MPS} (hmps : MinPolySeqSpec mps) {mexp : ℕ} (hmexp : mexp = 19937) (f : ℕ → BitVec 32)
    (h1 : ∀ i, f (4 * i + 1) = 0x12345678) (h2 : ∀ i, f (4 * i + 2) = 395) (h3 : ∀ i, f (4 * i + 3) = 0x99081234) :
    ∃ N l, main mps (Period.primitivityOp none) (fun _ => 0) 4 5 mexp 45279 2 (mexp * 32) 0 0 (fun _ => 0) f = some (some [l, l]) ∧
      ∀ fuel turns, N ≤ fuel → N ≤ turns →
        main mps (Period.primitivityOp none) (fun i => i) fuel turns mexp 45279 1 (mexp * 32) 7 9 (fun i => BitVec.ofNat 32 i) f = some (some [l]) := by
  have hin : mexp ∈ allowedMexp := by rw [hmexp]; decide
  obtain ⟨l, e, -⟩ := mt19937_twice hmps hmexp (fun _ => 0) (fuel := 4) (turns := 5) le_rfl le_rfl 0 0 (fun _ => 0) f h1 h2 h3
  obtain ⟨N, hN⟩ := main_shorter (veq := fun i => i) (junkPos := 7) (junkA := 9) (junk := fun i => BitVec.ofNat 32 i) hmps hmps hin _ _ _
    (show (1 : ℤ) ≤ 2 by omega) e
  refine ⟨N, l, e, fun fuel turns g1 g2 => ?_⟩
  obtain ⟨L, hL⟩ := hN fuel turns g1 g2
  obtain ⟨K, K', k1, k2, k3, -, k5⟩ := main_extends hmps hmps hin _ _ _ (show (1 : ℤ) ≤ 2 by omega) hL e
  obtain rfl := Option.some.inj k1
  obtain rfl := Option.some.inj k2
  rw [hL]
  obtain ⟨t, ht⟩ := k5
  match L, k3, ht with
  | [x], _, ht => rw [(List.cons.inj ht).1]

end MTT.MTDC

namespace MTT.MTGP

open Polynomial PIS Search

/-- A run for one id, repeated with other contents of what is not initialised. -/
example {mps mps' : MPS} (hmps : MinPolySeqSpec mps) (hmps' : MinPolySeqSpec mps') {prim : ℕ → (ZMod 2)[X] → Option Bool} {mexp : ℕ}
    (hmexp : mexp = 521) (hprim : PrimOK prim mexp) (J J' : ℕ → Junk) (f : ℕ → BitVec 32) (h1 : f 1 = 2) (h2 : f 2 = 1)
    (h5 : f 5 = 3) (h6 : f 6 = 0xabec2357) (h7 : f 7 = 0xabac4a78) (h8 : f 8 = 0xebded950) (h9 : f 9 = 0x8deb1729) :
    ∃ l, dcMain mps prim J 1 mexp f 1 1 = some (some [l]) ∧ dcMain mps' prim J' 3 mexp f 1 1 = some (some [l]) := by
  obtain ⟨l, -, e, -⟩ := line521 hmps hmexp hprim J (fuel := 1) le_rfl f h1 h2 h5 h6 h7 h8 h9
  obtain ⟨l', -, e', -⟩ := line521 hmps' hmexp hprim J' (fuel := 3) (by omega) f h1 h2 h5 h6 h7 h8 h9
  refine ⟨l, e, ?_⟩
  have hn : mexp / 32 + 1 = 17 := by omega
  rw [e', dcMain_repeats hmps hmps' hprim hprim (by omega) (by rw [hn]; exact Or.inl ⟨by omega, by omega⟩) e e']

end MTT.MTGP
