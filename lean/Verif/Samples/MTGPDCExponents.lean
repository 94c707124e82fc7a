import Verif.Samples.MTGPDCProps
import Verif.Mexp.Props

/-!
# C61 for the exponents that `MTGP32dc` accepts, with the primitivity test of the code
-/

namespace MTT.MTGP

open Polynomial PIS Search Temper

/-- The exponents that the options accept, parse_opt.cpp:79-89. -/
def allowedMexp : List ℕ := [3217, 4423, 11213, 23209, 44497, 110503, 216091]

/-- **C61.**  `MTGP32dc` with any of the seven accepted exponents and the primitivity test of the library: whenever the program ends it
has printed `count` lines with consecutive ids, and they are as claimed. -/
theorem dcMain_exponents {mps : MPS} (hmps : MinPolySeqSpec mps) {mexp : ℕ} (hmexp : mexp ∈ allowedMexp) (J : ℕ → Junk)
    (fuel : ℕ) (f : ℕ → BitVec 32) (count : ℕ) (id : BitVec 32) {res : Option (List Line)}
    (h : dcMain mps (Period.primitivityOp none) J fuel mexp f count id = some res) : ∃ L, res = some L ∧ L.length = count ∧
      ∀ i (hi : i < L.length), GoodLine (mexp / 32 + 1) (32 - mexp % 32) mexp (id + BitVec.ofNat 32 i) L[i] := by
  have hm : ∀ e ∈ allowedMexp, e ∈ Period.mersenneExponent ∧ e ≤ 216091 ∧ 2 ≤ e := by decide +kernel
  obtain ⟨h1, h2, h3⟩ := hm mexp hmexp
  obtain ⟨h4, h5⟩ := sizeOK_accepted mexp hmexp
  exact dcMain_correct hmps (primOK_mersenne (Mexp.table_prime mexp h1 h2)) h5 h4 J fuel f count id h

end MTT.MTGP
