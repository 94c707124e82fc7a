import Verif.Samples.RMTDCExample
import Verif.Samples.RMTVerboseProps

/-!
# A run of `rmt64dc -v`
-/

namespace MTT.RMT

open Polynomial Text SearchText PIS Search Temper Parity Verbose

/-- The run of `run521` with `-v`: with shifts that are always defined it writes the time of the start, the header, the text of one search
about the parameters of the line, the line, and the time of the end. -/
theorem verbose521 {mps : MPS} {kernel : KernelFn} (hm : MinPolySeqSpec mps) (hK : KernelSpec kernel) (junk : ℕ → BitVec 64) (veq : ℕ → ℕ)
    (tStart tEnd : List Char) (c : ℕ → List Char × List Char × List Char) (junkPos : ℕ) (junkA : BitVec 64) (junkS : ℕ → BitVec 64) :
    ∃ l o, rmtMainV mps kernel (fun r => some (1 <<< r)) junk veq true tStart tEnd c 1 521 1 junkPos junkA junkS
        (fun i => if i = 0 then 8 else 0x30d53385bb8d8600) =
      some (.normal [l], [(.cout, "search start at ".toList ++ tStart),
        (.cout, "# mexp, pos, mata, parity, maskb, maskc, delta\n".toList)] ++ o ++ [(.cout, row l.cells),
        (.cout, "search end at ".toList ++ tEnd ++ "\n".toList)]) ∧
      ∃ k t, Says mps kernel (fun r => some (1 <<< r)) (junk k) veq (c k) 521 t l.delta o ∧ l.param = fieldsOf t := by
  obtain ⟨e, he⟩ := run521 hm hK (fun r => some (1 <<< r)) junk veq le_rfl junkPos junkA junkS
    (fun i => if i = 0 then 8 else 0x30d53385bb8d8600) rfl rfl
  obtain ⟨s1, s2⟩ := rmtMainV_same (one := fun r => some (1 <<< r)) hm hK (mexp := 521) (by decide) junk veq true tStart tEnd c
    (fuel := 1) (by omega) 1 junkPos junkA junkS (fun i => if i = 0 then 8 else 0x30d53385bb8d8600)
  rw [he] at s1
  obtain ⟨⟨e', o⟩, h1, h2⟩ := Option.map_eq_some_iff.1 s1
  dsimp only at h2
  subst h2
  obtain ⟨-, calls, last, c1, c2, c3, c4⟩ := s2 _ _ h1
  rcases rmtMain_correct hm hK (by decide) junk veq 1 1 junkPos junkA junkS _ he with ⟨L, rfl, k2, -⟩ | ⟨L, -, -, ⟨r, -, h⟩, -⟩
  · obtain ⟨l, rfl⟩ := List.length_eq_one_iff.1 k2
    have c2' : [l] = calls.map Prod.snd := c2
    obtain ⟨q, rfl⟩ : ∃ q, calls = [q] := List.length_eq_one_iff.1 (by
      have := congrArg List.length c2'
      simpa using this.symm)
    obtain rfl : l = q.2 := by simpa using c2'
    obtain ⟨k, g, src, t, src', j1, j2, -, j4⟩ := c1 q (by simp)
    refine ⟨q.2, q.1, ?_, k, t, j4 rfl, j2⟩
    rcases c4 with ⟨-, rfl⟩ | ⟨c4, -⟩
    · rw [h1, c3]
      simp only [callsText, List.flatMap_cons, List.flatMap_nil, List.append_nil, if_true, List.append_assoc, List.cons_append,
        List.nil_append]
    · exact absurd rfl (c4 [q.2])
  · cases h

end MTT.RMT
