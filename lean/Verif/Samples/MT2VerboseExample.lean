import Verif.Samples.MT2Example
import Verif.Samples.MT2VerboseProps

/-!
# A run of `mt2 -v`

Shows that the hypotheses of `mainV_same` are met by a run that finds parameters.
-/

namespace MTT.MTDC

open Search PIS Verbose

/-- `mt2 -v` finds MT19937 too, with the source of `finds_mt19937`, and writes the header, the text of one call and one line. -/
theorem verbose_mt19937 {mps : MPS} (hmps : MinPolySeqSpec mps) (veq : ℕ → ℕ) (c : ℕ → List Char × List Char × List Char)
    (junkPos : ℕ) (junkA : BitVec 32) (junk f : ℕ → BitVec 32) (h0 : f 0 = 395) (h1 : f 1 &&& 0xffff0000 = 0x99080000)
    {mexp : ℕ} (hmexp : mexp = 19937) :
    ∃ l o, mainV mps (Period.primitivityOp none) veq true c 1 2 mexp 45279 1 (2 ^ 31 - 1) junkPos junkA junk f = some (some ([l], o)) ∧
      l.pos = 397 ∧ l.mata = 0x9908b0df ∧
      ∃ calls : List (Out × Option Line), calls.filterMap Prod.snd = [l] ∧
        o = (.cout, "mexp, id, pos, mata, maskb, maskc, delta\n".toList) :: callsText calls := by
  obtain ⟨l, e1, e2, e3, -⟩ := finds_mt19937 hmps veq junkPos junkA junk f h0 h1 hmexp
  obtain ⟨s1, s2⟩ := mainV_same hmps (mexp := mexp) (by rw [hmexp]; decide) (id := 45279) (by omega) (by omega) veq true c
    (fuel := 1) (by omega) 2 1 (2 ^ 31 - 1) junkPos junkA junk f
  rw [e1] at s1
  obtain ⟨x, hx, h3⟩ := Option.map_eq_some_iff.1 s1
  obtain ⟨⟨L, o⟩, rfl, h4⟩ := Option.map_eq_some_iff.1 h3
  obtain rfl : L = [l] := h4
  obtain ⟨-, calls, -, k2, k3⟩ := s2 _ _ hx
  exact ⟨l, o, hx, e2, e3, calls, k2.symm, k3⟩

/-- Such a run exists. -/
example : ∃ mps l o, mainV mps (Period.primitivityOp none) (fun _ => 0) true (fun _ => ([], [], [])) 1 2 19937 45279 1 (2 ^ 31 - 1)
    0 0 (fun _ => 0) (fun k => if k = 0 then 395 else 0x99081234) = some (some ([l], o)) ∧ l.pos = 397 := by
  obtain ⟨mps, h⟩ := minPolySeqSpec_sat
  obtain ⟨mexp, hm⟩ : ∃ m, m = 19937 := ⟨_, rfl⟩
  obtain ⟨l, o, h1, h2, -⟩ := verbose_mt19937 h (fun _ => 0) (fun _ => ([], [], [])) 0 0 (fun _ => 0)
    (fun k => if k = 0 then 395 else 0x99081234) rfl (by decide) hm
  rw [hm] at h1
  exact ⟨mps, l, o, h1, h2⟩

end MTT.MTDC
