import Verif.Search.PicksMore
import Verif.Samples.SFMTSets
import Verif.Samples.DSFMTSets
import Verif.Samples.SFMTToolsProps
import Verif.Samples.DSFMTToolsProps

/-!
# C122: runs of `sfmtdc`, `sfmtdcfixed` and `dSFMTdc` can be repeated and extended
-/

namespace MTT.SFMT

open Polynomial PIS Search Anni Parity W128

variable {mexp : ℕ} {mps mps' : MPS} {kernel kernel' : KernelFn}

/-! ### Specification -/

/-- What the claim compares of a line: everything but the parity words. -/
def Line.seen (l : Line) : Par × ℤ × ℤ × ℤ := (l.param, l.delta32, l.delta64, l.delta128)

/-- The run `o'` that was asked for more lines: it begins with the lines of `o`, or both end with the same lines because nothing more
was found. -/
def Extends (o o' : Outcome) : Prop :=
  (∃ L L', o = .done L ∧ (o' = .done L' ∨ o' = .failed L') ∧ L.map Line.seen <+: L'.map Line.seen) ∨
  ∃ L L', o = .failed L ∧ o' = .failed L' ∧ L.map Line.seen = L'.map Line.seen

/-- The runs end in the same way with the same lines. -/
def Repeats (o o' : Outcome) : Prop :=
  ∃ L L', (o = .done L ∧ o' = .done L' ∨ o = .failed L ∧ o' = .failed L') ∧ L.map Line.seen = L'.map Line.seen

/-! ### Proof -/

theorem line_unique (h1 : 256 ≤ mexp) {l l' : Line} (h : GoodLine mexp l) (h' : GoodLine mexp l') (he : l.param = l'.param) :
    l.seen = l'.seen := by
  obtain ⟨f, f1, f2, f3⟩ := h.equi
  obtain ⟨f', f1', f2', f3'⟩ := h'.equi
  rw [← he] at f3'
  obtain rfl := large_unique h1 h.par f1 f2 f3.dim f1' f2' f3'.dim
  obtain ⟨d1, d2, d3⟩ := f3.unique f3'
  unfold Line.seen
  rw [he, d1, d2, d3]

/-- What a run promises (C89). -/
def Lines (mexp count : ℕ) (o : Outcome) : Prop :=
  (∃ lines, o = .done lines ∧ lines.length = count ∧ ∀ l ∈ lines, GoodLine mexp l) ∨
    ∃ lines, o = .failed lines ∧ lines.length < count ∧ ∀ l ∈ lines, GoodLine mexp l

theorem lines_good {count : ℕ} {o : Outcome} (h : Lines mexp count o) {L : List Line} (ho : o = .done L ∨ o = .failed L) :
    ∀ l ∈ L, GoodLine mexp l := by
  rcases h with ⟨L', rfl, -, h⟩ | ⟨L', rfl, -, h⟩ <;> rcases ho with ho | ho <;> cases ho <;> exact h

theorem prefix_len {α : Type} {L L' : List α} (h : L <+: L') (hl : L'.length ≤ L.length) : L = L' := h.eq_of_length_le hl

theorem extends_of (h1 : 256 ≤ mexp) {sets : ℕ → Par} {count count' : ℕ} (hc : count ≤ count') {o o' : Outcome}
    (hp : PrintsSets mexp sets count o) (hp' : PrintsSets mexp sets count' o') (hg : Lines mexp count o)
    (hg' : Lines mexp count' o') : Extends o o' := by
  obtain ⟨idx, k, L, a1, a2, a3⟩ := hp
  obtain ⟨idx', k', L', b1, b2, b3⟩ := hp'
  have gL : ∀ l ∈ L, GoodLine mexp l := lines_good hg (a3.imp (fun h => h.1) (fun h => h.1))
  have gL' : ∀ l ∈ L', GoodLine mexp l := lines_good hg' (b3.imp (fun h => h.1) (fun h => h.1))
  have pre : idx.length ≤ idx'.length → L.map Line.seen <+: L'.map Line.seen := fun hl => by
    refine map_prefix (a := fun l => l.param) L L' ?_ fun l hl l' hl' e => line_unique h1 (gL l hl) (gL' l' hl') e
    rw [a2, b2]
    exact (picks_prefix idx idx' a1 b1 hl).map sets
  have len : L.length = idx.length := by simpa using congrArg List.length a2
  have len' : L'.length = idx'.length := by simpa using congrArg List.length b2
  rcases a3 with ⟨a3, a4⟩ | ⟨a3, a4, a5⟩
  · refine .inl ⟨L, L', a3, b3.imp (fun h => h.1) (fun h => h.1), pre ?_⟩
    rcases b3 with ⟨-, b4⟩ | ⟨-, -, b5⟩
    · omega
    · exact picks_cases idx idx' a1 b1 b5
  · have hle := picks_cases idx' idx b1 a1 a5
    rcases b3 with ⟨-, b4⟩ | ⟨b3, -, b5⟩
    · omega
    · have hle' := picks_cases idx idx' a1 b1 b5
      exact .inr ⟨L, L', a3, b3, prefix_len (pre hle') (by simp only [List.length_map]; omega)⟩

theorem repeats_of {count : ℕ} {o o' : Outcome} (hg : Lines mexp count o) (hg' : Lines mexp count o') (h : Extends o o') :
    Repeats o o' := by
  rcases h with ⟨L, L', rfl, h2, h3⟩ | ⟨L, L', rfl, rfl, h3⟩
  · rcases hg with ⟨M, e, e2, -⟩ | ⟨M, e, -⟩ <;> cases e
    have hl := h3.length_le
    simp only [List.length_map] at hl
    rcases hg' with ⟨M', e', e2', -⟩ | ⟨M', e', e2', -⟩
    · subst e'
      rcases h2 with h2 | h2 <;> cases h2
      exact ⟨L, L', .inl ⟨rfl, rfl⟩, prefix_len h3 (by simp only [List.length_map]; omega)⟩
    · subst e'
      rcases h2 with h2 | h2 <;> cases h2
      omega
  · exact ⟨L, L', .inr ⟨rfl, rfl⟩, h3⟩

/-- **C122 for `sfmtdc`, more lines.** -/
theorem dcSearch_extends (hm : MinPolySeqSpec mps) (hm' : MinPolySeqSpec mps') (hK : KernelSpec kernel) (hK' : KernelSpec kernel')
    (hmexp : mexp ∈ allowedMexp) {fuel fuel' : ℕ} (hfuel : (mexp / 128 + 1) * 128 < fuel)
    (hfuel' : (mexp / 128 + 1) * 128 < fuel') (J J' : Junk) {count count' : ℕ} (hc : count ≤ count') (f : ℕ → BitVec 32) :
    Extends (dcSearch mps kernel fuel J mexp count f) (dcSearch mps' kernel' fuel' J' mexp count' f) :=
  extends_of (by obtain ⟨h1, -⟩ := allowed mexp hmexp; exact h1) hc (dcSearch_sets hm hK hmexp hfuel J count f)
    (dcSearch_sets hm' hK' hmexp hfuel' J' count' f) (dcSearch_correct hm hK hmexp hfuel J count f)
    (dcSearch_correct hm' hK' hmexp hfuel' J' count' f)

/-- **C122 for `sfmtdc`.** -/
theorem dcSearch_repeats (hm : MinPolySeqSpec mps) (hm' : MinPolySeqSpec mps') (hK : KernelSpec kernel) (hK' : KernelSpec kernel')
    (hmexp : mexp ∈ allowedMexp) {fuel fuel' : ℕ} (hfuel : (mexp / 128 + 1) * 128 < fuel)
    (hfuel' : (mexp / 128 + 1) * 128 < fuel') (J J' : Junk) (count : ℕ) (f : ℕ → BitVec 32) :
    Repeats (dcSearch mps kernel fuel J mexp count f) (dcSearch mps' kernel' fuel' J' mexp count f) :=
  repeats_of (mexp := mexp) (count := count) (dcSearch_correct hm hK hmexp hfuel J count f)
    (dcSearch_correct hm' hK' hmexp hfuel' J' count f) (dcSearch_extends hm hm' hK hK' hmexp hfuel hfuel' J J' le_rfl f)

/-- **C122 for `sfmtdcfixed`, more lines.** -/
theorem dcFixed_extends (hm : MinPolySeqSpec mps) (hm' : MinPolySeqSpec mps') (hK : KernelSpec kernel) (hK' : KernelSpec kernel')
    (hmexp : mexp ∈ allowedMexp) {fuel fuel' : ℕ} (hfuel : (mexp / 128 + 1) * 128 < fuel)
    (hfuel' : (mexp / 128 + 1) * 128 < fuel') (J J' : Junk) {count count' : ℕ} (hc : count ≤ count') (f : ℕ → BitVec 32) :
    Extends (dcFixed mps kernel fuel J mexp count f) (dcFixed mps' kernel' fuel' J' mexp count' f) :=
  extends_of (by obtain ⟨h1, -⟩ := allowed mexp hmexp; exact h1) hc (dcFixed_sets hm hK hmexp hfuel J count f)
    (dcFixed_sets hm' hK' hmexp hfuel' J' count' f) (dcFixed_correct hm hK hmexp hfuel J count f)
    (dcFixed_correct hm' hK' hmexp hfuel' J' count' f)

/-- **C122 for `sfmtdcfixed`.** -/
theorem dcFixed_repeats (hm : MinPolySeqSpec mps) (hm' : MinPolySeqSpec mps') (hK : KernelSpec kernel) (hK' : KernelSpec kernel')
    (hmexp : mexp ∈ allowedMexp) {fuel fuel' : ℕ} (hfuel : (mexp / 128 + 1) * 128 < fuel)
    (hfuel' : (mexp / 128 + 1) * 128 < fuel') (J J' : Junk) (count : ℕ) (f : ℕ → BitVec 32) :
    Repeats (dcFixed mps kernel fuel J mexp count f) (dcFixed mps' kernel' fuel' J' mexp count f) :=
  repeats_of (mexp := mexp) (count := count) (dcFixed_correct hm hK hmexp hfuel J count f)
    (dcFixed_correct hm' hK' hmexp hfuel' J' count f) (dcFixed_extends hm hm' hK hK' hmexp hfuel hfuel' J J' le_rfl f)

end MTT.SFMT

namespace MTT.DSFMT

open Polynomial PIS Search Anni Parity W128

variable {n mexp : ℕ} {mps mps' : MPS} {kernel kernel' : KernelFn} {xgcd xgcd' : XgcdFn}

/-! ### Specification -/

/-- What the claim compares of a line: everything but the fixed point and the parity words. -/
def Line.seen (l : Line) : Par × ℤ := (l.param, l.delta52)

/-- The run `o'` that was asked for more lines: it begins with the lines of `o`, or both end with the same lines because nothing more
was found. -/
def Extends (o o' : Outcome) : Prop :=
  (∃ L L', o = .done L ∧ (o' = .done L' ∨ o' = .failed L') ∧ L.map Line.seen <+: L'.map Line.seen) ∨
  ∃ L L', o = .failed L ∧ o' = .failed L' ∧ L.map Line.seen = L'.map Line.seen

/-- The runs end in the same way with the same lines. -/
def Repeats (o o' : Outcome) : Prop :=
  ∃ L L', (o = .done L ∧ o' = .done L' ∨ o = .failed L ∧ o' = .failed L') ∧ L.map Line.seen = L'.map Line.seen

/-! ### Proof -/

theorem line_unique (h1 : 336 ≤ mexp) (hn : (mexp - 128) / 104 + 1 = n) {l l' : Line} (h : GoodLine n mexp l)
    (h' : GoodLine n mexp l') (he : l.param = l'.param) : l.seen = l'.seen := by
  obtain ⟨f, f1, f2, f3⟩ := h.equi
  obtain ⟨f', f1', f2', f3'⟩ := h'.equi
  rw [← he] at f3'
  obtain rfl := large_unique h1 hn h.par f1 f2 (ne_bot_of_dim h1 f3.dim) f1' f2' (ne_bot_of_dim h1 f3'.dim)
  unfold Line.seen
  rw [he, f3.unique f3']

/-- What a run promises (C90). -/
def Lines (n mexp count : ℕ) (o : Outcome) : Prop :=
  (∃ lines, o = .done lines ∧ lines.length = count ∧ ∀ l ∈ lines, GoodLine n mexp l) ∨
    ∃ lines, o = .failed lines ∧ lines.length < count ∧ ∀ l ∈ lines, GoodLine n mexp l

theorem lines_good {count : ℕ} {o : Outcome} (h : Lines n mexp count o) {L : List Line} (ho : o = .done L ∨ o = .failed L) :
    ∀ l ∈ L, GoodLine n mexp l := by
  rcases h with ⟨L', rfl, -, h⟩ | ⟨L', rfl, -, h⟩ <;> rcases ho with ho | ho <;> cases ho <;> exact h

theorem extends_of (h1 : 336 ≤ mexp) (hn : (mexp - 128) / 104 + 1 = n) {sets : ℕ → Par} {count count' : ℕ} (hc : count ≤ count')
    {o o' : Outcome} (hp : PrintsSets n mexp sets count o) (hp' : PrintsSets n mexp sets count' o') (hg : Lines n mexp count o)
    (hg' : Lines n mexp count' o') : Extends o o' := by
  obtain ⟨idx, k, L, a1, a2, a3⟩ := hp
  obtain ⟨idx', k', L', b1, b2, b3⟩ := hp'
  have gL : ∀ l ∈ L, GoodLine n mexp l := lines_good hg (a3.imp (fun h => h.1) (fun h => h.1))
  have gL' : ∀ l ∈ L', GoodLine n mexp l := lines_good hg' (b3.imp (fun h => h.1) (fun h => h.1))
  have pre : idx.length ≤ idx'.length → L.map Line.seen <+: L'.map Line.seen := fun hl => by
    refine map_prefix (a := fun l => l.param) L L' ?_ fun l hl l' hl' e => line_unique h1 hn (gL l hl) (gL' l' hl') e
    rw [a2, b2]
    exact (picks_prefix idx idx' a1 b1 hl).map sets
  have len : L.length = idx.length := by simpa using congrArg List.length a2
  have len' : L'.length = idx'.length := by simpa using congrArg List.length b2
  rcases a3 with ⟨a3, a4⟩ | ⟨a3, a4, a5⟩
  · refine .inl ⟨L, L', a3, b3.imp (fun h => h.1) (fun h => h.1), pre ?_⟩
    rcases b3 with ⟨-, b4⟩ | ⟨-, -, b5⟩
    · omega
    · exact picks_cases idx idx' a1 b1 b5
  · have hle := picks_cases idx' idx b1 a1 a5
    rcases b3 with ⟨-, b4⟩ | ⟨b3, -, b5⟩
    · omega
    · have hle' := picks_cases idx idx' a1 b1 b5
      exact .inr ⟨L, L', a3, b3, (pre hle').eq_of_length_le (by simp only [List.length_map]; omega)⟩

theorem repeats_of {count : ℕ} {o o' : Outcome} (hg : Lines n mexp count o) (hg' : Lines n mexp count o') (h : Extends o o') :
    Repeats o o' := by
  rcases h with ⟨L, L', rfl, h2, h3⟩ | ⟨L, L', rfl, rfl, h3⟩
  · rcases hg with ⟨M, e, e2, -⟩ | ⟨M, e, -⟩ <;> cases e
    have hl := h3.length_le
    simp only [List.length_map] at hl
    rcases hg' with ⟨M', e', e2', -⟩ | ⟨M', e', e2', -⟩
    · subst e'
      rcases h2 with h2 | h2 <;> cases h2
      exact ⟨L, L', .inl ⟨rfl, rfl⟩, h3.eq_of_length_le (by simp only [List.length_map]; omega)⟩
    · subst e'
      rcases h2 with h2 | h2 <;> cases h2
      omega
  · exact ⟨L, L', .inr ⟨rfl, rfl⟩, h3⟩

/-- **C122 for `dSFMTdc`, more lines.** -/
theorem dcSearch_extends (hm : MinPolySeqSpec mps) (hm' : MinPolySeqSpec mps') (hK : KernelSpec kernel) (hK' : KernelSpec kernel')
    (hX : XgcdSpec xgcd) (hX' : XgcdSpec xgcd') (hmexp : mexp ∈ allowedMexp) {fixedSL1 : Option ℕ}
    (hfix : ∀ x ∈ fixedSL1, 1 ≤ x ∧ x < 64) {fuel fuel' : ℕ} (hfuel : ((mexp - 128) / 104 + 1) * 104 + 128 < fuel)
    (hfuel' : ((mexp - 128) / 104 + 1) * 104 + 128 < fuel') (J J' : Junk) {count count' : ℕ} (hc : count ≤ count')
    (f : ℕ → BitVec 64) :
    Extends (dcSearch mps kernel xgcd fuel J mexp count fixedSL1 f)
      (dcSearch mps' kernel' xgcd' fuel' J' mexp count' fixedSL1 f) :=
  extends_of (by obtain ⟨h1, -⟩ := allowed mexp hmexp; exact h1) rfl hc (dcSearch_sets hm hK hX hmexp hfix hfuel J count f)
    (dcSearch_sets hm' hK' hX' hmexp hfix hfuel' J' count' f) (dcSearch_correct hm hK hX hmexp hfix hfuel J count f)
    (dcSearch_correct hm' hK' hX' hmexp hfix hfuel' J' count' f)

/-- **C122 for `dSFMTdc`.** -/
theorem dcSearch_repeats (hm : MinPolySeqSpec mps) (hm' : MinPolySeqSpec mps') (hK : KernelSpec kernel) (hK' : KernelSpec kernel')
    (hX : XgcdSpec xgcd) (hX' : XgcdSpec xgcd') (hmexp : mexp ∈ allowedMexp) {fixedSL1 : Option ℕ}
    (hfix : ∀ x ∈ fixedSL1, 1 ≤ x ∧ x < 64) {fuel fuel' : ℕ} (hfuel : ((mexp - 128) / 104 + 1) * 104 + 128 < fuel)
    (hfuel' : ((mexp - 128) / 104 + 1) * 104 + 128 < fuel') (J J' : Junk) (count : ℕ) (f : ℕ → BitVec 64) :
    Repeats (dcSearch mps kernel xgcd fuel J mexp count fixedSL1 f)
      (dcSearch mps' kernel' xgcd' fuel' J' mexp count fixedSL1 f) :=
  repeats_of (n := (mexp - 128) / 104 + 1) (mexp := mexp) (count := count) (dcSearch_correct hm hK hX hmexp hfix hfuel J count f)
    (dcSearch_correct hm' hK' hX' hmexp hfix hfuel' J' count f)
    (dcSearch_extends hm hm' hK hK' hX hX' hmexp hfix hfuel hfuel' J J' le_rfl f)

end MTT.DSFMT
