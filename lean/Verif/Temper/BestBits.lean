import Verif.Temper.Props
import Mathlib.Data.List.Basic
import Mathlib.Tactic.IntervalCases

/-!
# C37: the best-bits search
-/

namespace MTT.Temper

variable {σ : Type} {w : ℕ}

/-! ## The walk through the shift table stays inside -/

/-- The indices of the walk, without the sum: all `n` positions are inside a table of `size` entries. -/
def safe (size : ℕ) : ℕ → ℕ → ℕ → ℤ → Bool
  | 0, _, _, _ => true
  | n + 1, index, idx, rdx =>
    decide (index < size) &&
      (if index + 1 ≥ size then decide (0 ≤ rdx) && decide (rdx < size) && safe size n idx (idx + 1) (rdx - 1)
        else safe size n (index + 1) idx rdx)

theorem safe_start : ∀ size : ℕ, 1 ≤ size → size ≤ 7 →
    safe size (size * (size + 1) / 2) 0 0 (size - 1) = true := by
  intro size h1 h7
  interval_cases size <;> decide

theorem next_safe (B : BBPar) {n : ℕ} {k : Walk} (h : safe B.size (n + 1) k.index k.idx k.rdx = true) :
    k.index < B.size ∧ ∃ k', k.next B = some k' ∧ safe B.size n k'.index k'.idx k'.rdx = true := by
  rw [safe, Bool.and_eq_true, decide_eq_true_eq] at h
  refine ⟨h.1, ?_⟩
  by_cases hc : k.index + 1 ≥ B.size
  · have h2 := h.2
    rw [if_pos hc, Bool.and_eq_true, Bool.and_eq_true, decide_eq_true_eq, decide_eq_true_eq] at h2
    obtain ⟨⟨r1, r2⟩, r3⟩ := h2
    have hlt : k.rdx.toNat < B.shifts.length := by have : B.size = B.shifts.length := rfl; omega
    refine ⟨⟨k.idx, k.idx + 1, k.rdx - 1, k.sum + B.shifts[k.rdx.toNat]⟩, ?_, r3⟩
    unfold Walk.next
    rw [if_pos hc, if_pos r1, List.getElem?_eq_getElem hlt]
  · have h2 := h.2
    rw [if_neg hc] at h2
    refine ⟨{ k with index := k.index + 1 }, ?_, h2⟩
    unfold Walk.next
    rw [if_neg hc]

theorem inRangeLoop_defined (B : BBPar) (pat : ℕ) (v : ℤ) : ∀ (n : ℕ) (k : Walk),
    safe B.size n k.index k.idx k.rdx = true → ∃ b, inRangeLoop B w pat v n k = some b ∧
      (pat = 0 → b = true)
  | 0, _, _ => ⟨true, rfl, fun _ => rfl⟩
  | n + 1, k, h => by
    obtain ⟨h1, k', h2, h3⟩ := next_safe B h
    have hlt : k.index < B.shifts.length := h1
    unfold inRangeLoop
    rw [List.getElem?_eq_getElem hlt]
    dsimp only
    by_cases hc : pat.testBit n = true ∧ v + B.shifts[k.index] + k.sum > w
    · rw [if_pos hc]
      refine ⟨false, rfl, fun h0 => ?_⟩
      rw [h0, Nat.zero_testBit] at hc
      exact absurd hc.1 (by simp)
    · rw [if_neg hc, h2]
      exact inRangeLoop_defined B pat v n k' h3

theorem makePatternLoop_defined (B : BBPar) (hs : ∀ x ∈ B.shifts, 0 ≤ x) (pat : ℕ) (v : ℕ)
    (pm : BitVec w) : ∀ (n : ℕ) (k : Walk) (p : ℕ → BitVec w),
    safe B.size n k.index k.idx k.rdx = true → 0 ≤ k.sum → ∃ q, makePatternLoop B pat v pm n k p = some q
  | 0, _, p, _, _ => ⟨p, rfl⟩
  | n + 1, k, p, h, hsum => by
    obtain ⟨h1, k', h2, h3⟩ := next_safe B h
    have hsum' : 0 ≤ k'.sum := by
      unfold Walk.next at h2
      split at h2
      · split at h2
        · split at h2
          · cases h2
          · next x hx =>
            injection h2 with e
            rw [← e]
            have := hs x (List.mem_of_getElem? hx)
            show 0 ≤ k.sum + x
            omega
        · cases h2
      · injection h2 with e
        rw [← e]; exact hsum
    unfold makePatternLoop
    rw [if_neg (by omega)]
    dsimp only
    by_cases hc : (w : ℤ) > v + k.sum + 1
    · rw [if_pos hc]
      have g : (0 : ℤ) ≤ (w : ℤ) - v - k.sum - 1 ∧ (w : ℤ) - v - k.sum - 1 < w := by omega
      unfold shlC
      rw [if_pos g]
      dsimp only
      rw [h2]
      exact makePatternLoop_defined B hs pat v pm n k' _ h3 hsum'
    · rw [if_neg hc]
      dsimp only
      rw [h2]
      exact makePatternLoop_defined B hs pat v pm n k' _ h3 hsum'

theorem numPat_bounds {B : BBPar} (h1 : 1 ≤ B.size) (h7 : B.size ≤ 7) : 1 ≤ B.numPat ∧ B.numPat ≤ 30 := by
  unfold BBPar.numPat
  generalize B.size = n at *
  interval_cases n <;> decide

/-- **C37.**  With one to seven parameters `inRange` never reads outside the shift table; pattern 0 is always
in range. -/
theorem inRange_defined (B : BBPar) (h1 : 1 ≤ B.size) (h7 : B.size ≤ 7) (pat : ℕ) (v : ℤ) :
    ∃ b, inRange B w pat v = some b ∧ (pat = 0 → b = true) := by
  unfold inRange
  rw [if_pos (numPat_bounds h1 h7)]
  exact inRangeLoop_defined B pat v _ _ (safe_start B.size h1 h7)

/-- **C37.**  With one to seven parameters and non-negative shifts `make_pattern` never reads outside the
shift table, never writes outside the parameter array and never shifts by an undefined amount. -/
theorem makePattern_defined (B : BBPar) (h1 : 1 ≤ B.size) (h7 : B.size ≤ 7) (hs : ∀ x ∈ B.shifts, 0 ≤ x)
    (pat v : ℕ) (hv : v < w) (p : ℕ → BitVec w) : ∃ q, makePattern B pat v p = some q := by
  unfold makePattern
  have g : (0 : ℤ) ≤ (v : ℤ) ∧ (v : ℤ) < w := by omega
  unfold shrC
  rw [if_pos g]
  dsimp only
  rw [if_pos (numPat_bounds h1 h7)]
  exact makePatternLoop_defined B hs pat v _ _ _ p (safe_start B.size h1 h7) (le_refl _)

theorem writeBit {e v : ℕ} (he : e + v < w) (b : Bool) (x : BitVec w) (i : ℕ) (hi : i < w) :
    (if b = true then x ||| ((1 : BitVec w) <<< e &&& (~~~ (0 : BitVec w)) >>> v)
      else x &&& ~~~ ((1 : BitVec w) <<< e)).getLsbD i = if i = e then b else x.getLsbD i := by
  have h1 : ((1 : BitVec w) <<< e).getLsbD i = decide (i = e) := by
    rw [BitVec.getLsbD_shiftLeft, show (1 : BitVec w) = 1#w from rfl, BitVec.getLsbD_one]
    by_cases h : i = e
    · subst h; simp [hi]; omega
    · simp only [h, decide_false]
      by_cases h2 : i < e
      · simp [h2]
      · have : ¬ i - e = 0 := by omega
        simp [this]
  have h2 : ((~~~ (0 : BitVec w)) >>> v).getLsbD i = decide (i + v < w) := by
    rw [BitVec.getLsbD_ushiftRight, BitVec.getLsbD_not, BitVec.ofNat_eq_ofNat, BitVec.getLsbD_zero]
    simp [add_comm]
  cases b
  · rw [if_neg (by simp), BitVec.getLsbD_and, BitVec.getLsbD_not, h1]
    by_cases h : i = e <;> simp [h, hi]
  · rw [if_pos rfl, BitVec.getLsbD_or, BitVec.getLsbD_and, h1, h2]
    by_cases h : i = e
    · subst h; simp [he]
    · simp [h]

/-- With two parameters (the use in samples/MTDC): bits 2 and 1 of the pattern go to bit `v` (from the most
significant one) of the two parameters, bit 0 to bit `v + shifts[1]` of the first one. -/
theorem makePattern_two (s0 s1 : ℤ) (h0 : 1 ≤ s1) (limit pat v : ℕ) (hv : (v : ℤ) + s1 + 1 < w)
    (p : ℕ → BitVec w) : ∃ q, makePattern ⟨[s0, s1], limit⟩ pat v p = some q ∧
      (∀ i, i < w → (q 0).getLsbD i = if i = w - 1 - v then pat.testBit 2
        else if i = w - 1 - v - s1.toNat then pat.testBit 0 else (p 0).getLsbD i) ∧
      (∀ i, i < w → (q 1).getLsbD i = if i = w - 1 - v then pat.testBit 1 else (p 1).getLsbD i) ∧
      ∀ j, 2 ≤ j → q j = p j := by
  obtain ⟨t, rfl⟩ : ∃ t : ℕ, s1 = t := ⟨s1.toNat, by omega⟩
  have g : (0 : ℤ) ≤ (v : ℤ) ∧ (v : ℤ) < w := by omega
  have c1 : (w : ℤ) > v + (0 : ℤ) + 1 := by omega
  have c2 : (w : ℤ) > v + ((0 : ℤ) + (t : ℤ)) + 1 := by omega
  have d1 : (0 : ℤ) ≤ (w : ℤ) - v - 0 - 1 ∧ (w : ℤ) - v - 0 - 1 < w := by omega
  have d2 : (0 : ℤ) ≤ (w : ℤ) - v - (0 + (t : ℤ)) - 1 ∧ (w : ℤ) - v - (0 + (t : ℤ)) - 1 < w := by omega
  have t1 : ((w : ℤ) - v - 0 - 1).toNat = w - 1 - v := by omega
  have t2 : ((w : ℤ) - v - (0 + (t : ℤ)) - 1).toNat = w - 1 - v - t := by omega
  have hp : makePattern (w := w) ⟨[s0, (t : ℤ)], limit⟩ pat v p =
      makePatternLoop ⟨[s0, (t : ℤ)], limit⟩ pat v ((~~~ (0 : BitVec w)) >>> v) 3 ⟨0, 0, 1, 0⟩ p := by
    unfold makePattern shrC
    rw [if_pos g, Int.toNat_natCast]
    have hn : BBPar.numPat ⟨[s0, (t : ℤ)], limit⟩ = 3 := by
      simp [BBPar.numPat, BBPar.size]
    dsimp only
    rw [hn]
    rfl
  rw [hp]
  have n1 : Walk.next ⟨[s0, (t : ℤ)], limit⟩ ⟨0, 0, 1, 0⟩ = some ⟨1, 0, 1, 0⟩ := rfl
  have n2 : Walk.next ⟨[s0, (t : ℤ)], limit⟩ ⟨1, 0, 1, 0⟩ = some ⟨0, 1, 0, 0 + t⟩ := rfl
  have n3 : Walk.next ⟨[s0, (t : ℤ)], limit⟩ ⟨0, 1, 0, 0 + t⟩ = some ⟨1, 1, 0, 0 + t⟩ := rfl
  have z : ∀ i : ℕ, i < 2 → ¬ BBPar.size ⟨[s0, (t : ℤ)], limit⟩ ≤ i := fun i hi => by
    show ¬ 2 ≤ i; omega
  refine ⟨?q, ?a, ?b⟩
  case a =>
    rw [makePatternLoop, if_neg (z 0 (by omega))]
    dsimp only
    rw [if_pos c1, shlC, if_pos d1, t1]
    dsimp only
    rw [n1]
    dsimp only
    rw [makePatternLoop, if_neg (z 1 (by omega))]
    dsimp only
    rw [if_pos c1, shlC, if_pos d1, t1]
    dsimp only
    rw [n2]
    dsimp only
    rw [makePatternLoop, if_neg (z 0 (by omega))]
    dsimp only
    rw [if_pos c2, shlC, if_pos d2, t2]
    dsimp only
    rw [n3]
    dsimp only
    rw [makePatternLoop]
  refine ⟨?_, ?_, ?_⟩
  · intro i hi
    rw [Function.update_self, writeBit (by omega) _ _ i hi, Function.update_of_ne (by omega),
      Function.update_self, writeBit (by omega) _ _ i hi, Int.toNat_natCast]
    by_cases h1 : i = w - 1 - v
    · rw [if_neg (by omega), if_pos h1]; rw [if_pos h1]
    · simp only [h1, if_false]
  · intro i hi
    rw [Function.update_of_ne (by omega), Function.update_self, writeBit (by omega) _ _ i hi,
      Function.update_of_ne (by omega)]
  · intro j hj
    rw [Function.update_of_ne (by omega), Function.update_of_ne (by omega), Function.update_of_ne (by omega)]

/-- With two parameters: a pattern is in range iff every set bit of it leaves a shifted position inside the
word. -/
theorem inRange_two (s0 s1 : ℤ) (limit pat : ℕ) (v : ℤ) :
    inRange ⟨[s0, s1], limit⟩ w pat v = some (decide ((pat.testBit 2 = true → v + s0 ≤ w) ∧
      (pat.testBit 1 = true → v + s1 ≤ w) ∧ (pat.testBit 0 = true → v + s0 + s1 ≤ w))) := by
  have n1 : Walk.next ⟨[s0, s1], limit⟩ ⟨0, 0, 1, 0⟩ = some ⟨1, 0, 1, 0⟩ := rfl
  have n2 : Walk.next ⟨[s0, s1], limit⟩ ⟨1, 0, 1, 0⟩ = some ⟨0, 1, 0, 0 + s1⟩ := rfl
  have n3 : Walk.next ⟨[s0, s1], limit⟩ ⟨0, 1, 0, 0 + s1⟩ = some ⟨1, 1, 0, 0 + s1⟩ := rfl
  have hn : BBPar.numPat ⟨[s0, s1], limit⟩ = 3 := by simp [BBPar.numPat, BBPar.size]
  have g0 : (⟨[s0, s1], limit⟩ : BBPar).shifts[0]? = some s0 := rfl
  have g1 : (⟨[s0, s1], limit⟩ : BBPar).shifts[1]? = some s1 := rfl
  unfold inRange
  rw [hn, if_pos (by omega)]
  show inRangeLoop _ w pat v 3 ⟨0, 0, 1, 0⟩ = _
  rw [inRangeLoop, g0]
  dsimp only
  by_cases c0 : pat.testBit 2 = true ∧ v + s0 + 0 > w
  · rw [if_pos c0, decide_eq_false]
    rintro ⟨h, -⟩
    have := h c0.1
    omega
  rw [if_neg c0, n1]
  dsimp only
  rw [inRangeLoop, g1]
  dsimp only
  by_cases c1 : pat.testBit 1 = true ∧ v + s1 + 0 > w
  · rw [if_pos c1, decide_eq_false]
    rintro ⟨-, h, -⟩
    have := h c1.1
    omega
  rw [if_neg c1, n2]
  dsimp only
  rw [inRangeLoop, g0]
  dsimp only
  by_cases c2 : pat.testBit 0 = true ∧ v + s0 + (0 + s1) > w
  · rw [if_pos c2, decide_eq_false]
    rintro ⟨-, -, h⟩
    have := h c2.1
    omega
  rw [if_neg c2, n3]
  dsimp only
  rw [inRangeLoop, decide_eq_true]
  refine ⟨fun h => ?_, fun h => ?_, fun h => ?_⟩
  · by_contra hh; exact c0 ⟨h, by omega⟩
  · by_contra hh; exact c1 ⟨h, by omega⟩
  · by_contra hh; exact c2 ⟨h, by omega⟩

/-! ## The search -/

/-- What the search needs from a generator with `n` tempering parameters: setting all parameters leaves no
trace of earlier ones, and `delta` ends normally with a value of at most `bitSize * w`. -/
structure BBContract (R : TemperOps σ w) (n : ℕ) (Inv : σ → Prop) : Prop where
  reset_inv : ∀ s, Inv s → Inv (R.resetRev s)
  set_all : ∀ p q s, Inv s → setAll R p n 0 (setAll R q n 0 s) = setAll R p n 0 s
  delta_le : ∀ p s v, Inv s → 1 ≤ v → v ≤ w →
    ∃ d, R.delta v (setAll R p n 0 s) = some d ∧ d ≤ R.bitSize * w

/-- The candidate for a pattern, with its measured defect at `v + 1` bits. -/
def candidate (R : TemperOps σ w) (B : BBPar) (s : σ) (v : ℕ) (para : TempP w) (i : ℕ) : Option (TempP w) :=
  if inRange B w i v = some true then
    (makePattern B i v para.param).bind fun p =>
      (R.delta (v + 1) (setAll R p B.size 0 s)).map fun d => ⟨p, d⟩
  else none

/-- All candidates which extend the parameter sets `ps`, in the order of the search. -/
def generated (R : TemperOps σ w) (B : BBPar) (s : σ) (v : ℕ) (ps : List (TempP w)) : List (TempP w) :=
  ps.flatMap fun para => (List.range (2 ^ B.numPat)).reverse.filterMap (candidate R B s v para)

/-- The candidates of least defect. -/
def least (l : List (TempP w)) : List (TempP w) := l.filter fun q => l.all fun q' => decide (q.delta ≤ q'.delta)

/-- The parameter sets kept after `k` bits, as documented: start with zero, extend, keep the best. -/
def kept (R : TemperOps σ w) (B : BBPar) (s : σ) : ℕ → List (TempP w)
  | 0 => [⟨fun _ => 0, 0⟩]
  | k + 1 => least (generated R B s k (kept R B s k))

/-- What one call of `search_best_temper` keeps of the candidates `L`. -/
def run : ℤ → List (TempP w) → List (TempP w)
  | _, [] => []
  | d, q :: L => if q.delta ≤ d then q :: run q.delta L else run d L

theorem run_filter : ∀ (L : List (TempP w)) (d D : ℤ), (∀ q ∈ L, D ≤ q.delta) → D ≤ d →
    (run d L).filter (fun q => q.delta = D) = L.filter fun q => q.delta = D
  | [], _, _, _, _ => rfl
  | q :: L, d, D, h, hd => by
    have hq := h q List.mem_cons_self
    have hL : ∀ q' ∈ L, D ≤ q'.delta := fun q' h' => h q' (List.mem_cons_of_mem _ h')
    unfold run
    by_cases hc : q.delta ≤ d
    · rw [if_pos hc, List.filter_cons, List.filter_cons, run_filter L q.delta D hL hq]
    · rw [if_neg hc, run_filter L d D hL hd, List.filter_cons, if_neg]
      simp only [decide_eq_true_eq]
      omega

theorem run_le : ∀ (L : List (TempP w)) (d : ℤ), ∀ q ∈ L, (∃ q' ∈ run d L, q'.delta ≤ q.delta) ∨ d < q.delta
  | [], _, _, h => absurd h (by simp)
  | a :: L, d, q, h => by
    unfold run
    by_cases hc : a.delta ≤ d
    · rw [if_pos hc]
      rcases List.mem_cons.1 h with e | h
      · exact Or.inl ⟨a, List.mem_cons_self, by rw [e]⟩
      · rcases run_le L a.delta q h with ⟨q', h1, h2⟩ | h1
        · exact Or.inl ⟨q', List.mem_cons_of_mem _ h1, h2⟩
        · exact Or.inl ⟨a, List.mem_cons_self, h1.le⟩
    · rw [if_neg hc]
      rcases List.mem_cons.1 h with e | h
      · right; rw [e]; omega
      · exact run_le L d q h

theorem run_sub : ∀ (L : List (TempP w)) (d : ℤ), ∀ q ∈ run d L, q ∈ L
  | [], _, _, h => h
  | a :: L, d, q, h => by
    unfold run at h
    split at h
    · rcases List.mem_cons.1 h with e | h
      · exact e ▸ List.mem_cons_self
      · exact List.mem_cons_of_mem _ (run_sub L _ q h)
    · exact List.mem_cons_of_mem _ (run_sub L _ q h)

theorem minDelta_spec : ∀ (L : List (TempP w)) (d : ℤ), minDelta d L ≤ d ∧ (∀ q ∈ L, minDelta d L ≤ q.delta) ∧
    (minDelta d L = d ∨ ∃ q ∈ L, q.delta = minDelta d L)
  | [], d => ⟨le_refl _, fun _ h => absurd h (by simp), Or.inl rfl⟩
  | a :: L, d => by
    have e : minDelta d (a :: L) = minDelta (if a.delta < d then a.delta else d) L := rfl
    rw [e]
    obtain ⟨h1, h2, h3⟩ := minDelta_spec L (if a.delta < d then a.delta else d)
    generalize minDelta (if a.delta < d then a.delta else d) L = m at *
    split at h1
    · next hc =>
      rw [if_pos hc] at h3
      refine ⟨by omega, fun q hq => ?_, ?_⟩
      · rcases List.mem_cons.1 hq with e | h
        · rw [e]; exact h1
        · exact h2 q h
      · rcases h3 with h | ⟨q, hq, h⟩
        · exact Or.inr ⟨a, List.mem_cons_self, h.symm⟩
        · exact Or.inr ⟨q, List.mem_cons_of_mem _ hq, h⟩
    · next hc =>
      rw [if_neg hc] at h3
      refine ⟨h1, fun q hq => ?_, ?_⟩
      · rcases List.mem_cons.1 hq with e | h
        · rw [e]; omega
        · exact h2 q h
      · rcases h3 with h | ⟨q, hq, h⟩
        · exact Or.inl h
        · exact Or.inr ⟨q, List.mem_cons_of_mem _ hq, h⟩

section
variable {R : TemperOps σ w} {Inv : σ → Prop} {B : BBPar} (hR : BBContract R B.size Inv) (h1 : 1 ≤ B.size) (h7 : B.size ≤ 7)
  (hs : ∀ x ∈ B.shifts, 0 ≤ x)

/-- The generator while the search runs: some parameters have been written. -/
def Touched (R : TemperOps σ w) (B : BBPar) (s t : σ) : Prop := t = s ∨ ∃ q, t = setAll R q B.size 0 s

include hR in
theorem setAll_touched {s t : σ} (hI : Inv s) (h : Touched R B s t) (p : ℕ → BitVec w) :
    setAll R p B.size 0 t = setAll R p B.size 0 s := by
  rcases h with rfl | ⟨q, rfl⟩
  · rfl
  · exact hR.set_all p q s hI

include hR h1 h7 hs in
theorem bbLoop_spec {s : σ} (hI : Inv s) (v : ℕ) (hv : v < w) (para : TempP w) :
    ∀ (n : ℕ) (t : σ) (d : ℤ) (cur : List (TempP w)), Touched R B s t →
      ∃ t', Touched R B s t' ∧ bbLoop R B v para n t d cur =
        some (t', cur ++ run d ((List.range n).reverse.filterMap (candidate R B s v para)))
  | 0, t, d, cur, ht => ⟨t, ht, by simp [bbLoop, run]⟩
  | n + 1, t, d, cur, ht => by
    rw [List.range_succ, List.reverse_append, List.reverse_singleton, List.singleton_append]
    obtain ⟨b, hb, _⟩ := inRange_defined (w := w) B h1 h7 n v
    unfold bbLoop
    rw [hb]
    cases b
    · have hc : candidate R B s v para n = none := by
        unfold candidate; rw [hb, if_neg (by simp)]
      rw [List.filterMap_cons_none hc]
      exact bbLoop_spec hI v hv para n t d cur ht
    · obtain ⟨p, hp⟩ := makePattern_defined B h1 h7 hs n v hv para.param
      obtain ⟨e, he, -⟩ := hR.delta_le p s (v + 1) hI (by omega) hv
      have hc : candidate R B s v para n = some ⟨p, e⟩ := by
        unfold candidate; rw [hb, if_pos rfl, hp, Option.bind_some, he, Option.map_some]
      rw [List.filterMap_cons_some hc]
      dsimp only
      rw [hp]
      dsimp only
      rw [setAll_touched hR hI ht p, he]
      dsimp only
      have ht' : Touched R B s (setAll R p B.size 0 s) := Or.inr ⟨p, rfl⟩
      unfold run
      by_cases hle : e ≤ d
      · rw [if_pos hle, if_pos hle]
        obtain ⟨t', h2, h3⟩ := bbLoop_spec hI v hv para n _ e (cur ++ [⟨p, e⟩]) ht'
        exact ⟨t', h2, by rw [h3, List.append_assoc]; rfl⟩
      · rw [if_neg hle, if_neg hle]
        exact bbLoop_spec hI v hv para n _ d cur ht'

include hR h1 h7 hs in
theorem bbAll_spec {s : σ} (hI : Inv s) (v : ℕ) (hv : v < w) :
    ∀ (ps : List (TempP w)) (t : σ) (cur : List (TempP w)), Touched R B s t →
      ∃ t', Touched R B s t' ∧ bbAll R B v ps t cur =
        some (t', cur ++ ps.flatMap fun para => run (R.bitSize * w)
          ((List.range (2 ^ B.numPat)).reverse.filterMap (candidate R B s v para)))
  | [], t, cur, ht => ⟨t, ht, by simp [bbAll]⟩
  | para :: ps, t, cur, ht => by
    obtain ⟨t1, ht1, e1⟩ := bbLoop_spec hR h1 h7 hs hI v hv para (2 ^ B.numPat) t (R.bitSize * w) cur ht
    obtain ⟨t2, ht2, e2⟩ := bbAll_spec hI v hv ps t1 _ ht1
    refine ⟨t2, ht2, ?_⟩
    unfold bbAll
    rw [e1]
    dsimp only
    rw [e2, List.flatMap_cons, List.append_assoc]

include hR in
theorem candidate_delta {s : σ} (hI : Inv s) {v : ℕ} (hv : v < w) {para q : TempP w} {i : ℕ}
    (h : candidate R B s v para i = some q) : q.delta ≤ R.bitSize * w := by
  unfold candidate at h
  split at h
  · cases hp : makePattern B i v para.param with
    | none => rw [hp] at h; cases h
    | some p =>
      obtain ⟨e, he, hle⟩ := hR.delta_le p s (v + 1) hI (by omega) hv
      rw [hp, Option.bind_some, he, Option.map_some, Option.some.injEq] at h
      rw [← h]; exact hle
  · cases h

include hR h1 h7 hs in
theorem generated_ne {s : σ} (hI : Inv s) {v : ℕ} (hv : v < w) {ps : List (TempP w)} (hne : ps ≠ []) :
    generated R B s v ps ≠ [] := by
  obtain ⟨para, ps', rfl⟩ := List.exists_cons_of_ne_nil hne
  obtain ⟨b, hb, hb0⟩ := inRange_defined (w := w) B h1 h7 0 v
  rw [hb0 rfl] at hb
  obtain ⟨p, hp⟩ := makePattern_defined B h1 h7 hs 0 v hv para.param
  obtain ⟨e, he, -⟩ := hR.delta_le p s (v + 1) hI (by omega) hv
  have hc : candidate R B s v para 0 = some ⟨p, e⟩ := by
    unfold candidate; rw [hb, if_pos rfl, hp, Option.bind_some, he, Option.map_some]
  apply List.ne_nil_of_mem (a := (⟨p, e⟩ : TempP w))
  unfold generated
  rw [List.mem_flatMap]
  refine ⟨para, List.mem_cons_self, ?_⟩
  rw [List.mem_filterMap]
  exact ⟨0, by simp [Nat.two_pow_pos], hc⟩

theorem exists_least : ∀ l : List (TempP w), l ≠ [] → ∃ q ∈ l, ∀ q' ∈ l, q.delta ≤ q'.delta
  | [], h => absurd rfl h
  | [a], _ => ⟨a, List.mem_cons_self, fun q' h => by rw [List.mem_singleton.1 h]⟩
  | a :: b :: l, _ => by
    obtain ⟨q, h1, h2⟩ := exists_least (b :: l) (by simp)
    rcases le_total a.delta q.delta with h | h
    · refine ⟨a, List.mem_cons_self, fun q' h' => ?_⟩
      rcases List.mem_cons.1 h' with e | h'
      · rw [e]
      · exact h.trans (h2 q' h')
    · refine ⟨q, List.mem_cons_of_mem _ h1, fun q' h' => ?_⟩
      rcases List.mem_cons.1 h' with e | h'
      · rw [e]; exact h
      · exact h2 q' h'

theorem least_ne {l : List (TempP w)} (h : l ≠ []) : least l ≠ [] := by
  obtain ⟨q, h1, h2⟩ := exists_least l h
  apply List.ne_nil_of_mem (a := q)
  unfold least
  rw [List.mem_filter, List.all_eq_true]
  exact ⟨h1, fun q' h' => by simpa using h2 q' h'⟩

theorem least_eq {l : List (TempP w)} {D : ℤ} (h : ∀ q ∈ l, D ≤ q.delta) (hD : ∃ q ∈ l, q.delta = D) :
    least l = l.filter fun q => q.delta = D := by
  unfold least
  apply List.filter_congr
  intro q hq
  rw [Bool.eq_iff_iff, List.all_eq_true, decide_eq_true_eq]
  obtain ⟨m, hm, em⟩ := hD
  constructor
  · intro h2
    have := h2 m hm
    rw [decide_eq_true_eq] at this
    have := h q hq
    omega
  · intro h2 q' h'
    rw [decide_eq_true_eq, h2]
    exact h q' h'

include hR h1 h7 hs in
theorem bbBits_spec {s : σ} (hI : Inv s) : ∀ (n k : ℕ) (t : σ), k + n ≤ w → Touched R B s t →
    ∃ t', Touched R B s t' ∧ bbBits R B n k t (kept R B s k) = some (t', kept R B s (k + n)) ∧
      (kept R B s k ≠ [] → kept R B s (k + n) ≠ [])
  | 0, k, t, _, ht => ⟨t, ht, rfl, id⟩
  | n + 1, k, t, hk, ht => by
    obtain ⟨t1, ht1, e1⟩ := bbAll_spec hR h1 h7 hs hI k (by omega) (kept R B s k) t [] ht
    unfold bbBits
    rw [e1]
    dsimp only
    rw [List.nil_append]
    have key : (List.filter (fun q => decide (q.delta = minDelta (↑R.bitSize * ↑w)
        ((kept R B s k).flatMap fun para => run (↑R.bitSize * ↑w)
          ((List.range (2 ^ B.numPat)).reverse.filterMap (candidate R B s k para)))))
        ((kept R B s k).flatMap fun para => run (↑R.bitSize * ↑w)
          ((List.range (2 ^ B.numPat)).reverse.filterMap (candidate R B s k para)))) = kept R B s (k + 1) := by
      obtain ⟨m1, m2, m3⟩ := minDelta_spec ((kept R B s k).flatMap fun para => run (↑R.bitSize * ↑w)
          ((List.range (2 ^ B.numPat)).reverse.filterMap (candidate R B s k para))) (↑R.bitSize * ↑w)
      generalize minDelta (↑R.bitSize * ↑w) ((kept R B s k).flatMap fun para => run (↑R.bitSize * ↑w)
          ((List.range (2 ^ B.numPat)).reverse.filterMap (candidate R B s k para))) = D at *
      have low : ∀ para ∈ kept R B s k, ∀ q ∈ (List.range (2 ^ B.numPat)).reverse.filterMap
          (candidate R B s k para), D ≤ q.delta := by
        intro para hp q hq
        rcases run_le _ (↑R.bitSize * ↑w) q hq with ⟨q', a, b⟩ | a
        · exact (m2 q' (List.mem_flatMap.2 ⟨para, hp, a⟩)).trans b
        · obtain ⟨i, -, hi⟩ := List.mem_filterMap.1 hq
          have := candidate_delta hR hI (show k < w by omega) hi
          omega
      have low' : ∀ q ∈ generated R B s k (kept R B s k), D ≤ q.delta := by
        intro q hq
        obtain ⟨para, a, b⟩ := List.mem_flatMap.1 hq
        exact low para a q b
      show _ = least (generated R B s k (kept R B s k))
      by_cases hne : kept R B s k = []
      · rw [hne]; rfl
      · rw [least_eq low']
        · unfold generated
          rw [List.filter_flatMap, List.filter_flatMap]
          apply List.flatMap_congr
          intro para hp
          exact run_filter _ _ D (low para hp) m1
        · rcases m3 with e | ⟨q, a, b⟩
          · obtain ⟨q, hq⟩ := List.exists_mem_of_ne_nil _
              (generated_ne hR h1 h7 hs hI (show k < w by omega) hne)
            refine ⟨q, hq, ?_⟩
            obtain ⟨para, a, b⟩ := List.mem_flatMap.1 hq
            obtain ⟨i, -, hi⟩ := List.mem_filterMap.1 b
            have := candidate_delta hR hI (show k < w by omega) hi
            have := low' q hq
            omega
          · obtain ⟨para, c, d⟩ := List.mem_flatMap.1 a
            exact ⟨q, List.mem_flatMap.2 ⟨para, c, run_sub _ _ q d⟩, b⟩
    rw [key]
    obtain ⟨t2, ht2, e2, hne⟩ := bbBits_spec hI n (k + 1) t1 (by omega) ht1
    have : k + 1 + n = k + (n + 1) := by omega
    rw [this] at e2 hne
    refine ⟨t2, ht2, e2, fun h => hne ?_⟩
    exact least_ne (generated_ne hR h1 h7 hs hI (show k < w by omega) h)

include hR h1 h7 hs in
/-- **C37.**  The best-bits search ends normally, the list of kept parameter sets is never empty, after every
bit it holds exactly the candidates of least defect (in the order they were generated), and the generator is
left with the first of the finally kept sets. -/
theorem bestBits_correct (hl : B.limit ≤ w) (s : σ) (hI : Inv s) :
    (∀ k ≤ B.limit, kept R B (R.resetRev s) k ≠ []) ∧
    ∃ q, (kept R B (R.resetRev s) B.limit).head? = some q ∧
      bestBits R B s = some (R.resetRev (R.setUp (setAll R q.param B.size 0 (R.resetRev s)))) := by
  have hI' := hR.reset_inv s hI
  have hne : ∀ k ≤ B.limit, kept R B (R.resetRev s) k ≠ [] := by
    intro k hk
    obtain ⟨_, _, _, h⟩ := bbBits_spec hR h1 h7 hs hI' k 0 (R.resetRev s) (by omega) (Or.inl rfl)
    rw [zero_add] at h
    exact h (by simp [kept])
  refine ⟨hne, ?_⟩
  obtain ⟨t, ht, e, _⟩ := bbBits_spec hR h1 h7 hs hI' B.limit 0 (R.resetRev s) (by omega) (Or.inl rfl)
  rw [zero_add] at e
  obtain ⟨q, l, hq⟩ := List.exists_cons_of_ne_nil (hne B.limit le_rfl)
  refine ⟨q, by rw [hq]; rfl, ?_⟩
  unfold bestBits
  have e0 : kept R B (R.resetRev s) 0 = [⟨fun _ => 0, 0⟩] := rfl
  rw [← e0, e, hq]
  dsimp only
  rw [setAll_touched hR hI' ht]

end

/-- The parameters of samples/MTDC meet the hypotheses. -/
example : 1 ≤ BBPar.size ⟨[7, 15], 15⟩ ∧ BBPar.size ⟨[7, 15], 15⟩ ≤ 7 ∧
    (∀ x ∈ (⟨[7, 15], 15⟩ : BBPar).shifts, 0 ≤ x) := by
  refine ⟨by show 1 ≤ 2; omega, by show 2 ≤ 7; omega, by simp⟩

end MTT.Temper
