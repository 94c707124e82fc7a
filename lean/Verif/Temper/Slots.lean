import Verif.Temper.BestBits
import Mathlib.Algebra.BigOperators.Group.List.Basic
import Mathlib.Data.List.Pairwise

/-!
# C37: where `AlgorithmBestBits` puts the bits of a pattern, for every number of parameters
-/

namespace MTT.Temper

variable {σ : Type} {w : ℕ}

/-- The places of the bits of a pattern, from its highest bit on, for the shifts `sh`: first every parameter at the current
bit, then, for `r = 0, 1, ..`, the parameters from number `r` on at a distance that is the sum of the last `r + 1` shifts;
of these the first `n (n + 1) / 2`.  A place is the number of the parameter and the distance. -/
def places (sh : List ℤ) : List (ℕ × ℤ) :=
  (((List.range sh.length).map fun i => (i, (0 : ℤ))) ++ (List.range sh.length).flatMap fun r =>
    (List.range' r (sh.length - r)).map fun i => (i, (sh.drop (sh.length - 1 - r)).sum)).take
      (sh.length * (sh.length + 1) / 2)

/-- With the two shifts of samples/MTDC: both parameters at the current bit, then the first one 15 bits further. -/
example : places [7, 15] = [(0, 0), (1, 0), (0, 15)] := by decide

/-- With three shifts the second round has all three parameters. -/
example : places [3, 4, 5] = [(0, 0), (1, 0), (2, 0), (0, 5), (1, 5), (2, 5)] := by decide

/-- The places that the walk visits in `n` steps. -/
def walkList (B : BBPar) : ℕ → Walk → Option (List (ℕ × ℤ))
  | 0, _ => some []
  | n + 1, k =>
    match k.next B with
    | none => none
    | some k' => (walkList B n k').map fun l => (k.index, k.sum) :: l

theorem walkList_start (B : BBPar) (h1 : 1 ≤ B.size) (h7 : B.size ≤ 7) :
    walkList B B.numPat (Walk.start B) = some (places B.shifts) := by
  obtain ⟨sh, limit⟩ := B
  unfold BBPar.size at h1 h7
  dsimp only at h1 h7
  rcases sh with _ | ⟨a, _ | ⟨b, _ | ⟨c, _ | ⟨d, _ | ⟨e, _ | ⟨f, _ | ⟨g, _ | ⟨h, l⟩⟩⟩⟩⟩⟩⟩⟩
  · simp at h1
  all_goals first | (simp only [List.length_cons] at h7; omega) | skip
  all_goals
    simp [BBPar.numPat, BBPar.size, Walk.start, walkList, Walk.next, places, List.range_succ, List.range'_succ]
  all_goals omega

theorem inRangeLoop_eq (B : BBPar) (pat : ℕ) (v : ℤ) : ∀ (n : ℕ) (k : Walk) (l : List (ℕ × ℤ)),
    safe B.size n k.index k.idx k.rdx = true → walkList B n k = some l →
      (inRangeLoop B w pat v n k = some true ↔ ∀ t q, l[t]? = some q → pat.testBit (n - 1 - t) = true →
        v + B.shifts.getD q.1 0 + q.2 ≤ w)
  | 0, _, l, _, h => by
    rw [walkList, Option.some.injEq] at h
    subst h
    simp [inRangeLoop]
  | n + 1, k, l, hs, h => by
    obtain ⟨h1, k', h2, h3⟩ := next_safe B hs
    have hlt : k.index < B.shifts.length := h1
    rw [walkList, h2] at h
    dsimp only at h
    obtain ⟨l', e1, rfl⟩ := Option.map_eq_some_iff.1 h
    have ih := inRangeLoop_eq B pat v n k' l' h3 e1
    have hd : B.shifts.getD k.index 0 = B.shifts[k.index] := by rw [List.getD_eq_getElem?_getD, List.getElem?_eq_getElem hlt, Option.getD_some]
    unfold inRangeLoop
    rw [List.getElem?_eq_getElem hlt]
    dsimp only
    by_cases hc : pat.testBit n = true ∧ v + B.shifts[k.index] + k.sum > w
    · rw [if_pos hc]
      refine ⟨fun h => by simp at h, fun h => ?_⟩
      have := h 0 _ rfl (by simpa using hc.1)
      rw [hd] at this
      omega
    · rw [if_neg hc, h2]
      dsimp only
      rw [ih]
      constructor
      · intro h t q ht hb
        cases t with
        | zero =>
          rw [List.getElem?_cons_zero, Option.some.injEq] at ht
          subst ht
          rw [hd]
          by_contra hh
          exact hc ⟨by simpa using hb, by omega⟩
        | succ t =>
          rw [List.getElem?_cons_succ] at ht
          exact h t q ht (by rwa [show n + 1 - 1 - (t + 1) = n - 1 - t by omega] at hb)
      · intro h t q ht hb
        exact h (t + 1) q (by rw [List.getElem?_cons_succ]; exact ht) (by rwa [show n + 1 - 1 - (t + 1) = n - 1 - t by omega])

/-- **C37.**  A pattern is in range iff for each of its bits that are set the shifted place of this bit lies in the word:
with one to seven parameters. -/
theorem inRange_correct (B : BBPar) (h1 : 1 ≤ B.size) (h7 : B.size ≤ 7) (pat : ℕ) (v : ℤ) :
    inRange B w pat v ≠ none ∧ (inRange B w pat v = some true ↔ ∀ t q, (places B.shifts)[t]? = some q →
      pat.testBit (B.size * (B.size + 1) / 2 - 1 - t) = true → v + B.shifts.getD q.1 0 + q.2 ≤ w) := by
  obtain ⟨b, hb, -⟩ := inRange_defined (w := w) B h1 h7 pat v
  refine ⟨by rw [hb]; simp, ?_⟩
  unfold inRange
  rw [if_pos (numPat_bounds h1 h7)]
  exact inRangeLoop_eq B pat v _ _ _ (safe_start B.size h1 h7) (walkList_start B h1 h7)

theorem next_sum {B : BBPar} (hs : ∀ x ∈ B.shifts, 0 ≤ x) {k k' : Walk} (h : k.next B = some k') (h0 : 0 ≤ k.sum) :
    0 ≤ k'.sum := by
  unfold Walk.next at h
  split at h
  · split at h
    · split at h
      · cases h
      · next x hx =>
        cases h
        have := hs x (List.mem_of_getElem? hx)
        show 0 ≤ k.sum + x
        omega
    · cases h
  · cases h
    exact h0

theorem makePatternLoop_eq (B : BBPar) (hs : ∀ x ∈ B.shifts, 0 ≤ x) (pat v : ℕ) (hv : v < w) :
    ∀ (n : ℕ) (k : Walk) (l : List (ℕ × ℤ)) (p : ℕ → BitVec w),
    safe B.size n k.index k.idx k.rdx = true → 0 ≤ k.sum → walkList B n k = some l →
      ∃ q, makePatternLoop B pat v ((~~~ (0 : BitVec w)) >>> v) n k p = some q ∧
        (∀ j (i : ℕ), i < w → (∀ (t : ℕ) s, l[t]? = some (j, s) → 1 ≤ i → (v : ℤ) + s ≠ w - 1 - i) →
          (q j).getLsbD i = (p j).getLsbD i) ∧
        ∀ (t : ℕ) j s, l[t]? = some (j, s) → ∀ i : ℕ, 1 ≤ i → (v : ℤ) + s = w - 1 - i → (∀ t', t < t' → l[t']? ≠ some (j, s)) →
          (q j).getLsbD i = pat.testBit (n - 1 - t)
  | 0, _, l, p, _, _, h => by
    rw [walkList, Option.some.injEq] at h
    subst h
    exact ⟨p, rfl, fun _ _ _ _ => rfl, fun t j s ht => by simp at ht⟩
  | n + 1, k, l, p, hsafe, h0, h => by
    obtain ⟨h1, k', h2, h3⟩ := next_safe B hsafe
    rw [walkList, h2] at h
    dsimp only at h
    obtain ⟨l', e1, rfl⟩ := Option.map_eq_some_iff.1 h
    -- the first step
    obtain ⟨p', g1, g2, g3⟩ : ∃ p' : ℕ → BitVec w, makePatternLoop B pat v ((~~~ (0 : BitVec w)) >>> v) (n + 1) k p =
        makePatternLoop B pat v ((~~~ (0 : BitVec w)) >>> v) n k' p' ∧
        (∀ j i, i < w → (k.index = j → 1 ≤ i → (v : ℤ) + k.sum ≠ w - 1 - i) → (p' j).getLsbD i = (p j).getLsbD i) ∧
        (∀ i : ℕ, 1 ≤ i → (v : ℤ) + k.sum = w - 1 - i → (p' k.index).getLsbD i = pat.testBit n) := by
      by_cases hc : (w : ℤ) > v + k.sum + 1
      · obtain ⟨e, he⟩ : ∃ e : ℕ, (w : ℤ) - v - k.sum - 1 = e := ⟨((w : ℤ) - v - k.sum - 1).toNat, by omega⟩
        have hw : shlC (1 : BitVec w) ((w : ℤ) - v - k.sum - 1) = some ((1 : BitVec w) <<< e) := by
          unfold shlC
          rw [if_pos (by omega), he, Int.toNat_natCast]
        refine ⟨Function.update p k.index (if pat.testBit n then p k.index ||| ((1 : BitVec w) <<< e &&&
          (~~~ (0 : BitVec w)) >>> v) else p k.index &&& ~~~ ((1 : BitVec w) <<< e)), ?_, ?_, ?_⟩
        · rw [makePatternLoop, if_neg (by omega)]
          dsimp only
          rw [if_pos hc, hw]
          dsimp only
          rw [h2]
        · intro j i hi hne
          by_cases hj : k.index = j
          · subst hj
            rw [Function.update_self, writeBit (by omega) _ _ i hi]
            by_cases hie : i = e
            · exact absurd (by omega) (hne rfl (by omega))
            · rw [if_neg hie]
          · rw [Function.update_of_ne (Ne.symm hj)]
        · intro i hi hv'
          rw [Function.update_self, writeBit (by omega) _ _ i (by omega), if_pos (by omega)]
      · refine ⟨p, ?_, fun _ _ _ _ => rfl, fun i hi hv' => by omega⟩
        rw [makePatternLoop, if_neg (by omega)]
        dsimp only
        rw [if_neg hc]
        dsimp only
        rw [h2]
    obtain ⟨q, i1, i2, i3⟩ := makePatternLoop_eq B hs pat v hv n k' l' p' h3 (next_sum hs h2 h0) e1
    refine ⟨q, g1.trans i1, ?_, ?_⟩
    · intro j i hi hne
      rw [i2 j i hi fun t s ht => hne (t + 1) s (by rw [List.getElem?_cons_succ]; exact ht), g2 j i hi]
      rintro rfl
      exact hne 0 k.sum rfl
    · intro t j s ht i hi hv' hlast
      cases t with
      | zero =>
        rw [List.getElem?_cons_zero, Option.some.injEq, Prod.mk.injEq] at ht
        obtain ⟨rfl, rfl⟩ := ht
        rw [i2 k.index i (by omega), g3 i hi hv', show n + 1 - 1 - 0 = n by omega]
        intro t s ht _ hv2
        have : s = k.sum := by omega
        subst this
        exact hlast (t + 1) (by omega) (by rw [List.getElem?_cons_succ]; exact ht)
      | succ t =>
        rw [List.getElem?_cons_succ] at ht
        rw [i3 t j s ht i hi hv' fun t' ht' => by
          have := hlast (t' + 1) (by omega)
          rwa [List.getElem?_cons_succ] at this, show n + 1 - 1 - (t + 1) = n - 1 - t by omega]

/-- **C37.**  What `make_pattern` writes, with one to seven parameters and non-negative shifts: the bits of the pattern go to
their places, `v` plus the distance counted from the most significant bit (where two places coincide the later one counts),
and nothing else is changed.  The least significant bit of a parameter is never written. -/
theorem makePattern_correct (B : BBPar) (h1 : 1 ≤ B.size) (h7 : B.size ≤ 7) (hs : ∀ x ∈ B.shifts, 0 ≤ x)
    (pat v : ℕ) (hv : v < w) (p : ℕ → BitVec w) : ∃ q, makePattern B pat v p = some q ∧
      (∀ (t : ℕ) j s, (places B.shifts)[t]? = some (j, s) → ∀ i : ℕ, 1 ≤ i → (v : ℤ) + s = w - 1 - i →
        (∀ t', t < t' → (places B.shifts)[t']? ≠ some (j, s)) →
        (q j).getLsbD i = pat.testBit (B.size * (B.size + 1) / 2 - 1 - t)) ∧
      ∀ j (i : ℕ), i < w → (∀ (t : ℕ) s, (places B.shifts)[t]? = some (j, s) → 1 ≤ i → (v : ℤ) + s ≠ w - 1 - i) →
        (q j).getLsbD i = (p j).getLsbD i := by
  have g : (0 : ℤ) ≤ (v : ℤ) ∧ (v : ℤ) < w := by omega
  obtain ⟨q, q1, q2, q3⟩ := makePatternLoop_eq B hs pat v hv B.numPat (Walk.start B) _ p (safe_start B.size h1 h7) le_rfl
    (walkList_start B h1 h7)
  refine ⟨q, ?_, q3, q2⟩
  unfold makePattern shrC
  rw [if_pos g]
  dsimp only
  rw [if_pos (numPat_bounds h1 h7)]
  exact q1

/-- Three parameters, the pattern that sets only the place of the second parameter at distance 5: bit 20 of it is set. -/
example : ∃ q, makePattern (w := 32) ⟨[3, 4, 5], 10⟩ 2 6 (fun _ => 0) = some q ∧ (q 1).getLsbD 20 = true := by
  obtain ⟨q, h1, h2, -⟩ := makePattern_correct (w := 32) ⟨[3, 4, 5], 10⟩ (by decide) (by decide) (by decide) 2 6 (by decide)
    (fun _ => 0)
  refine ⟨q, h1, ?_⟩
  rw [h2 4 1 5 (by decide) 20 (by decide) (by decide) ?_]
  · decide
  · intro t' ht
    rcases Nat.lt_or_ge t' 6 with h | h
    · interval_cases t'
      decide
    · rw [List.getElem?_eq_none]
      · simp
      · exact h

theorem setAll_range (R : TemperOps σ w) (p : ℕ → BitVec w) : ∀ (n j : ℕ) (s : σ),
    setAll R p n j s = (List.range' j n).foldl (fun s j => R.setPat (BitVec.allOnes w) (p j) j s) s
  | 0, _, _ => rfl
  | n + 1, j, s => by
    have e : (~~~ (0 : BitVec w)) = BitVec.allOnes w := by simp
    rw [setAll, setAll_range R p n, List.range'_succ, List.foldl_cons, e]

/-- **C37.**  A candidate is installed by one call of `setTemperingPattern` for each parameter, in order, with the mask of all
ones. -/
theorem setAll_correct (R : TemperOps σ w) (p : ℕ → BitVec w) (n : ℕ) (s : σ) :
    setAll R p n 0 s = (List.range n).foldl (fun s j => R.setPat (BitVec.allOnes w) (p j) j s) s := by
  rw [setAll_range, List.range_eq_range']

end MTT.Temper
