import Verif.Temper.Model
import Mathlib.Algebra.Order.Ring.Int

/-!
# The tempering searches are correct (C35, C36, C37)
-/

namespace MTT.Temper

variable {σ : Type} {w n : ℕ}

/-! ## Window masks (C36) -/

/-- The word whose ones are the bits `start, …, start+size-1` counted from the most significant bit
(`lsb = false`) or the least significant bit (`lsb = true`). -/
def InWindow (w : ℕ) (lsb : Bool) (start size i : ℕ) : Prop :=
  if lsb then start ≤ i ∧ i < start + size else start + i < w ∧ w ≤ start + size + i

/-- C36: `make_mask(start, size)` is defined and selects exactly the window, clipped to the word. -/
theorem makeMask_correct (lsb : Bool) (start size : ℕ) (hs : start < w) (h1 : 1 ≤ size) :
    ∃ m : BitVec w, makeMask w lsb start size = some m ∧
      ∀ i, i < w → (m.getLsbD i = true ↔ InWindow w lsb start size i) := by
  obtain ⟨n, hn, hn1, hnw, hw⟩ : ∃ n : ℕ, (if (start : ℤ) + size > (w : ℤ) then (w : ℤ) - start else size) = n ∧
      1 ≤ n ∧ start + n ≤ w ∧ (n = size ∨ (n = w - start ∧ w ≤ start + size)) := by
    by_cases h : (start : ℤ) + size > (w : ℤ)
    · refine ⟨w - start, ?_, by omega, by omega, Or.inr ⟨rfl, by omega⟩⟩
      rw [if_pos h]; omega
    · refine ⟨size, ?_, by omega, by omega, Or.inl rfl⟩
      rw [if_neg h]
  have g1 : (0 : ℤ) ≤ start ∧ (start : ℤ) < w := by omega
  have g2 : (0 : ℤ) ≤ (w : ℤ) - n ∧ (w : ℤ) - n < w := by omega
  have g3 : (0 : ℤ) ≤ (w : ℤ) - start - n ∧ (w : ℤ) - start - n < w := by omega
  have e2 : ((w : ℤ) - n).toNat = w - n := by omega
  have e3 : ((w : ℤ) - start - n).toNat = w - start - n := by omega
  cases lsb
  · refine ⟨_, by simp only [makeMask, hn, shlC, shrC, g1, g2, g3, and_self, if_true, if_false,
      Bool.false_eq_true, Int.toNat_natCast, e2, e3]; rfl, ?_⟩
    intro i hi
    simp only [InWindow, Bool.false_eq_true, if_false, BitVec.getLsbD_shiftLeft, BitVec.getLsbD_ushiftRight,
      BitVec.getLsbD_not, BitVec.ofNat_eq_ofNat, BitVec.getLsbD_zero, Bool.not_false, Bool.and_true,
      Bool.and_eq_true, decide_eq_true_eq, Bool.not_eq_true', decide_eq_false_iff_not]
    omega
  · refine ⟨_, by simp only [makeMask, hn, shlC, shrC, g1, g2, g3, and_self, if_true,
      Int.toNat_natCast, e2, e3]; rfl, ?_⟩
    intro i hi
    simp only [InWindow, if_true, BitVec.getLsbD_shiftLeft, BitVec.getLsbD_ushiftRight,
      BitVec.getLsbD_not, BitVec.ofNat_eq_ofNat, BitVec.getLsbD_zero, Bool.not_false, Bool.and_true,
      Bool.and_eq_true, decide_eq_true_eq, Bool.not_eq_true', decide_eq_false_iff_not]
    omega

/-- The excluded points of C36 are exactly undefined shifts. -/
theorem makeMask_undefined (lsb : Bool) (start size : ℕ) (h : w ≤ start ∨ size = 0) :
    (makeMask w lsb start size : Option (BitVec w)) = none := by
  by_cases h1 : start < w
  · have h0 : size = 0 := by omega
    subst h0
    have e : ¬ ((start : ℤ) + ((0 : ℕ) : ℤ) > (w : ℤ)) := by push_cast; omega
    have e2 : ¬ ((0 : ℤ) ≤ (w : ℤ) - ((0 : ℕ) : ℤ) ∧ (w : ℤ) - ((0 : ℕ) : ℤ) < w) := by push_cast; omega
    have g1 : (0 : ℤ) ≤ start ∧ (start : ℤ) < w := by omega
    cases lsb <;> simp only [makeMask, if_neg e, shlC, shrC, if_pos g1, if_neg e2, Bool.false_eq_true,
      if_true, if_false]
  · have e : ¬ ((0 : ℤ) ≤ start ∧ (start : ℤ) < w) := by omega
    cases lsb <;> simp only [makeMask, shlC, shrC, if_neg e, Bool.false_eq_true, if_true, if_false]

example : (makeMask 32 false 12 6 : Option (BitVec 32)) = some 0x000fc000 ∧
    (makeMask 32 true 5 4 : Option (BitVec 32)) = some 0x000001e0 ∧
    (makeMask 32 false 30 6 : Option (BitVec 32)) = some 0x00000003 := by decide

/-! ## The partial bit pattern search (C35) -/

/-- What a generator must satisfy: writing a pattern under a mask is a function of the bits under the mask
and leaves no trace of what was there before (C53), the tempering parameters `par` are changed exactly as
requested, `delta` ends normally on every generator the search can reach and is at most `bitSize * bit_len`. -/
structure TemperContract (R : TemperOps σ w) (n : ℕ) (Inv : σ → Prop) (par : σ → ℕ → BitVec w) : Prop where
  set_inv : ∀ m p i s, i < n → Inv s → Inv (R.setUp (R.setPat m p i s))
  set_set : ∀ m p p' i s, i < n → Inv s →
    R.setUp (R.setPat m p i (R.setUp (R.setPat m p' i s))) = R.setUp (R.setPat m p i s)
  set_par : ∀ m p i s, i < n → Inv s → par (R.setUp (R.setPat m p i s)) i = (par s i &&& ~~~ m) ||| (p &&& m)
  set_par_ne : ∀ m p i j s, i < n → j < n → j ≠ i → Inv s → par (R.setUp (R.setPat m p i s)) j = par s j
  set_same : ∀ m i s, i < n → Inv s → R.setUp (R.setPat m (par s i &&& m) i s) = R.setUp s
  setUp_setUp : ∀ s, R.setUp (R.setUp s) = R.setUp s
  setUp_inv : ∀ s, Inv s → Inv (R.setUp s)
  delta_le : ∀ s, Inv s → ∃ d, R.delta w s = some d ∧ d ≤ R.bitSize * w

variable {R : TemperOps σ w} {Inv : σ → Prop} {par : σ → ℕ → BitVec w}

/-- A pattern confined to the window. -/
def Confined (w : ℕ) (lsb : Bool) (start size : ℕ) (p : BitVec w) : Prop :=
  ∀ i, i < w → p.getLsbD i = true → InWindow w lsb start size i

/-- The patterns of the loop. -/
theorem patternOf_spec (P : PBPar) (hP : P.bitLen = w) (v size : ℕ) (hv : v + size ≤ w) (h1 : 1 ≤ size)
    (i : ℕ) : ∃ p : BitVec w, patternOf P v size i = some p ∧
      ∀ j, j < w → (p.getLsbD j = if P.lsb then decide (v ≤ j) && i.testBit (j - v)
        else decide (w ≤ v + size + j) && i.testBit (v + size + j - w)) := by
  have g1 : (0 : ℤ) ≤ v ∧ (v : ℤ) < w := by omega
  have g2 : (0 : ℤ) ≤ (w : ℤ) - v - size ∧ (w : ℤ) - v - size < w := by omega
  have e2 : ((w : ℤ) - v - size).toNat = w - v - size := by omega
  cases hl : P.lsb
  · refine ⟨_, by simp only [patternOf, hl, hP, Bool.false_eq_true, if_false, shlC, if_pos g2, e2]; rfl, ?_⟩
    intro j hj
    simp only [Bool.false_eq_true, if_false, BitVec.getLsbD_shiftLeft, BitVec.getLsbD_ofNat]
    by_cases hc : w - v - size ≤ j
    · have a : decide (j < w) = true := by simpa using hj
      have b : decide (j < w - v - size) = false := by simpa using hc
      have c : decide (j - (w - v - size) < w) = true := by simp; omega
      have d : decide (w ≤ v + size + j) = true := by simp; omega
      have e : j - (w - v - size) = v + size + j - w := by omega
      rw [a, b, c, d, e]; simp
    · have b : decide (j < w - v - size) = true := by simp; omega
      have d : decide (w ≤ v + size + j) = false := by simp; omega
      rw [b, d]; simp
  · refine ⟨_, by simp only [patternOf, hl, if_true, shlC, if_pos g1, Int.toNat_natCast]; rfl, ?_⟩
    intro j hj
    simp only [if_true, BitVec.getLsbD_shiftLeft, BitVec.getLsbD_ofNat]
    by_cases hc : v ≤ j
    · have a : decide (j < w) = true := by simpa using hj
      have b : decide (j < v) = false := by simpa using hc
      have c : decide (j - v < w) = true := by simp; omega
      have d : decide (v ≤ j) = true := by simpa using hc
      rw [a, b, c, d]; simp
    · have b : decide (j < v) = true := by simp; omega
      have d : decide (v ≤ j) = false := by simp; omega
      rw [b, d]; simp

/-- The loop tries exactly the patterns confined to the window. -/
theorem patterns_complete (P : PBPar) (hP : P.bitLen = w) (v size : ℕ) (hv : v + size ≤ w) (h1 : 1 ≤ size)
    (q : BitVec w) : (∃ i, i < 2 ^ size ∧ patternOf P v size i = some q) ↔ Confined w P.lsb v size q := by
  constructor
  · rintro ⟨i, hi, hq⟩ j hj hb
    obtain ⟨p, hp, hs⟩ := patternOf_spec P hP v size hv h1 i
    rw [hp, Option.some.injEq] at hq
    subst hq
    rw [hs j hj] at hb
    have tb : ∀ k, i.testBit k = true → k < size := fun k hk => by
      by_contra hc
      rw [Nat.testBit_lt_two_pow (lt_of_lt_of_le hi (Nat.pow_le_pow_right (by decide) (by omega)))] at hk
      cases hk
    unfold InWindow
    cases hl : P.lsb <;> rw [hl] at hb <;>
      simp only [Bool.false_eq_true, if_true, if_false, Bool.and_eq_true, decide_eq_true_eq] at hb ⊢ <;>
      have := tb _ hb.2 <;> omega
  · intro hq
    have key : ∃ i, i < 2 ^ size ∧ ∀ k, k < size → i.testBit k =
        q.getLsbD (if P.lsb then v + k else w - v - size + k) := by
      refine ⟨(q.toNat >>> (if P.lsb then v else w - v - size)) % 2 ^ size, Nat.mod_lt _ (Nat.two_pow_pos _), ?_⟩
      intro k hk
      rw [Nat.testBit_mod_two_pow, Nat.testBit_shiftRight, ← BitVec.testBit_toNat]
      cases P.lsb <;> simp [hk]
    obtain ⟨i, hi, hk⟩ := key
    refine ⟨i, hi, ?_⟩
    obtain ⟨p, hp, hs⟩ := patternOf_spec P hP v size hv h1 i
    rw [hp, Option.some.injEq]
    apply BitVec.eq_of_getLsbD_eq
    intro j hj
    rw [hs j hj]
    have hq' := hq j hj
    have hbig : ∀ k, size ≤ k → i.testBit k = false := fun k hk =>
      Nat.testBit_lt_two_pow (lt_of_lt_of_le hi (Nat.pow_le_pow_right (by decide) hk))
    unfold InWindow at hq'
    cases hl : P.lsb <;> rw [hl] at hq' hk <;>
      simp only [Bool.false_eq_true, if_true, if_false] at hq' hk ⊢
    · by_cases hc : w ≤ v + size + j ∧ v + j < w
      · rw [hk _ (by omega), decide_eq_true hc.1, Bool.true_and]
        congr 1; omega
      · have h0 : q.getLsbD j = false := by
          cases hb : q.getLsbD j
          · rfl
          · exact absurd (hq' hb) (by omega)
        rw [h0]
        by_cases h2 : w ≤ v + size + j
        · rw [hbig _ (by omega), Bool.and_false]
        · rw [decide_eq_false h2, Bool.false_and]
    · by_cases hc : v ≤ j ∧ j < v + size
      · rw [hk _ (by omega), decide_eq_true hc.1, Bool.true_and]
        congr 1; omega
      · have h0 : q.getLsbD j = false := by
          cases hb : q.getLsbD j
          · rfl
          · exact absurd (hq' hb) (by omega)
        rw [h0]
        by_cases h2 : v ≤ j
        · rw [hbig _ (by omega), Bool.and_false]
        · rw [decide_eq_false h2, Bool.false_and]

/-- The generator with the window of parameter `pos` replaced by `p`. -/
def cand (R : TemperOps σ w) (m : BitVec w) (pos : ℕ) (s : σ) (p : BitVec w) : σ :=
  R.setUp (R.setPat m p pos s)

/-- Loop invariant: `D`, `q` are the best defect and pattern of the loop indices from `i` on. -/
structure Best (R : TemperOps σ w) (P : PBPar) (m : BitVec w) (pos v size : ℕ) (s : σ) (i : ℕ)
    (D : ℤ) (q : BitVec w) : Prop where
  bound : D ≤ R.bitSize * w
  all : ∀ j, i ≤ j → j < 2 ^ size → ∀ p, patternOf P v size j = some p →
    ∃ d, R.delta w (cand R m pos s p) = some d ∧ D ≤ d ∧ (d = D → R.countBit p ≤ R.countBit q)
  own : (D = R.bitSize * w ∧ q = 0) ∨
    (∃ j, i ≤ j ∧ j < 2 ^ size ∧ patternOf P v size j = some q ∧ R.delta w (cand R m pos s q) = some D)

theorem bestLoop_spec (h : TemperContract R n Inv par) (P : PBPar) (hP : P.bitLen = w) (m : BitVec w)
    {pos v size : ℕ} (hpos : pos < n) (hv : v + size ≤ w) (h1 : 1 ≤ size) {s : σ} (hs : Inv s) :
    ∀ (i : ℕ) (a : Acc σ w), i ≤ 2 ^ size → (a.rand = s ∨ ∃ p, a.rand = cand R m pos s p) →
      Best R P m pos v size s i a.minDelta a.minPattern →
      ∃ a', bestLoop R P m pos v size i a = some a' ∧
        (a'.rand = s ∨ ∃ p, a'.rand = cand R m pos s p) ∧
        Best R P m pos v size s 0 a'.minDelta a'.minPattern
  | 0, a, _, hr, hb => ⟨a, rfl, hr, hb⟩
  | i + 1, a, hi, hr, hb => by
    obtain ⟨p, hp, -⟩ := patternOf_spec (w := w) P hP v size hv h1 i
    have hc : makeTemperBit R m pos p a.rand = cand R m pos s p := by
      rcases hr with hr | ⟨p', hr⟩
      · rw [hr]; rfl
      · rw [hr]; exact h.set_set m p p' pos s hpos hs
    obtain ⟨d, hd, hdl⟩ := h.delta_le (cand R m pos s p) (h.set_inv m p pos s hpos hs)
    have step : ∀ D q, D ≤ a.minDelta → D ≤ d → (d = D → R.countBit p ≤ R.countBit q) →
        (D = a.minDelta → R.countBit a.minPattern ≤ R.countBit q) →
        ((D = a.minDelta ∧ q = a.minPattern) ∨ (D = d ∧ q = p)) → Best R P m pos v size s i D q := by
      intro D q e1 e2 e3 e5 e4
      refine ⟨le_trans e1 hb.bound, ?_, ?_⟩
      · intro j hij hj p' hp'
        rcases Nat.eq_or_lt_of_le hij with rfl | hlt
        · rw [hp, Option.some.injEq] at hp'
          subst hp'
          exact ⟨d, hd, e2, e3⟩
        · obtain ⟨d', h1', h2', h3'⟩ := hb.all j hlt hj p' hp'
          exact ⟨d', h1', le_trans e1 h2', fun hh =>
            le_trans (h3' (le_antisymm (hh ▸ e1) h2')) (e5 (le_antisymm e1 (hh ▸ h2')))⟩
      · rcases e4 with ⟨rfl, rfl⟩ | ⟨rfl, rfl⟩
        · rcases hb.own with ho | ⟨j, hj1, hj2, hj3, hj4⟩
          · exact Or.inl ho
          · exact Or.inr ⟨j, by omega, hj2, hj3, hj4⟩
        · exact Or.inr ⟨i, le_refl _, by omega, hp, hd⟩
    rw [bestLoop, hp]
    dsimp only
    rw [hc, hP, hd]
    dsimp only
    apply bestLoop_spec h P hP m hpos hv h1 hs i
    · omega
    · split_ifs <;> exact Or.inr ⟨p, rfl⟩
    · split_ifs with c1 c2 c3
      · exact step d p (le_of_lt c1) (le_refl _) (fun _ => le_refl _) (fun e => absurd e (by omega)) (Or.inr ⟨rfl, rfl⟩)
      · exact step a.minDelta p (le_refl _) (le_of_eq c2.symm) (fun _ => le_refl _) (fun _ => le_of_lt c3)
          (Or.inr ⟨c2.symm, rfl⟩)
      · exact step a.minDelta a.minPattern (le_refl _) (le_of_eq c2.symm) (fun _ => by omega) (fun _ => le_refl _)
          (Or.inl ⟨rfl, rfl⟩)
      · exact step a.minDelta a.minPattern (le_refl _) (by omega) (fun e => absurd e c2) (fun _ => le_refl _) (Or.inl ⟨rfl, rfl⟩)

/-- C35: one step of the search.  `search_best_temper` ends; the generator is left with the window of the
parameter `pos` replaced by a confined pattern `q`; its defect sum is the returned value, is minimal among
all patterns confined to the window, and `q` has the greatest weight among the minimal ones; no bit of a
tempering parameter outside the window is changed. -/
theorem searchBest_correct (h : TemperContract R n Inv par) (P : PBPar) (hP : P.bitLen = w)
    {pos v size : ℕ} (hpos : pos < n) (hv : v + size ≤ w) (h1 : 1 ≤ size) (h31 : size < 31)
    {s : σ} (hs : Inv s) :
    ∃ (m q : BitVec w) (D : ℤ),
      (∀ i, i < w → (m.getLsbD i = true ↔ InWindow w P.lsb v size i)) ∧
      Confined w P.lsb v size q ∧
      searchBest R P v pos ((v + size : ℕ) : ℤ) s = some (R.setUp (R.setPat m q pos s), D) ∧
      R.delta w (R.setUp (R.setPat m q pos s)) = some D ∧
      (∀ p, Confined w P.lsb v size p → ∃ d, R.delta w (R.setUp (R.setPat m p pos s)) = some d ∧ D ≤ d ∧
        (d = D → R.countBit p ≤ R.countBit q)) ∧
      (∀ i, i < w → ¬ InWindow w P.lsb v size i →
        (par (R.setUp (R.setPat m q pos s)) pos).getLsbD i = (par s pos).getLsbD i) ∧
      (∀ j, j < n → j ≠ pos → par (R.setUp (R.setPat m q pos s)) j = par s j) := by
  obtain ⟨m, hm, hmb⟩ := makeMask_correct (w := w) P.lsb v size (by omega) h1
  have e1 : ((v + size : ℕ) : ℤ) - (v : ℤ) = (size : ℕ) := by omega
  have hinit : Best R P m pos v size s (2 ^ size) (R.bitSize * w) 0 :=
    ⟨le_refl _, fun j hj hj' => absurd hj' (by omega), Or.inl ⟨rfl, rfl⟩⟩
  obtain ⟨a, ha, hr, hb⟩ := bestLoop_spec h P hP m hpos hv h1 hs (2 ^ size) ⟨s, R.bitSize * w, 0⟩
    (le_refl _) (Or.inl rfl) hinit
  have hc : makeTemperBit R m pos a.minPattern a.rand = cand R m pos s a.minPattern := by
    rcases hr with hr | ⟨p', hr⟩
    · rw [hr]; rfl
    · rw [hr]; exact h.set_set m _ p' pos s hpos hs
  have hres : searchBest R P v pos ((v + size : ℕ) : ℤ) s =
      some (R.setUp (R.setPat m a.minPattern pos s), a.minDelta) := by
    unfold searchBest
    dsimp only
    rw [e1, hP, hm]
    dsimp only
    rw [if_neg (by omega), Int.toNat_natCast, ha]
    dsimp only
    rw [hc]; rfl
  have hz : Confined w P.lsb v size (0 : BitVec w) := fun i _ hb => by
    rw [BitVec.ofNat_eq_ofNat, BitVec.getLsbD_zero] at hb; cases hb
  have hall : ∀ p, Confined w P.lsb v size p → ∃ d, R.delta w (R.setUp (R.setPat m p pos s)) = some d ∧
      a.minDelta ≤ d ∧ (d = a.minDelta → R.countBit p ≤ R.countBit a.minPattern) := fun p hp => by
    obtain ⟨j, hj, hjp⟩ := (patterns_complete P hP v size hv h1 p).2 hp
    exact hb.all j (Nat.zero_le _) hj p hjp
  have hown : Confined w P.lsb v size a.minPattern ∧
      R.delta w (R.setUp (R.setPat m a.minPattern pos s)) = some a.minDelta := by
    rcases hb.own with ⟨h2, h3⟩ | ⟨j, -, hj, hjp, hd⟩
    · refine ⟨h3 ▸ hz, ?_⟩
      obtain ⟨d, hd, hdl⟩ := h.delta_le (R.setUp (R.setPat m 0 pos s)) (h.set_inv m 0 pos s hpos hs)
      obtain ⟨d', hd', hle, -⟩ := hall 0 hz
      rw [hd, Option.some.injEq] at hd'
      subst hd'
      rw [h3, hd, Option.some.injEq, h2]
      rw [h2] at hle
      exact le_antisymm hdl hle
    · exact ⟨(patterns_complete P hP v size hv h1 _).1 ⟨j, hj, hjp⟩, hd⟩
  refine ⟨m, a.minPattern, a.minDelta, hmb, hown.1, hres, hown.2, hall, ?_, ?_⟩
  · intro i hi hni
    rw [h.set_par m _ pos s hpos hs]
    have : m.getLsbD i = false := by
      cases hx : m.getLsbD i
      · rfl
      · exact absurd ((hmb i hi).1 hx) hni
    simp only [BitVec.getLsbD_or, BitVec.getLsbD_and, BitVec.getLsbD_not, this, hi, decide_true,
      Bool.not_false, Bool.and_true, Bool.and_false, Bool.or_false]
  · intro j hj hne
    exact h.set_par_ne m _ pos j s hpos hj hne hs

/-- `t` is `s` after some calls of `setTemperingPattern` on the first `n` parameters and
`setUpTempering`. -/
inductive Reached (R : TemperOps σ w) (n : ℕ) (s : σ) : σ → Prop
  | refl : Reached R n s s
  | step (m p : BitVec w) (i : ℕ) (t : σ) : i < n → Reached R n s t → Reached R n s (R.setUp (R.setPat m p i t))

theorem Reached.trans {s t u : σ} (h1 : Reached R n s t) (h2 : Reached R n t u) : Reached R n s u := by
  induction h2 with
  | refl => exact h1
  | step m p i t hi _ ih => exact Reached.step m p i t hi ih

/-- What the whole search guarantees between two points: `t` is `s` with other tempering parameters, nothing
outside the first `L` bits of the parameters is changed and the defect sum is not greater. -/
structure Better (R : TemperOps σ w) (Inv : σ → Prop) (par : σ → ℕ → BitVec w) (n : ℕ) (lsb : Bool) (L : ℕ)
    (s t : σ) : Prop where
  inv : Inv t
  reached : Reached R n s t
  outside : ∀ i, i < n → ∀ k, k < w → ¬ InWindow w lsb 0 L k → (par t i).getLsbD k = (par s i).getLsbD k
  le : ∃ d e, R.delta w (R.setUp s) = some d ∧ R.delta w (R.setUp t) = some e ∧ e ≤ d

theorem Better.refl (h : TemperContract R n Inv par) {lsb : Bool} {L : ℕ} {s : σ} (hs : Inv s) :
    Better R Inv par n lsb L s s := by
  obtain ⟨d, hd, -⟩ := h.delta_le _ (h.setUp_inv s hs)
  exact ⟨hs, Reached.refl, fun _ _ _ _ _ => rfl, d, d, hd, hd, le_refl _⟩

theorem Better.trans {lsb : Bool} {L : ℕ} {s t u : σ} (h1 : Better R Inv par n lsb L s t)
    (h2 : Better R Inv par n lsb L t u) : Better R Inv par n lsb L s u := by
  obtain ⟨d, e, hd, he, hle⟩ := h1.le
  obtain ⟨d', e', hd', he', hle'⟩ := h2.le
  rw [he, Option.some.injEq] at hd'
  subst hd'
  exact ⟨h2.inv, h1.reached.trans h2.reached,
    fun i hi k hk hn => (h2.outside i hi k hk hn).trans (h1.outside i hi k hk hn), d, e', hd, he',
    le_trans hle' hle⟩

theorem searchBest_better (h : TemperContract R n Inv par) (P : PBPar) (hP : P.bitLen = w)
    {pos v size L : ℕ} (hpos : pos < n) (hv : v + size ≤ L) (hL : L ≤ w) (h1 : 1 ≤ size) (h31 : size < 31)
    {s : σ} (hs : Inv s) :
    ∃ q, searchBest R P v pos ((v + size : ℕ) : ℤ) s = some q ∧ Better R Inv par n P.lsb L s q.1 := by
  obtain ⟨m, q, D, hm, hq, hr, hd, hall, hout, hother⟩ :=
    searchBest_correct h P hP hpos (by omega : v + size ≤ w) h1 h31 hs
  refine ⟨_, hr, h.set_inv m q pos s hpos hs, Reached.step m q pos s hpos Reached.refl, ?_, ?_⟩
  · intro i hi k hk hn
    by_cases hip : i = pos
    · subst hip
      apply hout k hk
      intro hw
      apply hn
      unfold InWindow at hw ⊢
      cases hl : P.lsb <;> rw [hl] at hw <;> simp only [Bool.false_eq_true, if_true, if_false] at hw ⊢ <;> omega
    · rw [hother i hi hip]
  · have hc : Confined w P.lsb v size (par s pos &&& m) := fun k hk hb => by
      rw [BitVec.getLsbD_and, Bool.and_eq_true] at hb
      exact (hm k hk).1 hb.2
    obtain ⟨d, h2, h3, -⟩ := hall _ hc
    rw [h.set_same m pos s hpos hs] at h2
    exact ⟨d, D, h2, by rw [h.setUp_setUp]; exact hd, h3⟩

theorem paramLoop_better (h : TemperContract R n Inv par) (P : PBPar) (hP : P.bitLen = w)
    {v size L : ℕ} (hv : v + size ≤ L) (hL : L ≤ w) (h1 : 1 ≤ size) (h31 : size < 31) :
    ∀ (k i : ℕ) (q : σ × ℤ), k + i ≤ n → Inv q.1 →
      ∃ q', paramLoop R P v ((v + size : ℕ) : ℤ) k i q = some q' ∧ Better R Inv par n P.lsb L q.1 q'.1
  | 0, _, q, _, hs => ⟨q, rfl, Better.refl h hs⟩
  | k + 1, i, q, hk, hs => by
    obtain ⟨q1, hq1, hb1⟩ := searchBest_better h P hP (by omega : i < n) hv hL h1 h31 hs
    obtain ⟨q2, hq2, hb2⟩ := paramLoop_better h P hP hv hL h1 h31 k (i + 1) q1 (by omega) hb1.inv
    refine ⟨q2, ?_, hb1.trans hb2⟩
    rw [paramLoop, hq1]
    exact hq2

theorem depthLoop_better (h : TemperContract R n Inv par) (P : PBPar) (hP : P.bitLen = w)
    (hn : P.paramNum ≤ n) (hL : P.tryLen ≤ w) (h1 : 1 ≤ P.step) (h31 : P.step < 31) :
    ∀ (fuel p : ℕ) (q : σ × ℤ), 1 ≤ fuel → P.tryLen < fuel + p → Inv q.1 →
      ∃ q', depthLoop R P fuel p q = some q' ∧ Better R Inv par n P.lsb P.tryLen q.1 q'.1
  | 0, p, q, h0, _, hs => absurd h0 (by omega)
  | fuel + 1, p, q, _, hf, hs => by
    rw [depthLoop]
    by_cases hp : p < P.tryLen
    · rw [if_pos hp]
      obtain ⟨size, hsz, hle, hs1, hs31⟩ : ∃ size, (if p + P.step > P.tryLen then P.tryLen else p + P.step) =
          p + size ∧ p + size ≤ P.tryLen ∧ 1 ≤ size ∧ size < 31 := by
        by_cases hc : p + P.step > P.tryLen
        · exact ⟨P.tryLen - p, by rw [if_pos hc]; omega, by omega, by omega, by omega⟩
        · exact ⟨P.step, by rw [if_neg hc], by omega, by omega, by omega⟩
      dsimp only
      rw [hsz]
      obtain ⟨q1, hq1, hb1⟩ := paramLoop_better h P hP hle hL hs1 hs31 P.paramNum 0 q (by omega) hs
      rw [hq1]
      obtain ⟨q2, hq2, hb2⟩ := depthLoop_better h P hP hn hL h1 h31 fuel (p + P.step) q1 (by omega) (by omega) hb1.inv
      exact ⟨q2, hq2, hb1.trans hb2⟩
    · rw [if_neg hp]
      exact ⟨q, rfl, Better.refl h hs⟩

/-- C35, the whole search: it ends, changes only the first `try_bit_len` bits of the tempering parameters
(and nothing of the generator that tempering patterns do not change), and the defect sum measured at the end
is at most the one measured at the start. -/
theorem partialBitPattern_correct (h : TemperContract R n Inv par) (P : PBPar) (hP : P.bitLen = w)
    (hn : P.paramNum ≤ n) (hL : P.tryLen ≤ w) (h1 : 1 ≤ P.step) (h31 : P.step < 31) (s : σ)
    (hs : Inv (if P.lsb then R.setRev s else R.resetRev s)) :
    ∃ t, partialBitPattern R P (P.tryLen + 1) s = some (R.resetRev t) ∧
      Better R Inv par n P.lsb P.tryLen (if P.lsb then R.setRev s else R.resetRev s) t := by
  obtain ⟨q, hq, hb⟩ := depthLoop_better h P hP hn hL h1 h31 (P.tryLen + 1) 0
    ((if P.lsb then R.setRev s else R.resetRev s), 1000) (by omega) (by omega) hs
  refine ⟨q.1, ?_, hb⟩
  unfold partialBitPattern
  dsimp only
  rw [hq]; rfl

end MTT.Temper
