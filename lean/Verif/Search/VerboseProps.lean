import Verif.Search.VerboseLemmas
import Verif.Samples.SearchTextLemmas

/-!
# C109: `verbose` changes nothing but the text, and what the text says
-/

namespace MTT.Verbose

open Polynomial Text Temper Search Parity

variable {σ : Type} {w : ℕ}

/-! ## Specification of the texts -/

/-- A number in decimal. -/
def number (x : ℤ) : List Char := (toString x).toList

/-- A word in hexadecimal, blanks in front. -/
def word (n x : ℕ) : List Char := (Nat.toDigits 16 x).leftpad n ' '

/-- A line of the table: `v:k(v)(d(v))`. -/
def kvLine (v k : ℕ) (d : ℤ) : List Char :=
  number v ++ ":".toList ++ number k ++ "(".toList ++ number d ++ ")\n".toList

theorem hexBlank_text (n x : ℕ) : hexBlank n x = word n x := by
  unfold hexBlank word List.leftpad
  rw [digits_eq (by decide)]

theorem deltaText_eq (d : ℤ) : deltaText d = "delta = ".toList ++ number d ++ "\n".toList := by
  unfold deltaText number
  rw [decInt_text]; rfl

/-! ## The tempering searches -/

/-- **C109.**  `verbose` does not change the generator that the partial bit pattern search leaves. -/
theorem partialBitPattern_same (R : TemperOps σ w) (P : PBPar) (fuel : ℕ) (vb : Bool) (s : σ) :
    (partialBitPatternV R P fuel vb s).map Prod.fst = partialBitPattern R P fuel s := by
  unfold partialBitPatternV partialBitPattern
  dsimp only
  rw [Option.map_map, ← depthLoopV_fst vb, Option.map_map]
  rfl

/-- **C109.**  Without `verbose` nothing is written. -/
theorem partialBitPattern_quiet (R : TemperOps σ w) (P : PBPar) (fuel : ℕ) (s : σ) {r : σ × Out}
    (h : partialBitPatternV R P fuel false s = some r) : r.2 = [] := by
  unfold partialBitPatternV at h
  dsimp only at h
  obtain ⟨q, h1, rfl⟩ := Option.map_eq_some_iff.1 h
  have := depthLoopV_quiet R P _ _ _ q h1
  show [] ++ [] ++ q.2 ++ [] = []
  rw [this]; rfl

/-- **C109.**  The same for the best-bits search. -/
theorem bestBits_same (R : TemperOps σ w) (B : BBPar) (vb : Bool) (s : σ) :
    (bestBitsV R B vb s).map Prod.fst = bestBits R B s := by
  unfold bestBitsV bestBits
  rw [← bbBitsV_fst vb R B B.limit 0 (R.resetRev s) [⟨fun _ => 0, 0⟩] 0]
  cases bbBitsV vb R B B.limit 0 (R.resetRev s) [⟨fun _ => 0, 0⟩] 0 with
  | none => rfl
  | some r =>
    obtain ⟨⟨s', ps, d⟩, o⟩ := r
    cases ps with
    | nil => rfl
    | cons q ps => rfl

theorem bestBits_quiet (R : TemperOps σ w) (B : BBPar) (s : σ) {r : σ × Out} (h : bestBitsV R B false s = some r) :
    r.2 = [] := by
  unfold bestBitsV at h
  cases hb : bbBitsV false R B B.limit 0 (R.resetRev s) [⟨fun _ => 0, 0⟩] 0 with
  | none => rw [hb] at h; cases h
  | some x =>
    have h0 := bbBitsV_quiet R B _ _ _ _ _ _ hb
    obtain ⟨⟨s', ps, d⟩, o⟩ := x
    rw [hb] at h
    cases ps with
    | nil => cases h
    | cons q ps =>
      rw [Option.some.injEq] at h
      rw [← h]
      show [] ++ o ++ [] = []
      rw [List.append_nil, List.nil_append]; exact h0

variable {R : TemperOps σ w} {Inv : σ → Prop} {par : σ → ℕ → BitVec w} {n : ℕ}

/-- The candidate `y` (delta and pattern) replaces the candidate `x`: its delta is smaller, or it is the same and the pattern has
more ones. -/
def Better (R : TemperOps σ w) (x y : ℤ × BitVec w) : Prop := y.1 < x.1 ∨ y.1 = x.1 ∧ R.countBit x.2 < R.countBit y.2

/-- The lines "pattern change old:new" when the pattern `old` is replaced by the patterns of `l`, one after the other. -/
def changes : BitVec w → List (ℤ × BitVec w) → Out
  | _, [] => []
  | old, c :: l => (.cout, "pattern change ".toList ++ word 0 old.toNat ++ ":".toList ++ word 0 c.2.toNat ++ "\n".toList) :: changes c.2 l

theorem changeText_eq (old new : BitVec w) : changeText old new =
    "pattern change ".toList ++ word 0 old.toNat ++ ":".toList ++ word 0 new.toNat ++ "\n".toList := by
  unfold changeText
  rw [← hexBlank_text, ← hexBlank_text]
  unfold hexBlank
  rw [Nat.zero_sub, Nat.zero_sub]
  rfl

/-- What one step of the partial bit pattern search, at the window of `size` bits from `v` on of the parameter `pos`, does and
writes: under the mask of the window it writes a pattern `p` and leaves the generator `q.1` with the delta `q.2`; for every
replacement of the best pattern so far, beginning with zero and ending with `p`, there is a line with the old and the new one, and
the last line gives the delta, the pattern and the mask. -/
def StepSays (R : TemperOps σ w) (P : PBPar) (v size pos : ℕ) (s : σ) (q : σ × ℤ) (t : Out) : Prop :=
  ∃ (m p : BitVec w) (l : List (ℤ × BitVec w)),
    q.1 = R.setUp (R.setPat m p pos s) ∧
    (∀ i, i < w → (m.getLsbD i = true ↔ InWindow w P.lsb v size i)) ∧
    R.delta w q.1 = some q.2 ∧
    List.IsChain (Better R) (((R.bitSize * w : ℤ), (0 : BitVec w)) :: l) ∧
    (((R.bitSize * w : ℤ), (0 : BitVec w)) :: l).getLast (by simp) = (q.2, p) ∧
    (∀ c ∈ l, Confined w P.lsb v size c.2 ∧ R.delta w (R.setUp (R.setPat m c.2 pos s)) = some c.1) ∧
    t = changes 0 l ++
      [(.cout, number q.2 ++ ":".toList ++ word (w / 4) p.toNat ++ ":".toList ++ word (w / 4) m.toNat ++ "\n".toList)]

theorem bestLoopV_changes (h : TemperContract R n Inv par) (P : PBPar) (hP : P.bitLen = w) (m : BitVec w)
    {pos v size : ℕ} (hpos : pos < n) (hv : v + size ≤ w) (h1 : 1 ≤ size) {s : σ} (hs : Inv s) :
    ∀ (i : ℕ) (a : Acc σ w) (r : Acc σ w × Out), i ≤ 2 ^ size → (a.rand = s ∨ ∃ p, a.rand = cand R m pos s p) →
      bestLoopV true R P m pos v size i a = some r →
      ∃ l : List (ℤ × BitVec w), r.2 = changes a.minPattern l ∧ List.IsChain (Better R) ((a.minDelta, a.minPattern) :: l) ∧
        ((a.minDelta, a.minPattern) :: l).getLast (by simp) = (r.1.minDelta, r.1.minPattern) ∧
        ∀ c ∈ l, Confined w P.lsb v size c.2 ∧ R.delta w (R.setUp (R.setPat m c.2 pos s)) = some c.1
  | 0, a, r, _, _, hx => by
    rw [bestLoopV, Option.some.injEq] at hx
    rw [← hx]
    exact ⟨[], rfl, List.isChain_singleton _, rfl, fun c hc => absurd hc (by simp)⟩
  | i + 1, a, r, hi, hr, hx => by
    obtain ⟨p, hp, -⟩ := patternOf_spec (w := w) P hP v size hv h1 i
    have hconf := (patterns_complete P hP v size hv h1 p).1 ⟨i, by omega, hp⟩
    have hc : makeTemperBit R m pos p a.rand = cand R m pos s p := by
      rcases hr with hr | ⟨p', hr⟩
      · rw [hr]; rfl
      · rw [hr]; exact h.set_set m p p' pos s hpos hs
    rw [bestLoopV, hp] at hx
    dsimp only at hx
    rw [hc, hP] at hx
    cases hd : R.delta w (cand R m pos s p) with
    | none => rw [hd] at hx; cases hx
    | some d =>
      rw [hd] at hx
      dsimp only at hx
      obtain ⟨r', hr', rfl⟩ := Option.map_eq_some_iff.1 hx
      have key : ∀ D : ℤ, Better R (a.minDelta, a.minPattern) (D, p) → D = d →
          bestLoopV true R P m pos v size i ⟨cand R m pos s p, D, p⟩ = some r' →
          ∃ l : List (ℤ × BitVec w), say true .cout (changeText a.minPattern p) ++ r'.2 = changes a.minPattern l ∧
            List.IsChain (Better R) ((a.minDelta, a.minPattern) :: l) ∧
            ((a.minDelta, a.minPattern) :: l).getLast (by simp) = (r'.1.minDelta, r'.1.minPattern) ∧
            ∀ c ∈ l, Confined w P.lsb v size c.2 ∧ R.delta w (R.setUp (R.setPat m c.2 pos s)) = some c.1 := by
        intro D hB hD hb
        obtain ⟨l, k1, k2, k3, k4⟩ := bestLoopV_changes h P hP m hpos hv h1 hs i ⟨cand R m pos s p, D, p⟩ r' (by omega)
          (Or.inr ⟨p, rfl⟩) hb
        refine ⟨(D, p) :: l, ?_, ?_, ?_, ?_⟩
        · rw [k1, changes, changeText_eq]; rfl
        · exact List.isChain_cons_cons.2 ⟨hB, k2⟩
        · rw [List.getLast_cons (by simp)]; exact k3
        · intro c hc
          rcases List.mem_cons.1 hc with rfl | hc
          · exact ⟨hconf, by rw [hD]; exact hd⟩
          · exact k4 c hc
      have key2 : bestLoopV true R P m pos v size i ⟨cand R m pos s p, a.minDelta, a.minPattern⟩ = some r' →
          ∃ l : List (ℤ × BitVec w), [] ++ r'.2 = changes a.minPattern l ∧
            List.IsChain (Better R) ((a.minDelta, a.minPattern) :: l) ∧
            ((a.minDelta, a.minPattern) :: l).getLast (by simp) = (r'.1.minDelta, r'.1.minPattern) ∧
            ∀ c ∈ l, Confined w P.lsb v size c.2 ∧ R.delta w (R.setUp (R.setPat m c.2 pos s)) = some c.1 := by
        intro hb
        exact bestLoopV_changes h P hP m hpos hv h1 hs i ⟨cand R m pos s p, a.minDelta, a.minPattern⟩ r' (by omega)
          (Or.inr ⟨p, rfl⟩) hb
      by_cases c1 : d < a.minDelta
      · simp only [if_pos c1] at hr' ⊢
        exact key d (Or.inl c1) rfl hr'
      · by_cases c2 : d = a.minDelta
        · by_cases c3 : R.countBit a.minPattern < R.countBit p
          · simp only [if_neg c1, if_pos c2, if_pos c3] at hr' ⊢
            exact key a.minDelta (Or.inr ⟨rfl, c3⟩) c2.symm hr'
          · simp only [if_neg c1, if_pos c2, if_neg c3] at hr' ⊢
            exact key2 hr'
        · simp only [if_neg c1, if_neg c2] at hr' ⊢
          exact key2 hr'

/-- **C109.**  One step of the partial bit pattern search writes a line for every change of the best pattern and at last the delta
of the generator that it leaves, the pattern that has been written and the mask it has been written under. -/
theorem searchBest_says (h : TemperContract R n Inv par) (P : PBPar) (hP : P.bitLen = w)
    {pos v size : ℕ} (hpos : pos < n) (hv : v + size ≤ w) (h1 : 1 ≤ size) (h31 : size < 31)
    {s : σ} (hs : Inv s) :
    ∃ (q : σ × ℤ) (o : Out), searchBestV true R P v pos ((v + size : ℕ) : ℤ) s = some (q, o) ∧ StepSays R P v size pos s q o ∧
      Inv q.1 := by
  obtain ⟨m, hm, hmb⟩ := makeMask_correct (w := w) P.lsb v size (by omega) h1
  have e1 : ((v + size : ℕ) : ℤ) - (v : ℤ) = (size : ℕ) := by omega
  have hinit : Best R P m pos v size s (2 ^ size) (R.bitSize * w) 0 :=
    ⟨le_refl _, fun j hj hj' => absurd hj' (by omega), Or.inl ⟨rfl, rfl⟩⟩
  obtain ⟨a, ha, hr, hb⟩ := bestLoop_spec h P hP m hpos hv h1 hs (2 ^ size) ⟨s, R.bitSize * w, 0⟩
    (le_refl _) (Or.inl rfl) hinit
  have hc : makeTemperBit R m pos a.minPattern a.rand = R.setUp (R.setPat m a.minPattern pos s) := by
    rcases hr with hr | ⟨p', hr⟩
    · rw [hr]; rfl
    · rw [hr]; exact h.set_set m _ p' pos s hpos hs
  rw [← bestLoopV_fst true] at ha
  obtain ⟨x, hx, hxa⟩ := Option.map_eq_some_iff.1 ha
  obtain ⟨l, k1, k2, k3, k4⟩ := bestLoopV_changes h P hP m hpos hv h1 hs (2 ^ size) _ x le_rfl (Or.inl rfl) hx
  obtain ⟨a', o⟩ := x
  have hxa' : a' = a := hxa
  subst hxa'
  dsimp only at k1 k2 k3
  have hres : searchBestV true R P v pos ((v + size : ℕ) : ℤ) s =
      some ((R.setUp (R.setPat m a'.minPattern pos s), a'.minDelta), o ++ [(.cout, bestText a'.minDelta a'.minPattern m)]) := by
    unfold searchBestV
    dsimp only
    rw [e1, hP, hm]
    dsimp only
    rw [if_neg (by omega), Int.toNat_natCast, hx]
    dsimp only
    rw [hc]; rfl
  refine ⟨_, _, hres, ⟨m, a'.minPattern, l, rfl, hmb, ?_, k2, k3, k4, ?_⟩, h.set_inv m a'.minPattern pos s hpos hs⟩
  · obtain ⟨m', q', D, hm', -, hres', hD, -⟩ := searchBest_correct h P hP hpos hv h1 h31 hs
    rw [← searchBestV_fst true, hres, Option.map_some, Option.some.injEq, Prod.mk.injEq] at hres'
    rw [hres'.1, hres'.2]; exact hD
  · rw [k1]
    unfold bestText number
    rw [decInt_text, hexBlank_text, hexBlank_text]
    rfl

/-- Steps one after the other, given by `(v, size, pos)`. -/
def Runs (R : TemperOps σ w) (P : PBPar) : List (ℕ × ℕ × ℕ) → σ × ℤ → σ × ℤ → Out → Prop
  | [], q, q', o => q' = q ∧ o = []
  | x :: l, q, q', o => ∃ q1 t o', StepSays R P x.1 x.2.1 x.2.2 q.1 q1 t ∧ Runs R P l q1 q' o' ∧ o = t ++ o'

theorem Runs.append {P : PBPar} : ∀ {l l' : List (ℕ × ℕ × ℕ)} {q q' q'' : σ × ℤ} {o o' : Out}, Runs R P l q q' o → Runs R P l' q' q'' o' →
    Runs R P (l ++ l') q q'' (o ++ o')
  | [], l', q, q', q'', o, o', h, h' => by
    obtain ⟨rfl, rfl⟩ := h; exact h'
  | x :: l, l', q, q', q'', o, o', h, h' => by
    obtain ⟨q1, t, o1, k1, k2, rfl⟩ := h
    exact ⟨q1, t, o1 ++ o', k1, k2.append h', List.append_assoc _ _ _⟩

/-- The steps of the whole search: the windows of `step` bits from 0 on up to `tryLen`, the last one may be shorter; in every window
the parameters from 0 on. -/
def steps (P : PBPar) : List (ℕ × ℕ × ℕ) :=
  (List.range ((P.tryLen + P.step - 1) / P.step)).flatMap fun k =>
    (List.range P.paramNum).map fun i => (k * P.step, min P.step (P.tryLen - k * P.step), i)

theorem paramLoopV_runs (h : TemperContract R n Inv par) (P : PBPar) (hP : P.bitLen = w)
    {v size : ℕ} (hv : v + size ≤ w) (h1 : 1 ≤ size) (h31 : size < 31) :
    ∀ (k i : ℕ) (q : σ × ℤ), k + i ≤ n → Inv q.1 → ∃ q' o, paramLoopV true R P v ((v + size : ℕ) : ℤ) k i q = some (q', o) ∧ Inv q'.1 ∧
      Runs R P ((List.range' i k).map fun i => (v, size, i)) q q' o
  | 0, _, q, _, hq => ⟨q, [], rfl, hq, rfl, rfl⟩
  | k + 1, i, q, hk, hq => by
    obtain ⟨q1, t, e1, e2, e3⟩ := searchBest_says h P hP (show i < n by omega) hv h1 h31 hq
    obtain ⟨q', o, hq', hi', hs'⟩ := paramLoopV_runs h P hP hv h1 h31 k (i + 1) q1 (by omega) e3
    refine ⟨q', t ++ o, ?_, hi', ?_⟩
    · rw [paramLoopV, e1]
      dsimp only
      rw [hq']; rfl
    · rw [List.range'_succ, List.map_cons]
      exact ⟨q1, t, o, e2, hs', rfl⟩

theorem depthLoopV_runs (h : TemperContract R n Inv par) (P : PBPar) (hP : P.bitLen = w) (hn : P.paramNum ≤ n) (hL : P.tryLen ≤ w)
    (h1 : 1 ≤ P.step) (h31 : P.step < 31) {N : ℕ} (hN : ∀ k, k < N ↔ k * P.step < P.tryLen) :
    ∀ (fuel k m : ℕ) (q : σ × ℤ), k + m = N → m < fuel → Inv q.1 → ∃ q' o, depthLoopV true R P fuel (k * P.step) q = some (q', o) ∧
      Runs R P ((List.range' k m).flatMap fun k => (List.range P.paramNum).map fun i =>
        (k * P.step, min P.step (P.tryLen - k * P.step), i)) q q' o
  | 0, _, _, _, _, h0, _ => absurd h0 (by omega)
  | fuel + 1, k, 0, q, hk, _, hq => by
    rw [depthLoopV, if_neg (by rw [← hN]; omega)]
    exact ⟨q, [], rfl, rfl, rfl⟩
  | fuel + 1, k, m + 1, q, hk, hf, hq => by
    have hp : k * P.step < P.tryLen := (hN k).1 (by omega)
    rw [depthLoopV, if_pos hp]
    have hsz : (if k * P.step + P.step > P.tryLen then P.tryLen else k * P.step + P.step) =
        k * P.step + min P.step (P.tryLen - k * P.step) := by
      split <;> omega
    obtain ⟨q1, t, hq1, hi1, hs1⟩ := paramLoopV_runs h P hP (v := k * P.step) (size := min P.step (P.tryLen - k * P.step)) (by omega)
      (by omega) (by omega) P.paramNum 0 q (by omega) hq
    obtain ⟨q2, o, hq2, hs2⟩ := depthLoopV_runs h P hP hn hL h1 h31 hN fuel (k + 1) m q1 (by omega) (by omega) hi1
    refine ⟨q2, t ++ o, ?_, ?_⟩
    · dsimp only
      rw [hsz, hq1]
      dsimp only
      have : k * P.step + P.step = (k + 1) * P.step := (Nat.succ_mul _ _).symm
      rw [this, hq2]; rfl
    · rw [List.range'_succ, List.flatMap_cons, List.range_eq_range']
      refine Runs.append hs1 ?_
      rw [← List.range_eq_range']
      exact hs2

/-- What a step leaves. -/
def Sound (R : TemperOps σ w) (Inv : σ → Prop) (q : σ × ℤ) : Prop := Inv q.1 ∧ R.delta w q.1 = some q.2

theorem paramLoop_sound (h : TemperContract R n Inv par) (P : PBPar) (hP : P.bitLen = w)
    {v size : ℕ} (hv : v + size ≤ w) (h1 : 1 ≤ size) (h31 : size < 31) :
    ∀ (k i : ℕ) (q : σ × ℤ), k + i ≤ n → Inv q.1 → ∃ q', paramLoop R P v ((v + size : ℕ) : ℤ) k i q = some q' ∧ Inv q'.1 ∧
      (Sound R Inv q ∨ 1 ≤ k → Sound R Inv q')
  | 0, _, q, _, hq => ⟨q, rfl, hq, fun h => h.elim id fun h => absurd h (by omega)⟩
  | k + 1, i, q, hk, hq => by
    obtain ⟨m, p, D, -, -, hr, hD, -⟩ := searchBest_correct h P hP (show i < n by omega) hv h1 h31 hq
    have hi := h.set_inv m p i q.1 (by omega) hq
    obtain ⟨q', hq', hi', hs'⟩ := paramLoop_sound h P hP hv h1 h31 k (i + 1) (R.setUp (R.setPat m p i q.1), D) (by omega) hi
    refine ⟨q', ?_, hi', fun _ => hs' (.inl ⟨hi, hD⟩)⟩
    rw [paramLoop, hr]; exact hq'

theorem depthLoop_sound (h : TemperContract R n Inv par) (P : PBPar) (hP : P.bitLen = w) (hn : P.paramNum ≤ n) (hL : P.tryLen ≤ w)
    (h1 : 1 ≤ P.step) (h31 : P.step < 31) :
    ∀ (fuel p : ℕ) (q : σ × ℤ), 1 ≤ fuel → P.tryLen < fuel + p → Inv q.1 → ∃ q', depthLoop R P fuel p q = some q' ∧
      (Sound R Inv q ∨ (p < P.tryLen ∧ 1 ≤ P.paramNum) → Sound R Inv q')
  | 0, _, _, h0, _, _ => absurd h0 (by omega)
  | fuel + 1, p, q, _, hf, hq => by
    rw [depthLoop]
    by_cases hp : p < P.tryLen
    · rw [if_pos hp]
      obtain ⟨size, hsz, h2, h3, h4⟩ : ∃ size, (if p + P.step > P.tryLen then P.tryLen else p + P.step) = p + size ∧
          p + size ≤ w ∧ 1 ≤ size ∧ size < 31 := by
        by_cases hc : p + P.step > P.tryLen
        · exact ⟨P.tryLen - p, by rw [if_pos hc]; omega, by omega, by omega, by omega⟩
        · exact ⟨P.step, by rw [if_neg hc], by omega, by omega, by omega⟩
      obtain ⟨q1, hq1, hi1, hs1⟩ := paramLoop_sound h P hP h2 h3 h4 P.paramNum 0 q (by omega) hq
      dsimp only
      rw [hsz, hq1]
      dsimp only
      obtain ⟨q2, hq2, hs2⟩ := depthLoop_sound h P hP hn hL h1 h31 fuel (p + P.step) q1 (by omega) (by omega) hi1
      refine ⟨q2, hq2, fun hc => hs2 (.inl (hs1 ?_))⟩
      exact hc.imp id And.right
    · rw [if_neg hp]
      exact ⟨q, rfl, fun hc => hc.elim id fun hc => absurd hc.1 hp⟩

/-- **C109.**  What the partial bit pattern search writes: the direction, the lines of its steps, and at last the delta of the
generator that it leaves (before the output order is reset). -/
theorem partialBitPattern_says (h : TemperContract R n Inv par) (P : PBPar) (hP : P.bitLen = w)
    (hn : P.paramNum ≤ n) (h0 : 1 ≤ P.paramNum) (hL : P.tryLen ≤ w) (ht : 1 ≤ P.tryLen) (h1 : 1 ≤ P.step) (h31 : P.step < 31) (s : σ)
    (hs : Inv (if P.lsb then R.setRev s else R.resetRev s)) :
    ∃ t D o, partialBitPatternV R P (P.tryLen + 1) true s = some (R.resetRev t,
        [(.cout, "searching...\n".toList), (.cout, (if P.lsb then "searching from LSB\n" else "searching from MSB\n").toList)] ++
        o ++ [(.cout, "delta = ".toList ++ number D ++ "\n".toList)]) ∧ Inv t ∧ R.delta w t = some D ∧
      Runs R P (steps P) (if P.lsb then R.setRev s else R.resetRev s, 1000) (t, D) o := by
  obtain ⟨q, hq, hsd⟩ := depthLoop_sound h P hP hn hL h1 h31 (P.tryLen + 1) 0
    ((if P.lsb then R.setRev s else R.resetRev s), 1000) (by omega) (by omega) hs
  have hsound := hsd (.inr ⟨by omega, h0⟩)
  have hN : ∀ k, k < (P.tryLen + P.step - 1) / P.step ↔ k * P.step < P.tryLen := by
    intro k
    rw [Nat.lt_iff_add_one_le, Nat.le_div_iff_mul_le h1, Nat.succ_mul]
    omega
  have hle : (P.tryLen + P.step - 1) / P.step < P.tryLen + 1 := by
    by_contra hc
    have h2 := (hN P.tryLen).1 (by omega)
    have h3 : P.tryLen * 1 ≤ P.tryLen * P.step := Nat.mul_le_mul_left _ h1
    omega
  obtain ⟨q', o, hx, hruns⟩ := depthLoopV_runs h P hP hn hL h1 h31 hN (P.tryLen + 1) 0 _
    ((if P.lsb then R.setRev s else R.resetRev s), 1000) (Nat.zero_add _) hle hs
  rw [Nat.zero_mul] at hx
  rw [← depthLoopV_fst true, hx, Option.map_some, Option.some.injEq] at hq
  have hxq' : q' = q := hq
  subst hxq'
  rw [← List.range_eq_range'] at hruns
  refine ⟨q'.1, q'.2, o, ?_, hsound.1, hsound.2, hruns⟩
  unfold partialBitPatternV
  dsimp only
  rw [hx, Option.map_some, deltaText_eq]
  cases P.lsb <;> rfl

/-- A line "delta = d". -/
def deltaLine (d : ℤ) : Chan × List Char := (.cout, "delta = ".toList ++ number d ++ "\n".toList)

/-- A line "pattern->delta:d". -/
def patternLine {w : ℕ} (q : TempP w) : Chan × List Char := (.cout, "pattern->delta:".toList ++ number q.delta ++ "\n".toList)

section
variable {B : BBPar} (hR : BBContract R B.size Inv) (h1 : 1 ≤ B.size) (h7 : B.size ≤ 7) (hs : ∀ x ∈ B.shifts, 0 ≤ x)
include hR h1 h7 hs

theorem bbLoopV_text {s : σ} (hI : Inv s) (v : ℕ) (hv : v < w) (para : TempP w) :
    ∀ (n : ℕ) (t : σ) (d : ℤ) (cur : List (TempP w)) r, Touched R B s t → bbLoopV true R B v para n t d cur = some r →
      r.2 = ((List.range n).reverse.filterMap (candidate R B s v para)).map patternLine
  | 0, t, d, cur, r, ht, h => by
    rw [bbLoopV, Option.some.injEq] at h; rw [← h]; rfl
  | n + 1, t, d, cur, r, ht, h => by
    rw [List.range_succ, List.reverse_append, List.reverse_singleton, List.singleton_append]
    obtain ⟨b, hb, _⟩ := inRange_defined (w := w) B h1 h7 n v
    rw [bbLoopV, hb] at h
    cases b
    · have hc : candidate R B s v para n = none := by
        unfold candidate; rw [hb, if_neg (by simp)]
      rw [List.filterMap_cons_none hc]
      exact bbLoopV_text hI v hv para n t d cur r ht h
    · obtain ⟨p, hp⟩ := makePattern_defined B h1 h7 hs n v hv para.param
      obtain ⟨e, he, -⟩ := hR.delta_le p s (v + 1) hI (by omega) hv
      have hc : candidate R B s v para n = some ⟨p, e⟩ := by
        unfold candidate; rw [hb, if_pos rfl, hp, Option.bind_some, he, Option.map_some]
      rw [List.filterMap_cons_some hc]
      dsimp only at h
      rw [hp] at h
      dsimp only at h
      rw [setAll_touched hR hI ht, he] at h
      dsimp only at h
      have ht' : Touched R B s (setAll R p B.size 0 s) := Or.inr ⟨p, rfl⟩
      have hline : say true .cout ("pattern->delta:".toList ++ decInt e ++ ['\n']) = [patternLine (⟨p, e⟩ : TempP w)] := by
        unfold patternLine number
        rw [decInt_text]; rfl
      by_cases hd : e ≤ d
      · rw [if_pos hd] at h
        obtain ⟨r', hr', rfl⟩ := Option.map_eq_some_iff.1 h
        rw [List.map_cons, ← bbLoopV_text hI v hv para n _ _ _ r' ht' hr', hline]
        rfl
      · rw [if_neg hd] at h
        obtain ⟨r', hr', rfl⟩ := Option.map_eq_some_iff.1 h
        rw [List.map_cons, ← bbLoopV_text hI v hv para n _ _ _ r' ht' hr', hline]
        rfl

theorem bbAllV_text {s : σ} (hI : Inv s) (v : ℕ) (hv : v < w) :
    ∀ (ps : List (TempP w)) (t : σ) (cur : List (TempP w)) r, Touched R B s t → bbAllV true R B v ps t cur = some r →
      r.2 = (generated R B s v ps).map patternLine
  | [], t, cur, r, ht, h => by
    rw [bbAllV, Option.some.injEq] at h; rw [← h]; rfl
  | para :: ps, t, cur, r, ht, h => by
    rw [bbAllV] at h
    cases hx : bbLoopV true R B v para (2 ^ B.numPat) t (R.bitSize * w) cur with
    | none => rw [hx] at h; cases h
    | some x =>
      have k1 := bbLoopV_text hR h1 h7 hs hI v hv para _ _ _ _ x ht hx
      obtain ⟨t1, ht1, e1⟩ := bbLoop_spec hR h1 h7 hs hI v hv para (2 ^ B.numPat) t (R.bitSize * w) cur ht
      rw [← bbLoopV_fst true, hx, Option.map_some, Option.some.injEq] at e1
      obtain ⟨⟨t2, c2⟩, o⟩ := x
      have e2 : t2 = t1 := congrArg Prod.fst e1
      rw [← e2] at ht1
      rw [hx] at h
      dsimp only at h k1
      obtain ⟨r', hr', rfl⟩ := Option.map_eq_some_iff.1 h
      unfold generated
      rw [List.flatMap_cons, List.map_append, ← k1]
      show o ++ r'.2 = _
      rw [bbAllV_text hI v hv ps t2 c2 r' ht1 hr']
      rfl

theorem bbBitsV_text {s : σ} (hI : Inv s) : ∀ (n k : ℕ) (t : σ) (d : ℤ) r, k + n ≤ w → Touched R B s t → kept R B s k ≠ [] →
    bbBitsV true R B n k t (kept R B s k) d = some r →
    ∃ D : ℕ → ℤ, (∀ j, k ≤ j → j < k + n → ∀ q ∈ kept R B s (j + 1), q.delta = D j) ∧
      r.2 = (List.range' k n).flatMap (fun j => (generated R B s j (kept R B s j)).map patternLine ++ [deltaLine (D j)]) ∧
      (1 ≤ n → r.1.2.2 = D (k + n - 1))
  | 0, k, t, d, r, hk, ht, hne, h => by
    rw [bbBitsV, Option.some.injEq] at h; rw [← h]
    exact ⟨fun _ => 0, fun j h1 h2 => absurd h2 (by omega), rfl, fun h => absurd h (by omega)⟩
  | n + 1, k, t, d, r, hk, ht, hne, h => by
    rw [bbBitsV] at h
    cases hx : bbAllV true R B k (kept R B s k) t [] with
    | none => rw [hx] at h; cases h
    | some x =>
      have k1 := bbAllV_text hR h1 h7 hs hI k (by omega) _ _ _ x ht hx
      obtain ⟨t1, ht1, e1, hne1⟩ := bbBits_spec hR h1 h7 hs hI 1 k t (by omega) ht
      have e0 := bbAllV_fst true R B k (kept R B s k) t []
      rw [hx, Option.map_some] at e0
      rw [bbBits, ← e0] at e1
      obtain ⟨⟨t2, c2⟩, o⟩ := x
      dsimp only at e1 k1
      rw [bbBits, Option.some.injEq, Prod.mk.injEq] at e1
      obtain ⟨rfl, e1⟩ := e1
      rw [hx] at h
      dsimp only at h
      rw [e1] at h
      obtain ⟨r', hr', rfl⟩ := Option.map_eq_some_iff.1 h
      obtain ⟨D, g1, g2, g3⟩ := bbBitsV_text hI n (k + 1) t2 _ r' (by omega) ht1 (hne1 hne) hr'
      have hD : ∀ j ∈ List.range' (k + 1) n, j ≠ k := fun j hj => by
        have := (List.mem_range'_1.1 hj).1; omega
      refine ⟨fun j => if j = k then minDelta (R.bitSize * w) c2 else D j, ?_, ?_, ?_⟩
      · intro j hj1 hj2 q hq
        dsimp only
        by_cases hj : j = k
        · rw [if_pos hj]
          rw [hj, ← e1] at hq
          simpa using (List.mem_filter.1 hq).2
        · rw [if_neg hj]
          exact g1 j (by omega) (by omega) q hq
      · show o ++ say true .cout (deltaText _) ++ r'.2 = _
        rw [g2, k1, List.range'_succ, List.flatMap_cons]
        dsimp only
        rw [if_pos rfl]
        congr 1
        · rw [deltaText_eq]; rfl
        · apply List.flatMap_congr
          intro j hj
          rw [if_neg (hD j hj)]
      · intro _
        show r'.1.2.2 = (if k + (n + 1) - 1 = k then minDelta (R.bitSize * w) c2 else D (k + (n + 1) - 1))
        by_cases hn : n = 0
        · subst hn
          rw [bbBitsV, Option.some.injEq] at hr'
          rw [← hr', if_pos (by omega)]
        · rw [g3 (by omega), if_neg (by omega)]
          congr 1; omega

end

/-- **C109.**  What the best-bits search writes: for every bit the deltas of all candidates, in the order of the search, and the
delta of those that are kept; at the end the last of these lines again.  The last line gives the delta, for the first `limit` bits,
of the parameters that the search chooses. -/
theorem bestBits_says {B : BBPar} (hR : BBContract R B.size Inv) (h1 : 1 ≤ B.size) (h7 : B.size ≤ 7) (hs : ∀ x ∈ B.shifts, 0 ≤ x)
    (hl : B.limit ≤ w) (h0 : 1 ≤ B.limit) (s : σ) (hI : Inv s) :
    ∃ (q : TempP w) (D : ℕ → ℤ), bestBitsV R B true s = some (R.resetRev (R.setUp (setAll R q.param B.size 0 (R.resetRev s))),
        [(.cout, "searching from MSB\n".toList)] ++
        (List.range B.limit).flatMap (fun k =>
          (generated R B (R.resetRev s) k (kept R B (R.resetRev s) k)).map patternLine ++ [deltaLine (D k)]) ++
        [deltaLine (D (B.limit - 1))]) ∧
      (∀ k < B.limit, ∀ q ∈ kept R B (R.resetRev s) (k + 1), q.delta = D k) ∧
      R.delta B.limit (setAll R q.param B.size 0 (R.resetRev s)) = some (D (B.limit - 1)) := by
  have hI' := hR.reset_inv s hI
  obtain ⟨hne, -⟩ := bestBits_correct hR h1 h7 hs hl s hI
  obtain ⟨t, ht, e, _⟩ := bbBits_spec hR h1 h7 hs hI' B.limit 0 (R.resetRev s) (by omega) (Or.inl rfl)
  rw [zero_add] at e
  obtain ⟨q, l, hq⟩ := List.exists_cons_of_ne_nil (hne B.limit le_rfl)
  have e0 : kept R B (R.resetRev s) 0 = [⟨fun _ => 0, 0⟩] := rfl
  rw [← bbBitsV_fst true R B B.limit 0 (R.resetRev s) (kept R B (R.resetRev s) 0) 0] at e
  obtain ⟨x, hx, hxq⟩ := Option.map_eq_some_iff.1 e
  obtain ⟨D, g1, g2, g3⟩ := bbBitsV_text hR h1 h7 hs hI' B.limit 0 (R.resetRev s) 0 x (by omega) (Or.inl rfl)
    (by rw [e0]; simp) hx
  obtain ⟨⟨t', ps, d⟩, o⟩ := x
  obtain ⟨rfl, rfl⟩ : t' = t ∧ ps = kept R B (R.resetRev s) B.limit := by
    rw [Prod.mk.injEq] at hxq; exact hxq
  have hd : d = D (B.limit - 1) := by
    have := g3 h0
    rwa [zero_add] at this
  dsimp only at g2
  refine ⟨q, D, ?_, fun k hk => g1 k (by omega) (by omega), ?_⟩
  · unfold bestBitsV
    rw [← e0, hx, hq]
    dsimp only
    rw [setAll_touched hR hI' ht, deltaText_eq, hd, g2, ← List.range_eq_range']
    rfl
  · obtain ⟨k, hk⟩ : ∃ k, B.limit = k + 1 := ⟨B.limit - 1, by omega⟩
    have hmem : q ∈ kept R B (R.resetRev s) (k + 1) := by rw [← hk, hq]; exact List.mem_cons_self
    have hqd := g1 k (by omega) (by omega) q hmem
    rw [kept] at hmem
    unfold least at hmem
    obtain ⟨para, -, hc⟩ := List.mem_flatMap.1 (List.mem_filter.1 hmem).1
    obtain ⟨i, -, hc⟩ := List.mem_filterMap.1 hc
    unfold candidate at hc
    split at hc
    · obtain ⟨p, -, hc⟩ := Option.bind_eq_some_iff.1 hc
      obtain ⟨d, hdel, rfl⟩ := Option.map_eq_some_iff.1 hc
      rw [hk, hdel, Nat.add_sub_cancel]
      exact congrArg some hqd
    · cases hc

/-! ## The tables -/

/-- **C109.**  `print_kv` prints a line `v:k(v)(d(v))` for every `v` from 1 to `size`, where `d(v)` is the integer part of `mexp / v`
minus `k(v)`. -/
theorem kv_text (veq : ℕ → ℕ) (mexp size : ℕ) : kvLoop veq mexp size 0 =
    (List.range' 1 size).flatMap fun v => kvLine v (veq (v - 1)) ((mexp / v : ℕ) - (veq (v - 1) : ℤ)) := by
  have key : ∀ k i, kvLoop veq mexp k i =
      (List.range' (i + 1) k).flatMap fun v => kvLine v (veq (v - 1)) ((mexp / v : ℕ) - (veq (v - 1) : ℤ)) := by
    intro k
    induction k with
    | zero => intro i; rfl
    | succ k ih =>
      intro i
      have hd : ∀ x : ℕ, dec x = number x := fun x => by unfold number; rw [nat_text]
      rw [kvLoop, ih, List.range'_succ, List.flatMap_cons, Nat.add_sub_cancel]
      unfold kvLine
      rw [hd, hd, decInt_text]
      simp [number]
  rw [key]

/-! ## The loop of the combined searches -/

/-- `start` examines at most `n` parameter sets: exactly `n` if it returns false. -/
def Examines {S : Type} (count : S → ℕ) (start : S → Res S) (n : ℕ) : Prop :=
  ∀ st b st', start st = .ret b st' → if b then count st < count st' ∧ count st' ≤ count st + n else count st' = count st + n

theorem start_examines {π : Type} (mps : MPS) (D : SearchOps σ π w) (prim : ℕ → (ZMod 2)[X] → Option Bool) (n : ℕ) :
    Examines St.count (start mps D prim n) n := by
  have h1 : ∀ st b st', tryOnce mps D prim st = .ret b st' → st'.count = st.count + 1 := by
    intro st b st' h
    unfold tryOnce at h
    split at h
    · cases h
    · dsimp only at h
      split at h
      · cases h
      · split at h
        · injection h with _ h; rw [← h]
        · split at h
          · cases h
          · injection h with _ h; rw [← h]
  unfold Examines
  induction n with
  | zero =>
    intro st b st' h
    rw [start] at h
    injection h with hb h
    rw [← hb, ← h]; rfl
  | succ n ih =>
    intro st b st' h
    rw [start] at h
    cases ht : tryOnce mps D prim st with
    | undef => rw [ht] at h; cases h
    | threw _ => rw [ht] at h; cases h
    | ret c s1 =>
      have hc := h1 st c s1 ht
      rw [ht] at h
      cases c with
      | true =>
        dsimp only at h
        injection h with hb h
        rw [← hb, ← h, if_pos rfl]; omega
      | false =>
        dsimp only at h
        have := ih s1 b st' h
        cases b with
        | true => rw [if_pos rfl] at this ⊢; omega
        | false => rw [if_neg (by decide)] at this ⊢; omega

theorem rStart_examines {π : Type} (mps : MPS) (D : SearchOps σ π w) (mexp n : ℕ) :
    Examines RSt.count (rStart mps D mexp n) n := by
  have h1 : ∀ st b st', rTryOnce mps D mexp st = .ret b st' → st'.count = st.count + 1 := by
    intro st b st' h
    unfold rTryOnce at h
    split at h
    · cases h
    · dsimp only at h
      split at h
      · cases h
      · split at h
        · injection h with _ h; rw [← h]
        · split at h
          · cases h
          · split at h
            · injection h with _ h; rw [← h]
            · split at h
              · injection h with _ h; rw [← h]
              · injection h with _ h; rw [← h]
  unfold Examines
  induction n with
  | zero =>
    intro st b st' h
    rw [rStart] at h
    injection h with hb h
    rw [← hb, ← h]; rfl
  | succ n ih =>
    intro st b st' h
    rw [rStart] at h
    cases ht : rTryOnce mps D mexp st with
    | undef => rw [ht] at h; cases h
    | threw _ => rw [ht] at h; cases h
    | ret c s1 =>
      have hc := h1 st c s1 ht
      rw [ht] at h
      cases c with
      | true =>
        dsimp only at h
        injection h with hb h
        rw [← hb, ← h, if_pos rfl]; omega
      | false =>
        dsimp only at h
        have := ih s1 b st' h
        cases b with
        | true => rw [if_pos rfl] at this ⊢; omega
        | false => rw [if_neg (by decide)] at this ⊢; omega

/-- **C109.**  After `m` failed turns there are `m` lines; line `k` says "not found in" `k * 10000`, while `n` sets have been
examined in every turn; "count" is the number of all sets examined. -/
theorem notFound_lines {S : Type} {count : S → ℕ} {start : S → Res S} {n : ℕ} (hs : Examines count start n) :
    ∀ fuel i st b st' o, findLoopV true start fuel i st = some (.ret b st', o) → b = true ∧ ∃ m, i + m ≤ max i 214748 ∧
      o = (List.range' (i + 1) m).map (fun k => (Chan.os, "not found in ".toList ++ number ((k * 10000 : ℕ) : ℤ) ++ "\n".toList)) ∧
      count st + m * n < count st' ∧ count st' ≤ count st + (m + 1) * n
  | 0, i, st, b, st', o, h => by cases h
  | fuel + 1, i, st, b, st', o, h => by
    rw [findLoopV] at h
    cases hst : start st with
    | undef => rw [hst] at h; simp at h
    | threw _ => rw [hst] at h; simp at h
    | ret c s1 =>
      have hc := hs st c s1 hst
      rw [hst] at h
      cases c with
      | true =>
        dsimp only at h
        rw [Option.some.injEq, Prod.mk.injEq] at h
        obtain ⟨h1, rfl⟩ := h
        injection h1 with hb h1
        subst h1
        rw [if_pos rfl] at hc
        exact ⟨hb.symm, 0, by omega, rfl, by omega, by omega⟩
      | false =>
        dsimp only at h
        rw [if_neg (by decide)] at hc h
        by_cases hov : (i + 1) * 10000 < 2 ^ 31
        · rw [if_pos hov] at h
          obtain ⟨r, hr, hr2⟩ := Option.map_eq_some_iff.1 h
          obtain ⟨r1, r2⟩ := r
          rw [Prod.mk.injEq] at hr2
          obtain ⟨hr2, rfl⟩ := hr2
          dsimp only at hr2
          subst hr2
          obtain ⟨hb, m, hm, ho, hc1, hc2⟩ := notFound_lines hs fuel (i + 1) s1 b st' r2 hr
          refine ⟨hb, m + 1, by omega, ?_, ?_, ?_⟩
          · rw [List.range'_succ, List.map_cons, ← ho]
            unfold number
            rw [nat_text]; rfl
          · have e1 : (m + 1) * n = m * n + n := Nat.succ_mul m n
            omega
          · have e1 : (m + 1) * n = m * n + n := Nat.succ_mul m n
            have e2 : (m + 1 + 1) * n = (m + 1) * n + n := Nat.succ_mul (m + 1) n
            omega
        · rw [if_neg hov] at h; simp at h

/-- **C109 is false of the message.**  Unless `bitSize()` is 10, the first line "not found in 10000" does not give the number of
sets that have been examined. -/
theorem notFound_wrong {π : Type} {mps : MPS} {D : SearchOps σ π w} {prim : ℕ → (ZMod 2)[X] → Option Bool} {b : ℕ} (hb : b ≠ 10)
    {rand : σ} {src : π} {st : St σ π} (h : start mps D prim (1000 * b) ⟨rand, src, 0, 0⟩ = .ret false st) : st.count ≠ 10000 := by
  have := start_examines mps D prim (1000 * b) _ _ _ h
  rw [if_neg (by decide)] at this
  dsimp only at this
  omega

/-- The loop without `verbose` writes nothing and is the loop of the model without texts. -/
theorem findLoop_quiet {π : Type} (mps : MPS) (D : SearchOps σ π w) (prim : ℕ → (ZMod 2)[X] → Option Bool) (n : ℕ) :
    ∀ fuel i st, findLoopV false (start mps D prim n) fuel i st = (findLoop mps D prim n fuel st).map fun r => (r, [])
  | 0, _, _ => rfl
  | fuel + 1, i, st => by
    rw [findLoopV, findLoop]
    cases start mps D prim n st with
    | undef => rfl
    | threw _ => rfl
    | ret b s =>
      cases b with
      | true => rfl
      | false =>
        dsimp only
        rw [if_pos rfl]
        exact findLoop_quiet mps D prim n fuel (i + 1) s

theorem rFindLoop_quiet {π : Type} (mps : MPS) (D : SearchOps σ π w) (mexp n : ℕ) :
    ∀ fuel i st, findLoopV false (rStart mps D mexp n) fuel i st = (rFindLoop mps D mexp n fuel st).map fun r => (r, [])
  | 0, _, _ => rfl
  | fuel + 1, i, st => by
    rw [findLoopV, rFindLoop]
    cases rStart mps D mexp n st with
    | undef => rfl
    | threw _ => rfl
    | ret b s =>
      cases b with
      | true => rfl
      | false =>
        dsimp only
        rw [if_pos rfl]
        exact rFindLoop_quiet mps D mexp n fuel (i + 1) s

/-- With `verbose` the loop has the same result as long as the number of turns stays below 214749. -/
theorem findLoopV_same {S : Type} (start : S → Res S) : ∀ fuel i st, i + fuel ≤ 214748 →
    (findLoopV true start fuel i st).map Prod.fst = (findLoopV false start fuel i st).map Prod.fst
  | 0, _, _, _ => rfl
  | fuel + 1, i, st, h => by
    rw [findLoopV, findLoopV]
    cases start st with
    | undef => rfl
    | threw _ => rfl
    | ret b s =>
      cases b with
      | true => rfl
      | false =>
        dsimp only
        rw [if_neg (show ¬ true = false by decide), if_pos (show (i + 1) * 10000 < 2 ^ 31 by omega), if_pos rfl, Option.map_map,
          ← findLoopV_same start fuel (i + 1) s (by omega)]
        rfl

/-- **C109.**  A search with `verbose` that does not succeed within 214748 turns executes an `int` overflow in turn 214749. -/
theorem findLoop_overflow {S : Type} {start : S → Res S} (hs : ∀ st, ∃ st', start st = .ret false st') :
    ∀ k fuel i st, i + k = 214748 → k < fuel → ∃ o, findLoopV true start fuel i st = some (.undef, o) ∧ o.length = k
  | 0, fuel, i, st, hi, hk => by
    obtain ⟨f, rfl⟩ : ∃ f, fuel = f + 1 := ⟨fuel - 1, by omega⟩
    obtain ⟨st', hst⟩ := hs st
    refine ⟨[], ?_, rfl⟩
    rw [findLoopV, hst]
    dsimp only
    rw [if_neg (by decide), if_neg (by omega)]
  | k + 1, fuel, i, st, hi, hk => by
    obtain ⟨f, rfl⟩ : ∃ f, fuel = f + 1 := ⟨fuel - 1, by omega⟩
    obtain ⟨st', hst⟩ := hs st
    obtain ⟨o, ho, hl⟩ := findLoop_overflow hs k f (i + 1) st' (by omega) (by omega)
    refine ⟨(.os, "not found in ".toList ++ dec ((i + 1) * 10000) ++ "\n".toList) :: o, ?_, by rw [List.length_cons, hl]⟩
    rw [findLoopV, hst]
    dsimp only
    rw [if_neg (by decide), if_pos (by omega), ho]
    rfl

/-! ## The combined searches -/

/-- What is supposed of the generator and the tempering searches: the tempering searches with their texts are `st1` and `st2`
without, the table goes with `delta`; on the states that occur (`Inv`) the table can be calculated, `getParamString` leaves the
generator as it is, and the output order after `st2` is the one that `resetReverseOutput` sets. -/
structure Honest (V : VOps σ) (v1 v2 : Bool → σ → Option (σ × Out)) (lsb2 : Bool) (st1 st2 : σ → Option σ) (delta : σ → Option ℤ)
    (Inv : σ → Prop) : Prop where
  same1 : ∀ vb g, (v1 vb g).map Prod.fst = st1 g
  same2 : ∀ vb g, (v2 vb g).map Prod.fst = st2 g
  quiet1 : ∀ g r, v1 false g = some r → r.2 = []
  quiet2 : ∀ g r, v2 false g = some r → r.2 = []
  table : ∀ veq g, (V.table veq g).map Prod.snd = delta g
  total : ∀ g, Inv g → delta g ≠ none
  keep1 : ∀ g g', Inv g → st1 g = some g' → Inv g'
  keep2 : ∀ g g', Inv g → st2 g = some g' → Inv g' ∧ Inv (V.setRev g') ∧
    V.resetRev (if lsb2 then V.setRev g' else g') = g'
  str : ∀ g, Inv g → (V.str g).1 = g

section
variable {V : VOps σ} {v1 v2 : Bool → σ → Option (σ × Out)} {lsb2 : Bool} {st1 st2 : σ → Option σ} {delta : σ → Option ℤ}

/-- The tempering half of `search` without messages. -/
def temperQ (st1 st2 : σ → Option σ) (delta : σ → Option ℤ) (noLsb : Bool) (g : σ) : Option (σ × Option ℤ) :=
  ((if noLsb then some g else st2 g).bind st1).map fun g => (g, delta g)

theorem temperV_quiet (H : Honest V v1 v2 lsb2 st1 st2 delta Inv) (noLsb : Bool) (t1 t2 : List Char) (veq : ℕ → ℕ) (g : σ) :
    temperV V false v1 v2 lsb2 noLsb t1 t2 veq g = match temperQ st1 st2 delta noLsb g with
      | none => .undef
      | some (_, none) => .table
      | some (g, some d) => .ok g d [] := by
  have h2 : (if noLsb then some (g, []) else v2 false g) = (if noLsb then some g else st2 g).map fun g => (g, []) := by
    cases noLsb with
    | true => rfl
    | false =>
      rw [if_neg (by decide), if_neg (by decide), ← H.same2 false]
      cases hv : v2 false g with
      | none => rfl
      | some r =>
        have := H.quiet2 g r hv
        rw [← this]; rfl
  have h1 : ∀ g, v1 false g = (st1 g).map fun g => (g, []) := by
    intro g
    rw [← H.same1 false]
    cases hv : v1 false g with
    | none => rfl
    | some r =>
      have := H.quiet1 g r hv
      rw [← this]; rfl
  unfold temperV temperQ
  simp only [Bool.false_eq_true, if_false, false_and, h2, h1]
  cases (if noLsb then some g else st2 g) with
  | none => rfl
  | some g1 =>
    simp only [Option.map_some, Option.bind_some]
    cases st1 g1 with
    | none => rfl
    | some g2 =>
      simp only [Option.map_some]
      rw [← H.table veq]
      cases V.table veq g2 with
      | none => rfl
      | some q => rfl

/-- The table of the dimensions `k` and the sum `d` of the defects under the name `name`. -/
def tableLines (V : VOps σ) (name : String) (k : ℕ → ℕ) (d : ℤ) : Out :=
  [(.os, (List.range' 1 V.width).flatMap fun v => kvLine v (k (v - 1)) ((V.mexp / v : ℕ) - (k (v - 1) : ℤ))),
   (.os, name.toList ++ "delta = ".toList ++ number d ++ "\n".toList)]

theorem tableText_eq (V : VOps σ) (name : String) (q : (ℕ → ℕ) × ℤ) : tableText V name.toList q = tableLines V name q.1 q.2 := by
  unfold tableText tableLines
  rw [kv_text, deltaText_eq, List.append_assoc, List.append_assoc, List.append_assoc]

/-- What is written in the tempering half before the last result: the table of the generator `g` without tempering, then, unless
`noLsb`, the text of `st2` and the table under "lsb" of what it leaves in the order of bits that has been searched, then the text of
`st1`. -/
def MidLines (V : VOps σ) (v1 v2 : Bool → σ → Option (σ × Out)) (lsb2 noLsb : Bool) (t1 : List Char) (veq : ℕ → ℕ) (g g' : σ) (o : Out)
    (veq' : ℕ → ℕ) : Prop :=
  ∃ k0 d0 g1 o2 o3 o4, V.table veq g = some (k0, d0) ∧ v1 true g1 = some (g', o4) ∧
    (if noLsb then g1 = g ∧ o2 = [] ∧ o3 = [] ∧ veq' = k0
     else v2 true g = some (g1, o2) ∧ ∃ d3, V.table k0 (if lsb2 then V.setRev g1 else g1) = some (veq', d3) ∧
      o3 = (.os, "lsb tempering parameters are found at ".toList ++ t1 ++ "\n".toList) :: tableLines V "lsb " veq' d3) ∧
    o = tableLines V "" k0 d0 ++ o2 ++ o3 ++ o4

/-- What the tempering half with messages does: the same; it ends with the parameters and the table of the generator it leaves. -/
theorem temperV_same (H : Honest V v1 v2 lsb2 st1 st2 delta Inv) (noLsb : Bool) (t1 t2 : List Char) (veq : ℕ → ℕ) {g : σ} (hg : Inv g) :
    match temperQ st1 st2 delta noLsb g with
      | none => temperV V true v1 v2 lsb2 noLsb t1 t2 veq g = .undef
      | some (_, none) => temperV V true v1 v2 lsb2 noLsb t1 t2 veq g = .table
      | some (g', some d) => ∃ o veq1 veq2, MidLines V v1 v2 lsb2 noLsb t1 veq g g' o veq1 ∧ V.table veq1 g' = some (veq2, d) ∧
          temperV V true v1 v2 lsb2 noLsb t1 t2 veq g = .ok g' d
          (o ++ [(.os, "tempering parameters are found at ".toList ++ t2 ++ "\n".toList), (.os, (V.str g').2 ++ "\n".toList),
            (.os, (List.range' 1 V.width).flatMap fun v => kvLine v (veq2 (v - 1)) ((V.mexp / v : ℕ) - (veq2 (v - 1) : ℤ))),
            (.os, "delta = ".toList ++ number d ++ "\n".toList)]) := by
  have htab : ∀ veq g, Inv g → ∃ q, V.table veq g = some q := by
    intro veq g hg
    have := H.total g hg
    rw [← H.table veq] at this
    cases hq : V.table veq g with
    | none => rw [hq] at this; exact absurd rfl this
    | some q => exact ⟨q, rfl⟩
  obtain ⟨q0, hq0⟩ := htab veq g hg
  unfold temperV temperQ
  simp only [if_true, hq0, Option.map_some, true_and]
  have h2 : ∃ o, (if noLsb then some (g, []) else v2 true g) = (if noLsb then some g else st2 g).map (fun g => (g, o)) ∧
      ∀ g1, (if noLsb then some g else st2 g) = some g1 → if noLsb then g1 = g ∧ o = [] else v2 true g = some (g1, o) := by
    cases noLsb with
    | true => exact ⟨[], rfl, fun g1 h => by rw [if_pos rfl, Option.some.injEq] at h; exact ⟨h.symm, rfl⟩⟩
    | false =>
      rw [if_neg (by decide), if_neg (by decide), ← H.same2 true]
      cases v2 true g with
      | none => exact ⟨[], rfl, fun g1 h => by cases h⟩
      | some r => exact ⟨r.2, rfl, fun g1 h => by
          rw [Option.map_some, Option.some.injEq] at h
          rw [if_neg (by decide), ← h]⟩
  obtain ⟨o2, h2, h2'⟩ := h2
  rw [h2]
  cases hg1 : (if noLsb then some g else st2 g) with
  | none => rfl
  | some g1 =>
    simp only [Option.map_some, Option.bind_some]
    have hi1 : Inv g1 ∧ ∃ veq1 o3, (if noLsb = false then lsbReport V lsb2 t1 q0.1 g1 else some (g1, q0.1, [])) = some (g1, veq1, o3) ∧
        (if noLsb then o3 = [] ∧ veq1 = q0.1
         else ∃ d3, V.table q0.1 (if lsb2 then V.setRev g1 else g1) = some (veq1, d3) ∧
          o3 = (.os, "lsb tempering parameters are found at ".toList ++ t1 ++ "\n".toList) :: tableLines V "lsb " veq1 d3) := by
      cases noLsb with
      | true =>
        rw [if_pos rfl, Option.some.injEq] at hg1
        exact ⟨hg1 ▸ hg, q0.1, [], rfl, rfl, rfl⟩
      | false =>
        rw [if_neg (by decide)] at hg1
        obtain ⟨k1, k2, k3⟩ := H.keep2 _ _ hg hg1
        have hi : Inv (if lsb2 then V.setRev g1 else g1) := by cases lsb2 <;> assumption
        obtain ⟨q, hq⟩ := htab q0.1 _ hi
        refine ⟨k1, q.1, (.os, "lsb tempering parameters are found at ".toList ++ t1 ++ ['\n']) :: tableText V "lsb ".toList q, ?_, ?_⟩
        · rw [if_pos rfl]
          unfold lsbReport
          dsimp only
          rw [hq, Option.map_some, k3]
        · rw [if_neg (by decide)]
          exact ⟨q.2, hq, by rw [tableText_eq]; rfl⟩
    obtain ⟨hi1, veq1, o3, h3, h3'⟩ := hi1
    rw [h3]
    dsimp only
    rw [← H.same1 true]
    cases hv : v1 true g1 with
    | none => rfl
    | some r =>
      obtain ⟨g2, o4⟩ := r
      have hst : st1 g1 = some g2 := by rw [← H.same1 true, hv]; rfl
      have hi2 := H.keep1 _ _ hi1 hst
      obtain ⟨q, hq⟩ := htab veq1 g2 hi2
      simp only [Option.map_some]
      rw [← H.table veq1, hq]
      simp only [Option.map_some]
      refine ⟨(tableText V [] q0 ++ o2 ++ o3 ++ o4), veq1, q.1, ⟨q0.1, q0.2, g1, o2, o3, o4, hq0, hv, ?_, ?_⟩, hq, ?_⟩
      · have h2'' := h2' g1 hg1
        cases noLsb with
        | true =>
          rw [if_pos rfl] at h2'' h3' ⊢
          exact ⟨h2''.1, h2''.2, h3'⟩
        | false =>
          rw [if_neg (by decide)] at h2'' h3' ⊢
          exact ⟨h2'', h3'⟩
      · rw [← tableText_eq]; rfl
      rw [H.str _ hi2]
      unfold tableText
      rw [kv_text, kv_text, deltaText_eq, deltaText_eq]
      congr 1
      rw [List.append_assoc (_ ++ o4)]
      rfl

/-- The lines "not found in …" after `m` turns without success. -/
def notFound (m : ℕ) : Out :=
  (List.range' 1 m).map fun k => (.os, "not found in ".toList ++ number ((k * 10000 : ℕ) : ℤ) ++ "\n".toList)

/-- The lines when the recursion has been found. -/
def foundLines (t : List Char) (count : ℕ) (str : List Char) : Out :=
  [(.os, "irreducible parameter is found at ".toList ++ t), (.os, "count = ".toList ++ number count ++ "\n".toList),
   (.os, str ++ "\n".toList)]

/-- The lines at the end: the parameters, the table and the sum of the defects. -/
def finalLines (V : VOps σ) (t : List Char) (str : List Char) (veq : ℕ → ℕ) (d : ℤ) : Out :=
  [(.os, "tempering parameters are found at ".toList ++ t ++ "\n".toList), (.os, str ++ "\n".toList),
   (.os, (List.range' 1 V.width).flatMap fun v => kvLine v (veq (v - 1)) ((V.mexp / v : ℕ) - (veq (v - 1) : ℤ))),
   (.os, "delta = ".toList ++ number d ++ "\n".toList)]

theorem foundText_eq (t : List Char) (count : ℕ) (str : List Char) : foundText t count str = foundLines t count str := by
  unfold foundText foundLines number
  rw [nat_text]; rfl

section
variable {π : Type} {mps : MPS} {D : SearchOps σ π w} {prim : ℕ → (ZMod 2)[X] → Option Bool}

/-- **C109.**  Without `verbose` the search writes nothing and is the search of C57. -/
theorem rtSearch_quiet (H : Honest V v1 v2 lsb2 st1 st2 delta Inv) (noLsb : Bool) (t0 t1 t2 : List Char) (veq : ℕ → ℕ) (fuel : ℕ)
    (rand : σ) (src : π) : rtSearchV mps D prim V false v1 v2 lsb2 noLsb t0 t1 t2 veq fuel rand src =
      (rtSearch mps D prim st1 st2 delta noLsb fuel rand src).map fun r => (r, []) := by
  unfold rtSearchV rtSearch
  rw [findLoop_quiet]
  cases findLoop mps D prim (1000 * D.gen.bitSize) fuel ⟨rand, src, 0, 0⟩ with
  | none => rfl
  | some r =>
    cases r with
    | undef => rfl
    | threw _ => rfl
    | ret b st =>
      simp only [Option.map_some, Bool.false_eq_true, if_false, temperV_quiet H]
      unfold temperQ
      cases (if noLsb then some st.rand else st2 st.rand) with
      | none => rfl
      | some g =>
        simp only [Option.bind_some]
        cases st1 g with
        | none => rfl
        | some g =>
          simp only [Option.map_some]
          cases delta g <;> rfl

/-- `rtSearch_same` for any number of turns without overflow. -/
theorem rtSearch_same_of (H : Honest V v1 v2 lsb2 st1 st2 delta Inv) (noLsb : Bool) (t0 t1 t2 : List Char) (veq : ℕ → ℕ) {fuel : ℕ}
    (rand : σ) (src : π)
    (hs : (findLoopV true (start mps D prim (1000 * D.gen.bitSize)) fuel 0 ⟨rand, src, 0, 0⟩).map Prod.fst =
      (findLoopV false (start mps D prim (1000 * D.gen.bitSize)) fuel 0 ⟨rand, src, 0, 0⟩).map Prod.fst)
    (hI : ∀ b st, findLoop mps D prim (1000 * D.gen.bitSize) fuel ⟨rand, src, 0, 0⟩ = some (.ret b st) → Inv st.rand) :
    (rtSearchV mps D prim V true v1 v2 lsb2 noLsb t0 t1 t2 veq fuel rand src).map Prod.fst =
      rtSearch mps D prim st1 st2 delta noLsb fuel rand src ∧
    ∀ r out, rtSearchV mps D prim V true v1 v2 lsb2 noLsb t0 t1 t2 veq fuel rand src = some (.found r, out) →
      ∃ m count g o veq1 veq2, out = notFound m ++ foundLines t0 count (V.str g).2 ++ o ++ finalLines V t2 (V.str r.rand).2 veq2 r.delta ∧
        m * (1000 * D.gen.bitSize) < count ∧ count ≤ (m + 1) * (1000 * D.gen.bitSize) ∧
        findLoop mps D prim (1000 * D.gen.bitSize) fuel ⟨rand, src, 0, 0⟩ = some (.ret true ⟨g, r.src, r.poly, count⟩) ∧
        MidLines V v1 v2 lsb2 noLsb t1 veq g r.rand o veq1 ∧ V.table veq1 r.rand = some (veq2, r.delta) := by
  rw [findLoop_quiet, Option.map_map] at hs
  have hid : (Prod.fst ∘ fun r : Res (St σ π) => (r, ([] : Out))) = id := rfl
  rw [hid, Option.map_id, id] at hs
  unfold rtSearchV rtSearch
  rw [← hs] at hI ⊢
  cases hx : findLoopV true (start mps D prim (1000 * D.gen.bitSize)) fuel 0 ⟨rand, src, 0, 0⟩ with
  | none => exact ⟨rfl, fun r out h => by cases h⟩
  | some x =>
    obtain ⟨r, o⟩ := x
    cases r with
    | undef => exact ⟨rfl, fun r out h => by simp at h⟩
    | threw _ => exact ⟨rfl, fun r out h => by simp at h⟩
    | ret b st =>
      have hi := hI b st (by rw [hx]; rfl)
      have ht := temperV_same H noLsb t1 t2 veq hi
      simp only [Option.map_some, if_true, H.str _ hi]
      unfold temperQ at ht
      cases hg : (if noLsb then some st.rand else st2 st.rand) with
      | none =>
        rw [hg] at ht
        simp only [Option.bind_none, Option.map_none] at ht
        rw [ht]
        exact ⟨rfl, fun r out h => by simp at h⟩
      | some g =>
        rw [hg] at ht
        simp only [Option.bind_some] at ht
        dsimp only
        cases hg1 : st1 g with
        | none =>
          rw [hg1] at ht
          simp only [Option.map_none] at ht
          rw [ht]
          exact ⟨rfl, fun r out h => by simp at h⟩
        | some g1 =>
          rw [hg1] at ht
          simp only [Option.map_some] at ht
          dsimp only
          cases hd : delta g1 with
          | none =>
            rw [hd] at ht
            dsimp only at ht
            rw [ht]
            exact ⟨rfl, fun r out h => by simp at h⟩
          | some d =>
            rw [hd] at ht
            dsimp only at ht
            obtain ⟨o', veq1, veq2, hmid, h1, h2⟩ := ht
            rw [h2]
            refine ⟨rfl, fun r out h => ?_⟩
            rw [Option.some.injEq, Prod.mk.injEq] at h
            obtain ⟨hr, ho⟩ := h
            injection hr with hr
            subst hr
            obtain ⟨hb, m, -, hm, hc1, hc2⟩ := notFound_lines (start_examines mps D prim _) _ _ _ _ _ _ hx
            refine ⟨m, st.count, st.rand, o', veq1, veq2, ?_, ?_, ?_, ?_, hmid, h1⟩
            · rw [← ho, hm, foundText_eq]
              simp only [List.append_assoc]
              rfl
            · dsimp only at hc1; omega
            · dsimp only at hc2; omega
            · rw [hb]

/-- **C109.**  `verbose` does not change what the search returns or the generator it leaves, as long as it needs at most 214748 turns.
If it finds parameters, the text begins with a line for every turn without success, the number of examined sets and the parameters
of the recursion, and it ends with the parameters of the generator that is left, the table of its dimensions and its delta. -/
theorem rtSearch_same (H : Honest V v1 v2 lsb2 st1 st2 delta Inv) (noLsb : Bool) (t0 t1 t2 : List Char) (veq : ℕ → ℕ) {fuel : ℕ}
    (hfuel : fuel ≤ 214748) (rand : σ) (src : π)
    (hI : ∀ b st, findLoop mps D prim (1000 * D.gen.bitSize) fuel ⟨rand, src, 0, 0⟩ = some (.ret b st) → Inv st.rand) :
    (rtSearchV mps D prim V true v1 v2 lsb2 noLsb t0 t1 t2 veq fuel rand src).map Prod.fst =
      rtSearch mps D prim st1 st2 delta noLsb fuel rand src ∧
    ∀ r out, rtSearchV mps D prim V true v1 v2 lsb2 noLsb t0 t1 t2 veq fuel rand src = some (.found r, out) →
      ∃ m count g o veq1 veq2, out = notFound m ++ foundLines t0 count (V.str g).2 ++ o ++ finalLines V t2 (V.str r.rand).2 veq2 r.delta ∧
        m * (1000 * D.gen.bitSize) < count ∧ count ≤ (m + 1) * (1000 * D.gen.bitSize) ∧
        findLoop mps D prim (1000 * D.gen.bitSize) fuel ⟨rand, src, 0, 0⟩ = some (.ret true ⟨g, r.src, r.poly, count⟩) ∧
        MidLines V v1 v2 lsb2 noLsb t1 veq g r.rand o veq1 ∧ V.table veq1 r.rand = some (veq2, r.delta) :=
  rtSearch_same_of H noLsb t0 t1 t2 veq rand src (findLoopV_same _ _ _ _ (by omega)) hI

end

section
variable {π : Type} {mps : MPS} {kernel : KernelFn} {G : ROps σ w} {W : WordOps w} {setUp : σ → π → Option (σ × π)}
  {seedOne : σ → σ}

/-- **C109.**  The same for `AlgorithmReducibleRT`: without `verbose` the search is the search of C77 and writes nothing. -/
theorem rrtSearch_quiet {eqFuel : ℕ} {veq0 : ℕ → ℕ}
    (H : Honest V v1 v2 lsb2 st1 st2 (fun g => ((PIS.getAllEquidist G.toGenOps W.calc1pos g w G.bitSize eqFuel veq0).toOption).map (·.sum)) Inv)
    (noLsb : Bool) (t0 t1 t2 : List Char) (fuel parFuel : ℕ) (junk : BitVec w) (veq : ℕ → ℕ) (rand : σ) (src : π) :
    rrtSearchV mps kernel G W setUp seedOne V false v1 v2 lsb2 noLsb t0 t1 t2 fuel parFuel junk veq rand src =
      (rrtSearch mps kernel G W setUp seedOne st1 st2 noLsb fuel parFuel eqFuel junk veq0 rand src).map fun r => (r, []) := by
  unfold rrtSearchV rrtSearch
  rw [rFindLoop_quiet]
  cases rFindLoop mps ⟨G.toGenOps, setUp, seedOne⟩ G.mexp (1000 * G.bitSize) fuel ⟨rand, src, 0, 0, 0⟩ with
  | none => rfl
  | some r =>
    cases r with
    | undef => rfl
    | threw _ => rfl
    | ret b st =>
      simp only [Option.map_some, Bool.false_eq_true, if_false, temperV_quiet H]
      cases searchParity G W parFuel kernel junk st.rand st.irreducible with
      | error e => rfl
      | ok x =>
        obtain ⟨parity, g⟩ := x
        simp only [afterParity]
        cases reducedCopy mps G.toGenOps g st.irreducible with
        | none => rfl
        | some g =>
          simp only [temperQ]
          cases (if noLsb then some g else st2 g) with
          | none => rfl
          | some g =>
            simp only [Option.bind_some]
            cases st1 g with
            | none => rfl
            | some g =>
              simp only [Option.map_some]
              cases PIS.getAllEquidist G.toGenOps W.calc1pos g w G.bitSize eqFuel veq0 <;> rfl

/-- **C109.**  `verbose` does not change what the search for reducible generators returns, and the text says the same. -/
theorem rrtSearch_same {eqFuel : ℕ} {veq0 : ℕ → ℕ}
    (H : Honest V v1 v2 lsb2 st1 st2 (fun g => ((PIS.getAllEquidist G.toGenOps W.calc1pos g w G.bitSize eqFuel veq0).toOption).map (·.sum)) Inv)
    (noLsb : Bool) (t0 t1 t2 : List Char) {fuel : ℕ} (hfuel : fuel ≤ 214748) (parFuel : ℕ) (junk : BitVec w) (veq : ℕ → ℕ) (rand : σ)
    (src : π)
    (hI : ∀ b st, rFindLoop mps ⟨G.toGenOps, setUp, seedOne⟩ G.mexp (1000 * G.bitSize) fuel ⟨rand, src, 0, 0, 0⟩ = some (.ret b st) →
      Inv st.rand ∧ ∀ parity g g', searchParity G W parFuel kernel junk st.rand st.irreducible = .ok (parity, g) →
        reducedCopy mps G.toGenOps g st.irreducible = some g' → Inv g') :
    (rrtSearchV mps kernel G W setUp seedOne V true v1 v2 lsb2 noLsb t0 t1 t2 fuel parFuel junk veq rand src).map Prod.fst =
      rrtSearch mps kernel G W setUp seedOne st1 st2 noLsb fuel parFuel eqFuel junk veq0 rand src ∧
    ∀ r out, rrtSearchV mps kernel G W setUp seedOne V true v1 v2 lsb2 noLsb t0 t1 t2 fuel parFuel junk veq rand src =
        some (.found r, out) →
      ∃ m count g p g0 g1 o veq1 veq2,
        out = notFound m ++ foundLines t0 count (V.str g).2 ++ o ++ finalLines V t2 (V.str r.rand).2 veq2 r.delta ∧
        m * (1000 * G.bitSize) < count ∧ count ≤ (m + 1) * (1000 * G.bitSize) ∧
        rFindLoop mps ⟨G.toGenOps, setUp, seedOne⟩ G.mexp (1000 * G.bitSize) fuel ⟨rand, src, 0, 0, 0⟩ =
          some (.ret true ⟨g, r.src, p, r.poly, count⟩) ∧
        searchParity G W parFuel kernel junk g r.poly = .ok (r.parity, g0) ∧ reducedCopy mps G.toGenOps g0 r.poly = some g1 ∧
        MidLines V v1 v2 lsb2 noLsb t1 veq g1 r.rand o veq1 ∧ V.table veq1 r.rand = some (veq2, r.delta) := by
  have hs := findLoopV_same (rStart mps ⟨G.toGenOps, setUp, seedOne⟩ G.mexp (1000 * G.bitSize)) fuel 0 ⟨rand, src, 0, 0, 0⟩ (by omega)
  rw [rFindLoop_quiet, Option.map_map] at hs
  have hid : (Prod.fst ∘ fun r : Res (RSt σ π) => (r, ([] : Out))) = id := rfl
  rw [hid, Option.map_id, id] at hs
  unfold rrtSearchV rrtSearch
  rw [← hs] at hI ⊢
  cases hx : findLoopV true (rStart mps ⟨G.toGenOps, setUp, seedOne⟩ G.mexp (1000 * G.bitSize)) fuel 0 ⟨rand, src, 0, 0, 0⟩ with
  | none => exact ⟨rfl, fun r out h => by cases h⟩
  | some x =>
    obtain ⟨r, o⟩ := x
    cases r with
    | undef => exact ⟨rfl, fun r out h => by simp at h⟩
    | threw _ => exact ⟨rfl, fun r out h => by simp at h⟩
    | ret b st =>
      obtain ⟨hi0, hi'⟩ := hI b st (by rw [hx]; rfl)
      simp only [Option.map_some, if_true, H.str _ hi0]
      cases hpar : searchParity G W parFuel kernel junk st.rand st.irreducible with
      | error e => exact ⟨rfl, fun r out h => by simp at h⟩
      | ok x =>
        obtain ⟨parity, gp⟩ := x
        simp only [afterParity]
        cases hred : reducedCopy mps G.toGenOps gp st.irreducible with
        | none => exact ⟨rfl, fun r out h => by simp at h⟩
        | some gr =>
          have hi := hi' parity gp gr hpar hred
          have ht := temperV_same H noLsb t1 t2 veq hi
          unfold temperQ at ht
          dsimp only
          cases hg : (if noLsb then some gr else st2 gr) with
          | none =>
            rw [hg] at ht
            simp only [Option.bind_none, Option.map_none] at ht
            rw [ht]
            exact ⟨rfl, fun r out h => by simp at h⟩
          | some g =>
            rw [hg] at ht
            simp only [Option.bind_some] at ht
            dsimp only
            cases hg1 : st1 g with
            | none =>
              rw [hg1] at ht
              simp only [Option.map_none] at ht
              rw [ht]
              exact ⟨rfl, fun r out h => by simp at h⟩
            | some g1 =>
              rw [hg1] at ht
              simp only [Option.map_some] at ht
              dsimp only
              cases hd : PIS.getAllEquidist G.toGenOps W.calc1pos g1 w G.bitSize eqFuel veq0 with
              | error e =>
                rw [hd] at ht
                simp only [Except.toOption, Option.map_none] at ht
                rw [ht]
                exact ⟨rfl, fun r out h => by simp at h⟩
              | ok d =>
                rw [hd] at ht
                simp only [Except.toOption, Option.map_some] at ht
                obtain ⟨o', veq1, veq2, hmid, h1, h2⟩ := ht
                rw [h2]
                refine ⟨rfl, fun r out h => ?_⟩
                rw [Option.some.injEq, Prod.mk.injEq] at h
                obtain ⟨hr, ho⟩ := h
                injection hr with hr
                subst hr
                obtain ⟨hb, m, -, hm, hc1, hc2⟩ := notFound_lines (rStart_examines mps _ _ _) _ _ _ _ _ _ hx
                refine ⟨m, st.count, st.rand, st.poly, gp, gr, o', veq1, veq2, ?_, ?_, ?_, ?_, hpar, hred, hmid, h1⟩
                · rw [← ho, hm, foundText_eq]
                  simp only [List.append_assoc]
                  rfl
                · dsimp only at hc1; omega
                · dsimp only at hc2; omega
                · rw [hb]

end

end
end MTT.Verbose
