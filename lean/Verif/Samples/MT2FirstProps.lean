import Verif.Samples.MT2First

/-!
# C119: the lines that `mt2.cpp` prints are determined by the numbers of its parameter source
-/

namespace MTT.MTDC

open Polynomial PIS Search MTRec

noncomputable section

open Classical in
/-- The line that parameter set number `i` of the source is worth: none unless its recurrence has the greatest period and the
defect reached by the tempering search is at most `maxDelta`. -/
def lineAt (mexp : ℕ) (id maxDelta : ℤ) (f : ℕ → BitVec 32) (i : ℕ) : Option Line :=
  if Full mexp (setAt mexp id f i).1 (setAt mexp id f i).2 then
    (best mexp (setAt mexp id f i).1 (setAt mexp id f i).2).bind fun q =>
      if q.2.2 ≤ maxDelta then some ⟨mexp, id, (setAt mexp id f i).1, (setAt mexp id f i).2, q.1, q.2.1, q.2.2⟩ else none
  else none

/-- The lines of the first `M` parameter sets of the source. -/
def linesOf (mexp : ℕ) (id maxDelta : ℤ) (f : ℕ → BitVec 32) (M : ℕ) : List Line :=
  (List.range M).filterMap (lineAt mexp id maxDelta f)

end

theorem setAt_from (mexp : ℕ) (id : ℤ) (f : ℕ → BitVec 32) (m i : ℕ) :
    setAt mexp id (from_ f (2 * m)) i = setAt mexp id f (m + i) := by
  unfold setAt from_
  rw [show 2 * m + 2 * i = 2 * (m + i) by omega, show 2 * m + (2 * i + 1) = 2 * (m + i) + 1 by omega]

theorem lineAt_from (mexp : ℕ) (id maxDelta : ℤ) (f : ℕ → BitVec 32) (m i : ℕ) :
    lineAt mexp id maxDelta (from_ f (2 * m)) i = lineAt mexp id maxDelta f (m + i) := by
  unfold lineAt
  rw [setAt_from]

theorem linesOf_add (mexp : ℕ) (id maxDelta : ℤ) (f : ℕ → BitVec 32) (m k : ℕ) :
    linesOf mexp id maxDelta f (m + k) =
      linesOf mexp id maxDelta f m ++ linesOf mexp id maxDelta (from_ f (2 * m)) k := by
  unfold linesOf
  rw [List.range_add, List.filterMap_append, List.filterMap_map]
  congr 2
  funext i
  exact (lineAt_from ..).symm

theorem linesOf_none {mexp : ℕ} {id maxDelta : ℤ} {f : ℕ → BitVec 32} {m : ℕ}
    (h : ∀ i < m, ¬ Full mexp (setAt mexp id f i).1 (setAt mexp id f i).2) : linesOf mexp id maxDelta f m = [] := by
  unfold linesOf
  rw [List.filterMap_eq_nil_iff]
  intro i hi
  unfold lineAt
  rw [if_neg (h i (List.mem_range.1 hi))]

theorem linesOf_one (mexp : ℕ) (id maxDelta : ℤ) (f : ℕ → BitVec 32) :
    linesOf mexp id maxDelta f 1 = (lineAt mexp id maxDelta f 0).toList := by
  unfold linesOf
  rw [List.range_one]
  cases h : lineAt mexp id maxDelta f 0 <;> simp [h]

variable {n r : ℕ}

section

variable {mps : MPS} (hmps : MinPolySeqSpec mps) {prim : ℕ → (ZMod 2)[X] → Option Bool}
  {mexp : ℕ} (hprim : PrimOK prim mexp) (hm : mexp + r = 32 * n) (hn : n = mexp / 32 + 1) (hr : r = 32 - mexp % 32)
  (hr32 : r < 32) (hn3 : 3 ≤ n) (id : ℤ) (veq : ℕ → ℕ) (fuel : ℕ) (maxDelta : ℤ)

include hmps hprim hm hn hr hr32 hn3

/-- A turn of the loop in which set number `m` is the first one of full period. -/
theorem turn_first (turns : ℕ) {count : ℤ} (hc : count > 0) (g : St) (hg : SInv n r id { g with pos := 2 }) (f : ℕ → BitVec 32)
    {m : ℕ} (hlt : m < fuel * (1000 * mexp)) (hA : Full mexp (setAt mexp id f m).1 (setAt mexp id f m).2)
    (hno : ∀ i < m, ¬ Full mexp (setAt mexp id f i).1 (setAt mexp id f i).2) :
    ∃ g' : St, SInv n r id { g' with pos := 2 } ∧
      ((lineAt mexp id maxDelta f m = none ∧ mainLoop mps prim veq fuel mexp maxDelta (turns + 1) count g f =
          mainLoop mps prim veq fuel mexp maxDelta turns count g' (from_ f (2 * (m + 1)))) ∨
      ∃ l, lineAt mexp id maxDelta f m = some l ∧ mainLoop mps prim veq fuel mexp maxDelta (turns + 1) count g f =
          match mainLoop mps prim veq fuel mexp maxDelta turns (count - 1) g' (from_ f (2 * (m + 1))) with
          | some (some L) => some (some (l :: L))
          | r => r) := by
  obtain ⟨o, b, c, d, e1, e2, e3, e4, e5, e6⟩ :=
    (rtCall_first hmps hprim hm hn hr hr32 hn3 id veq fuel g hg f).1 m hlt hA hno
  have hi := e3.inv
  refine ⟨o.rand, ⟨⟨hi.size, hi.mexp, hi.rlt, hi.index, hi.upper, hi.lower, by show 1 ≤ 2; omega, by show 2 < n; omega⟩,
    e3.rev, e3.id⟩, ?_⟩
  have hl : lineAt mexp id maxDelta f m = if d ≤ maxDelta then some (lineOf o.rand o.delta) else none := by
    unfold lineAt
    rw [if_pos hA, e4, e6]
    rfl
  by_cases hd : d ≤ maxDelta
  · right
    refine ⟨lineOf o.rand o.delta, by rw [hl, if_pos hd], ?_⟩
    rw [mainLoop, if_pos hc, e1]
    dsimp only
    rw [if_neg (by omega), e2]
    rfl
  · left
    refine ⟨by rw [hl, if_neg hd], ?_⟩
    rw [mainLoop, if_pos hc, e1]
    dsimp only
    rw [if_pos (by omega), e2]

theorem mainLoop_lines (turns : ℕ) (count : ℤ) (g : St) (hg : SInv n r id { g with pos := 2 }) (f : ℕ → BitVec 32)
    {res : Option (List Line)} (h : mainLoop mps prim veq fuel mexp maxDelta turns count g f = some res) :
    ∃ M, res = some (linesOf mexp id maxDelta f M) ∧ (linesOf mexp id maxDelta f M).length = count.toNat ∧
      ∀ M' < M, (linesOf mexp id maxDelta f M').length < count.toNat := by
  induction turns generalizing count g f res with
  | zero => cases h
  | succ turns ih =>
    by_cases hc : count > 0
    · by_cases hex : ∃ m, m < fuel * (1000 * mexp) ∧ Full mexp (setAt mexp id f m).1 (setAt mexp id f m).2
      · classical
        obtain ⟨m, ⟨hlt, hA⟩, hmin⟩ : ∃ m, (m < fuel * (1000 * mexp) ∧ Full mexp (setAt mexp id f m).1 (setAt mexp id f m).2) ∧
            ∀ i < m, ¬ (i < fuel * (1000 * mexp) ∧ Full mexp (setAt mexp id f i).1 (setAt mexp id f i).2) :=
          ⟨Nat.find hex, Nat.find_spec hex, fun i hi => Nat.find_min hex hi⟩
        have hno : ∀ i < m, ¬ Full mexp (setAt mexp id f i).1 (setAt mexp id f i).2 := fun i hi hf => hmin i hi ⟨by omega, hf⟩
        have hsplit : ∀ k, linesOf mexp id maxDelta f (m + 1 + k) =
            (lineAt mexp id maxDelta f m).toList ++ linesOf mexp id maxDelta (from_ f (2 * (m + 1))) k := fun k => by
          rw [linesOf_add, linesOf_add, linesOf_none hno, linesOf_one, lineAt_from, List.nil_append]
          rfl
        have hbefore : ∀ M', M' ≤ m → (linesOf mexp id maxDelta f M').length < count.toNat := fun M' hM' => by
          rw [linesOf_none fun i hi => hno i (by omega), List.length_nil]
          omega
        obtain ⟨g', hg', h'⟩ := turn_first hmps hprim hm hn hr hr32 hn3 id veq fuel maxDelta turns hc g hg f hlt hA hno
        rcases h' with ⟨hl, e⟩ | ⟨l, hl, e⟩
        · rw [e] at h
          obtain ⟨M, h1, h2, h3⟩ := ih count g' hg' _ h
          have hs : ∀ k, linesOf mexp id maxDelta f (m + 1 + k) = linesOf mexp id maxDelta (from_ f (2 * (m + 1))) k := fun k => by
            rw [hsplit, hl]; rfl
          refine ⟨m + 1 + M, by rw [hs]; exact h1, by rw [hs]; exact h2, fun M' hM' => ?_⟩
          by_cases hle : M' ≤ m
          · exact hbefore M' hle
          · obtain ⟨k, rfl⟩ : ∃ k, M' = m + 1 + k := ⟨M' - (m + 1), by omega⟩
            rw [hs]
            exact h3 k (by omega)
        · have hs : ∀ k, linesOf mexp id maxDelta f (m + 1 + k) = l :: linesOf mexp id maxDelta (from_ f (2 * (m + 1))) k := fun k => by
            rw [hsplit, hl]; rfl
          cases hrest : mainLoop mps prim veq fuel mexp maxDelta turns (count - 1) g' (from_ f (2 * (m + 1))) with
          | none => rw [e, hrest] at h; cases h
          | some q =>
            obtain ⟨M, rfl, h2, h3⟩ := ih (count - 1) g' hg' _ hrest
            rw [e, hrest] at h
            injection h with h
            refine ⟨m + 1 + M, by rw [hs]; exact h.symm, by rw [hs, List.length_cons, h2]; omega, fun M' hM' => ?_⟩
            by_cases hle : M' ≤ m
            · exact hbefore M' hle
            · obtain ⟨k, rfl⟩ : ∃ k, M' = m + 1 + k := ⟨M' - (m + 1), by omega⟩
              rw [hs, List.length_cons]
              have := h3 k (by omega)
              omega
      · rw [mainLoop, if_pos hc, (rtCall_first hmps hprim hm hn hr hr32 hn3 id veq fuel g hg f).2 fun i hi hf => hex ⟨i, hi, hf⟩] at h
        cases h
    · rw [mainLoop, if_neg hc] at h
      injection h with h
      refine ⟨0, h.symm, ?_, fun M' hM' => absurd hM' (by omega)⟩
      show 0 = _
      omega

theorem mainLoop_ends (M : ℕ) (hfuel : M ≤ fuel) (turns : ℕ) (hturns : M < turns) (count : ℤ) (g : St) (hg : SInv n r id { g with pos := 2 })
    (f : ℕ → BitVec 32) (hM : count.toNat ≤ (linesOf mexp id maxDelta f M).length) :
    ∃ L, mainLoop mps prim veq fuel mexp maxDelta turns count g f = some (some L) := by
  obtain ⟨turns, rfl⟩ : ∃ t, turns = t + 1 := ⟨turns - 1, by omega⟩
  induction M using Nat.strong_induction_on generalizing turns count g f with
  | _ M ih =>
    by_cases hc : count > 0
    · have hex : ∃ m, m < M ∧ Full mexp (setAt mexp id f m).1 (setAt mexp id f m).2 := by
        by_contra hno
        rw [linesOf_none fun i hi hf => hno ⟨i, hi, hf⟩, List.length_nil] at hM
        omega
      classical
      obtain ⟨m, ⟨hlt, hA⟩, hmin⟩ : ∃ m, (m < M ∧ Full mexp (setAt mexp id f m).1 (setAt mexp id f m).2) ∧
          ∀ i < m, ¬ (i < M ∧ Full mexp (setAt mexp id f i).1 (setAt mexp id f i).2) :=
        ⟨Nat.find hex, Nat.find_spec hex, fun i hi => Nat.find_min hex hi⟩
      have hno : ∀ i < m, ¬ Full mexp (setAt mexp id f i).1 (setAt mexp id f i).2 := fun i hi hf => hmin i hi ⟨by omega, hf⟩
      obtain ⟨k, hk⟩ : ∃ k, M = m + 1 + k := ⟨M - (m + 1), by omega⟩
      have hsplit : linesOf mexp id maxDelta f M =
          (lineAt mexp id maxDelta f m).toList ++ linesOf mexp id maxDelta (from_ f (2 * (m + 1))) k := by
        rw [hk, linesOf_add, linesOf_add, linesOf_none hno, linesOf_one, lineAt_from, List.nil_append]
        rfl
      have hbig : m < fuel * (1000 * mexp) := by
        have : fuel * 1 ≤ fuel * (1000 * mexp) := Nat.mul_le_mul_left _ (by omega)
        omega
      obtain ⟨t, rfl⟩ : ∃ t, turns = t + 1 := ⟨turns - 1, by omega⟩
      obtain ⟨g', hg', h'⟩ := turn_first hmps hprim hm hn hr hr32 hn3 id veq fuel maxDelta (t + 1) hc g hg f hbig hA hno
      rw [hsplit, List.length_append] at hM
      rcases h' with ⟨hl, e⟩ | ⟨l, hl, e⟩
      · rw [e]
        rw [hl] at hM
        exact ih k (by omega) (by omega) count g' hg' _ (by simpa using hM) t (by omega)
      · rw [hl] at hM
        have hM' : count.toNat ≤ 1 + (linesOf mexp id maxDelta (from_ f (2 * (m + 1))) k).length := hM
        obtain ⟨L, hL⟩ := ih k (by omega) (by omega) (count - 1) g' hg' (from_ f (2 * (m + 1))) (by omega) t (by omega)
        exact ⟨l :: L, by rw [e, hL]⟩
    · exact ⟨[], by rw [mainLoop, if_neg hc]⟩

end

section

variable {mps : MPS} (hmps : MinPolySeqSpec mps) {mexp : ℕ} (hmexp : mexp ∈ allowedMexp) (id : ℤ) (veq : ℕ → ℕ)
  (fuel turns : ℕ) (count maxDelta : ℤ) (junkPos : ℕ) (junkA : BitVec 32) (junk f : ℕ → BitVec 32)

include hmexp

theorem main_start (mps : MPS) : ∃ (n r : ℕ) (g : St), PrimOK (Period.primitivityOp none) mexp ∧ mexp + r = 32 * n ∧ n = mexp / 32 + 1 ∧
    r = 32 - mexp % 32 ∧ r < 32 ∧ 3 ≤ n ∧ SInv n r id { g with pos := 2 } ∧
    main mps (Period.primitivityOp none) veq fuel turns mexp id count maxDelta junkPos junkA junk f =
      mainLoop mps (Period.primitivityOp none) veq fuel mexp maxDelta turns count g f := by
  have htab : ∀ e ∈ allowedMexp, e ∈ Period.mersenneExponent ∧ e ≤ 216091 ∧ e % 32 ≠ 0 ∧ 64 ≤ e := by decide +kernel
  obtain ⟨t1, t2, t3, t4⟩ := htab mexp hmexp
  obtain ⟨n, hn⟩ : ∃ n, n = mexp / 32 + 1 := ⟨_, rfl⟩
  obtain ⟨r, hr⟩ : ∃ r, r = 32 - mexp % 32 := ⟨_, rfl⟩
  have e : (mexp / 32 + 1) * 32 - mexp = r := by omega
  unfold main ctor
  dsimp only
  rw [e, if_pos (by omega)]
  refine ⟨n, r, _, primOK_mersenne (Mexp.table_prime mexp t1 t2), by omega, hn, hr, by omega, by omega, ?_, rfl⟩
  refine ⟨⟨hn.symm, ?_, by omega, ?_, rfl, rfl, by show 1 ≤ 2; omega, by show 2 < n; omega⟩, rfl, rfl⟩
  · show mexp + r = _; omega
  · show mexp / 32 + 1 - 1 < n; omega

include hmps

/-- **C119.**  Whenever `main` ends, the lines printed are the lines of the first `M` parameter sets of the source, in their
order, where `M` is the least number for which there are `count` lines: nothing is left out, nothing is printed twice, and
neither what is uninitialised nor the earlier finds have an influence. -/
theorem main_lines {res : Option (List Line)}
    (h : main mps (Period.primitivityOp none) veq fuel turns mexp id count maxDelta junkPos junkA junk f = some res) :
    ∃ M, res = some (linesOf mexp id maxDelta f M) ∧ (linesOf mexp id maxDelta f M).length = count.toNat ∧
      ∀ M' < M, (linesOf mexp id maxDelta f M').length < count.toNat := by
  obtain ⟨n, r, g, hprim, a1, a2, a3, a4, a5, a6, e⟩ := main_start hmexp id veq fuel turns count maxDelta junkPos junkA junk f mps
  rw [e] at h
  exact mainLoop_lines hmps hprim a1 a2 a3 a4 a5 id veq fuel maxDelta turns count g a6 f h

/-- **C119.**  If the first `M` sets of the source are worth at least `count` lines, `main` ends (`M` calls of `start` and `M`
turns of the loop are enough). -/
theorem main_ends (M : ℕ) (hfuel : M ≤ fuel) (hturns : M < turns)
    (hM : count.toNat ≤ (linesOf mexp id maxDelta f M).length) :
    ∃ L, main mps (Period.primitivityOp none) veq fuel turns mexp id count maxDelta junkPos junkA junk f = some (some L) := by
  obtain ⟨n, r, g, hprim, a1, a2, a3, a4, a5, a6, e⟩ := main_start hmexp id veq fuel turns count maxDelta junkPos junkA junk f mps
  rw [e]
  exact mainLoop_ends hmps hprim a1 a2 a3 a4 a5 id veq fuel maxDelta M hfuel turns hturns count g a6 f hM

end

theorem charpoly_of_full {mexp : ℕ} (h1 : 1 ≤ mexp) (hdim : Module.finrank (ZMod 2) (S n r) = mexp) {p : Par} {z : S n r} (hz : z ≠ 0)
    (hfull : ∀ N, (T n r p ^ N) z = z ↔ 2 ^ mexp - 1 ∣ N) : Primitive2 (T n r p).charpoly mexp := by
  obtain ⟨g1, g2, g3⟩ := charpoly_hyps (T n r p) z
  rw [hdim] at g3
  obtain ⟨μ, hμ⟩ := exists_vecMinpoly g1.ne_zero g2
  have hd : μ ∣ (T n r p).charpoly := (hμ.2 _).1 g2
  have hprim := primitive_of_period hμ h1 (by rw [← g3]; exact natDegree_le_of_dvd hd g1.ne_zero) hz hfull
  obtain ⟨c, hc⟩ := hd
  have hc0 : c ≠ 0 := fun h0 => g1.ne_zero (by rw [hc, h0, mul_zero])
  have hdd := congrArg natDegree hc
  rw [natDegree_mul hμ.1 hc0, g3, hprim.1] at hdd
  have hc1 : c = 1 := (monic_of_ne hc0).natDegree_eq_zero.1 (by omega)
  rw [hc, hc1, mul_one]
  exact hprim

/-- **C119.**  What `best` means: for every parameter set of full period it is defined, and the line with these masks and this
defect is as C87 claims (the defect is the total dimension defect of the generator described by the line); it is at most
`32 mexp`. -/
theorem best_good {mexp : ℕ} (hmexp : mexp ∈ allowedMexp) {pos : ℕ} {mata : BitVec 32} (h2 : 2 ≤ pos) (hp : pos ≤ mexp / 32)
    (hfull : Full mexp pos mata) : ∃ b c d, best mexp pos mata = some (b, c, d) ∧ d ≤ mexp * 32 ∧
      GoodLine mexp (mata.toNat % 2 ^ 16 : ℕ) d ⟨mexp, (mata.toNat % 2 ^ 16 : ℕ), pos, mata, b, c, d⟩ := by
  have htab : ∀ e ∈ allowedMexp, e % 32 ≠ 0 ∧ 64 ≤ e := by decide
  obtain ⟨t3, t4⟩ := htab mexp hmexp
  obtain ⟨n, hn⟩ : ∃ n, n = mexp / 32 + 1 := ⟨_, rfl⟩
  obtain ⟨r, hr⟩ : ∃ r, r = 32 - mexp % 32 := ⟨_, rfl⟩
  have hm : mexp + r = 32 * n := by omega
  have hr32 : r < 32 := by omega
  obtain ⟨s0, hs0⟩ : ∃ s0 : St, s0 = ⟨mexp, n, 0, fun _ => 0, pos, mata, 0, 0, upper 32 r, ~~~ upper 32 r,
      (mata.toNat % 2 ^ 16 : ℕ), false⟩ := ⟨_, rfl⟩
  have hi0 : Inv n r s0 := by
    rw [hs0]
    exact ⟨rfl, hm, hr32, by show 0 < n; omega, rfl, rfl, by show 1 ≤ pos; omega, by show pos < n; omega⟩
  obtain ⟨s, hs⟩ : ∃ s, s = seed 1 s0 := ⟨_, rfl⟩
  have hi : Inv n r s := by rw [hs]; exact (seed_inv hi0 1).1
  have h0 : den n r s ≠ 0 := by rw [hs]; exact seed_ne_zero hi0
  have e1 : s.pos = pos := by rw [hs, hs0]; rfl
  have e2 : s.mata = mata := by rw [hs, hs0]; rfl
  have e3 : s.rev = false := by rw [hs, hs0]; rfl
  have e4 : s.id = (mata.toNat % 2 ^ 16 : ℕ) := by rw [hs, hs0]; rfl
  have e5 : s.mexp = mexp := by rw [hs, hs0]; rfl
  have hf := (full_iff hn hr hr32 (par s) hi.pos1 hi.posn).1 (by show Full mexp s.pos s.mata; rw [e1, e2]; exact hfull)
  obtain ⟨b, c, d, b1, b2⟩ := best_spec hm hn hr hr32 (by omega) hi e3 h0 hf
  obtain ⟨b3, b4⟩ := b2 fun _ => 0
  obtain ⟨q, q1, q2⟩ := temper_spec (fun _ => 0) hm (by omega) s hi e3
  rw [b3] at q1
  injection q1 with q1
  have qb : b = q 0 := congrArg St.maskb q1
  have qc : c = q 1 := congrArg St.maskc q1
  rw [e1, e2] at b1
  refine ⟨b, c, d, b1, ?_, ?_⟩
  · obtain ⟨d', d1, d2⟩ := measure_le (fun _ => 0) (masks_inv hi b c) (by show 1 ≤ s.mexp; omega) (L := 32) (by omega) le_rfl
    rw [b4] at d1
    injection d1 with d1
    rw [d1, ← e5]
    exact d2
  · have hl : (⟨mexp, (mata.toNat % 2 ^ 16 : ℕ), pos, mata, b, c, d⟩ : Line) = lineOf { s with maskb := b, maskc := c } d := by
      show _ = (⟨s.mexp, s.id, s.pos, s.mata, b, c, d⟩ : Line)
      rw [e1, e2, e4, e5]
    rw [hl]
    refine line_of (s := { s with maskb := b, maskc := c }) hm hn hr t3 ⟨masks_inv hi b c, e3, e4⟩ (by show 2 ≤ s.pos; omega)
      (by show ((s.mata.toNat % 2 ^ 16 : ℕ) : ℤ) = _; rw [e2]) (by rw [qb]; exact q2.1) (by rw [qc]; exact q2.2) ?_ h0 b4 le_rfl
    have hdim : Module.finrank (ZMod 2) (S n r) = mexp := by rw [finrank_S hi, e5]
    exact charpoly_of_full (by omega) hdim h0 (hf _ h0)

end MTT.MTDC
