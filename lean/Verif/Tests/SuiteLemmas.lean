import Verif.Tests.Suite
import Verif.Tests.EquidistProps
import Verif.Samples.TinyMTDCProps
import Verif.Search.RTProps
import Verif.Lin.Props

/-!
# Lemmas for the tests of `make check`
-/

namespace MTT.Tests

open Search Period TinyRef PIS Temper Polynomial

/-- Specification: with the recursion parameters `m1`, `m2` every state that is not zero has the period `2^127-1`, whatever the tempering
parameter is. -/
def MaxPair (m1 m2 : BitVec 32) : Prop :=
  ∀ r : T32, r.mat1 = m1 → r.mat2 = m2 → ¬ Zero32 r → ∀ k, Eq32 (next32^[k] r) r ↔ 2 ^ 127 - 1 ∣ k

/-! ## The class as a family of linear generators -/

abbrev P3 := BitVec 32 × BitVec 32 × BitVec 32

def par32 (r : T32) : P3 := (r.mat1, r.mat2, r.tmat)

def parT (p : P3) : T32 := ⟨0, 0, 0, 0, p.1, p.2.1, p.2.2⟩

theorem samePar32 (p : P3) (r : T32) : TinyMT.SamePar (parT p).obj r.obj ↔ par32 r = p := by
  obtain ⟨p1, p2, p3⟩ := p
  simp only [TinyMT.SamePar, parT, par32, T32.obj, Prod.mk.injEq]
  tauto

theorem t32_lin (p : P3) : LinGen t32Ops (fun r => True ∧ par32 r = p) den32 (TinyMT.T (parT p).obj) (TinyMT.O (parT p).obj) := by
  have : (fun r : T32 => True ∧ par32 r = p) = fun r => TinyMT.SamePar (parT p).obj r.obj := by
    funext r
    rw [samePar32]
    simp
  rw [this]
  exact t32_linGen (parT p)

theorem init32_par (r : T32) (v : BitVec 32) : par32 (init32 r v) = par32 r := by
  obtain ⟨-, h1, h2, h3⟩ := init32_never_zero r v 0
  simp only [par32]
  rw [show (init32 r v).mat1 = r.mat1 from h1, show (init32 r v).mat2 = r.mat2 from h2, show (init32 r v).tmat = r.tmat from h3]

theorem t32_family (f : ℕ → BitVec 32) : Family (t32Search f) (fun _ => True) par32 den32 (fun p => TinyMT.T (parT p).obj)
    (fun p => TinyMT.O (parT p).obj) where
  lin p := t32_lin p
  dim := TinyMT.finrank_S
  pos := by show 1 ≤ 127; omega
  wpos := by omega
  setUp_inv _ _ _ _ _ _ := trivial
  seed_inv _ _ := trivial
  seed_par r _ := init32_par r 1

theorem stateAt_next (r : T32) (k : ℕ) : stateAt t32Ops r k = next32^[k] r := by
  induction k with
  | zero => rfl
  | succ k ih =>
    show next32 (stateAt t32Ops r k) = _
    rw [ih, Function.iterate_succ_apply']

theorem T_par {r q : T32} (h1 : r.mat1 = q.mat1) (h2 : r.mat2 = q.mat2) : TinyMT.T r.obj = TinyMT.T q.obj :=
  TinyMT.T_congr (s := r.obj) (t := q.obj) h1 h2

theorem eq32_iff (r : T32) (k : ℕ) : Eq32 (next32^[k] r) r ↔ (TinyMT.T r.obj ^ k) (den32 r) = den32 r := by
  rw [← (next32_iter r k).2, den32_eq]
  rfl

theorem zero32_iff (r : T32) : Zero32 r ↔ den32 r = 0 := (den32_eq_zero r).symm

theorem den_of (p : T32) (y : TinyMT.S) : den32 (ofDen32 p y) = y := by
  refine Prod.ext (Wd.ext ?_) rfl
  show ((y.1.val).setWidth 32).setWidth 31 = y.1.val
  apply BitVec.eq_of_getLsbD_eq
  intro i hi
  simp [hi]

theorem maxPair_iff (p : P3) (f : ℕ → BitVec 32) : MaxPair p.1 p.2.1 ↔ MaxPeriod (t32Search f) (fun _ => True) par32 den32 p 127 := by
  constructor
  · intro h r _ hp h0 k
    show den32 (stateAt t32Ops r k) = _ ↔ _
    rw [stateAt_next, ← h r (congrArg (·.1) hp) (congrArg (·.2.1) hp) (fun hz => h0 ((zero32_iff r).1 hz)) k, den32_eq]
    rfl
  · intro h r h1 h2 hz k
    have h0 : den32 r ≠ 0 := fun h => hz ((zero32_iff r).2 h)
    have := h (ofDen32 (parT p) (den32 r)) trivial rfl (by rw [den_of]; exact h0) k
    rw [← this, eq32_iff]
    show _ ↔ den32 (stateAt t32Ops _ k) = _
    rw [stateAt_next, (next32_iter _ k).2, den_of, T_par (r := r) (q := ofDen32 (parT p) (den32 r)) h1 h2]

/-- With maximal period the lowest bit of some output is 1. -/
theorem bit_of_maxPair {r : T32} (h : MaxPair r.mat1 r.mat2) (hz : ¬ Zero32 r) : ∃ i, (outAt t32Ops r i).getLsbD 0 = true := by
  have h0 : den32 r ≠ 0 := fun h => hz ((zero32_iff r).2 h)
  obtain ⟨k, h1, h2⟩ := orbit_all (T := TinyMT.T r.obj) (n := 127) (by omega) TinyMT.finrank_S h0 (fun k => by
    rw [← h r rfl rfl hz k, eq32_iff]) (y := (0, 0, 0, Wd.of 1)) (by
    intro h0
    have : (1 : BitVec 32) = 0 := congrArg (fun y : TinyMT.S => y.2.2.2.val) h0
    exact absurd this (by decide))
  obtain ⟨j, rfl⟩ : ∃ j, k = j + 1 := ⟨k - 1, by omega⟩
  refine ⟨j, ?_⟩
  rw [← (next32_iter r (j + 1)).2] at h2
  set t := next32^[j + 1] r with ht
  have ho : outAt t32Ops r j = temper32 true t := by
    show temper32 true (next32 (stateAt t32Ops r j)) = _
    rw [stateAt_next, ← Function.iterate_succ_apply' next32]
  have e3 : t.s3 = 1 := congrArg (fun y : TinyMT.S => y.2.2.2.val) h2
  have e2 : t.s2 = 0 := congrArg (fun y : TinyMT.S => y.2.2.1.val) h2
  have e0 : t.s0.setWidth 31 = 0 := congrArg (fun y : TinyMT.S => y.1.val) h2
  have b0 : t.s0.getLsbD 0 = false := by
    have := congrArg (fun z => z.getLsbD 0) e0
    simpa using this
  have b1 : (t1 true t).getLsbD 0 = false := by
    simp only [t1, if_true, e2, BitVec.getLsbD_xor, b0]
    decide
  rw [ho]
  unfold temper32
  dsimp only
  have hc : ¬ (t1 true t &&& 1) ≠ 0 := by
    rw [not_not]
    apply BitVec.eq_of_getLsbD_eq
    intro i hi
    rw [BitVec.getLsbD_and]
    rcases Nat.eq_zero_or_pos i with rfl | h
    · rw [b1]; simp
    · have : (1 : BitVec 32).getLsbD i = false := by
        have : i ≠ 0 := by omega
        simp [BitVec.getLsbD_one, this]
      rw [this]; simp
  rw [if_neg hc, BitVec.getLsbD_xor, b1, e3]
  decide

/-! ## The recursion search -/

variable {mps : MPS} {f : ℕ → BitVec 32}

theorem prim127_ok : PrimOK (primitivityOp none) 127 := primOK_mersenne TinyMT.prime127

theorem init_ne_zero (r : T32) (v : BitVec 32) (k : ℕ) : ¬ Zero32 (next32^[k] (init32 r v)) := (init32_never_zero r v k).1

theorem try_spec (hm : MinPolySeqSpec mps) (st : Search.St T32 ℕ) :
    ∃ b st', tryOnce mps (t32Search f) (primitivityOp none) st = .ret b st' ∧ st'.count = st.count + 1 ∧ st'.src = st.src + 2 ∧
      par32 st'.rand = (f st.src, f (st.src + 1), st.rand.tmat) ∧ ¬ Zero32 st'.rand ∧
      (b = true ↔ MaxPair (f st.src) (f (st.src + 1))) ∧ (b = true → Primitive2 st'.poly 127) := by
  rcases tryOnce_correct hm (t32_family f) prim127_ok st trivial with ⟨h1, _⟩ | ⟨r, src, st', b, h1, h2, h3, h4, h5, -, h6, h7, h8⟩
  · cases h1
  · injection h1 with h1
    injection h1 with h1 h1'
    subst h1 h1'
    set r : T32 := { st.rand with mat1 := f st.src, mat2 := f (st.src + 1) } with hr
    refine ⟨b, st', h2, h3, h4, h6, ?_, ?_, fun hb => (h8 hb).2⟩
    · rw [h5]
      show ¬ Zero32 (stateAt t32Ops (init32 r 1) 254)
      rw [stateAt_next]
      exact init_ne_zero r 1 254
    · rw [h7]
      have h9 := maxPair_iff (par32 r) f
      have h10 : MaxPair (f st.src) (f (st.src + 1)) ↔ MaxPair (par32 r).1 (par32 r).2.1 := Iff.rfl
      rw [h10, h9]
      refine ⟨fun h => h.1, fun h => ⟨h, ?_⟩⟩
      have hp := init32_par r 1
      refine bit_of_maxPair (r := init32 r 1) ?_ (init_ne_zero r 1 0)
      rw [show (init32 r 1).mat1 = (par32 r).1 from congrArg (·.1) hp, show (init32 r 1).mat2 = (par32 r).2.1 from congrArg (·.2.1) hp]
      exact h9.2 h

/-- What the search does: it takes the first pair of parameters with maximal period. -/
theorem start_first (hm : MinPolySeqSpec mps) (n : ℕ) (st : Search.St T32 ℕ) :
    (∃ i st', i < n ∧ start mps (t32Search f) (primitivityOp none) n st = .ret true st' ∧
      MaxPair (f (st.src + 2 * i)) (f (st.src + 2 * i + 1)) ∧ (∀ j < i, ¬ MaxPair (f (st.src + 2 * j)) (f (st.src + 2 * j + 1))) ∧
      st'.count = st.count + i + 1 ∧ st'.src = st.src + 2 * i + 2 ∧
      par32 st'.rand = (f (st.src + 2 * i), f (st.src + 2 * i + 1), st.rand.tmat) ∧ ¬ Zero32 st'.rand ∧ Primitive2 st'.poly 127) ∨
    ((∀ j < n, ¬ MaxPair (f (st.src + 2 * j)) (f (st.src + 2 * j + 1))) ∧
      ∃ st', start mps (t32Search f) (primitivityOp none) n st = .ret false st' ∧ st'.count = st.count + n ∧ st'.src = st.src + 2 * n ∧
        st'.rand.tmat = st.rand.tmat) := by
  induction n generalizing st with
  | zero => exact Or.inr ⟨fun j hj => absurd hj (by omega), st, rfl, rfl, rfl, rfl⟩
  | succ n ih =>
    obtain ⟨b, st1, h1, h2, h3, h4, h5, h6, h7⟩ := try_spec (f := f) hm st
    cases b with
    | true =>
      refine Or.inl ⟨0, st1, by omega, by simp only [start, h1], h6.1 rfl, fun j hj => absurd hj (by omega), h2, h3, h4, h5, h7 rfl⟩
    | false =>
      have h0 : ¬ MaxPair (f st.src) (f (st.src + 1)) := fun h => by cases h6.2 h
      have hs : start mps (t32Search f) (primitivityOp none) (n + 1) st = start mps (t32Search f) (primitivityOp none) n st1 := by
        simp only [start, h1]
      have ht : st1.rand.tmat = st.rand.tmat := congrArg (·.2.2) h4
      have hsrc : ∀ i, st1.src + 2 * i = st.src + 2 * (i + 1) := fun i => by rw [h3]; ring
      rw [hs]
      rcases ih st1 with ⟨i, st', g1, g2, g3, g4, g5, g6, g7, g8, g9⟩ | ⟨g1, st', g2, g3, g4, g5⟩
      · rw [hsrc] at g3 g7 g6
        refine Or.inl ⟨i + 1, st', by omega, g2, g3, ?_, by omega, by omega, by rw [g7, ht], g8, g9⟩
        intro j hj
        cases j with
        | zero => exact h0
        | succ j => rw [← hsrc]; exact g4 j (by omega)
      · refine Or.inr ⟨?_, st', g2, by omega, by rw [g4, hsrc], by rw [g5, ht]⟩
        intro j hj
        cases j with
        | zero => exact h0
        | succ j => rw [← hsrc]; exact g1 j (by omega)

/-- The search of `search.start(1000 * mexp)` until it succeeds. -/
theorem find_first (hm : MinPolySeqSpec mps) (fuel : ℕ) (st : Search.St T32 ℕ) {i : ℕ} (hi : i < 127000 * fuel)
    (h1 : MaxPair (f (st.src + 2 * i)) (f (st.src + 2 * i + 1)))
    (h2 : ∀ j < i, ¬ MaxPair (f (st.src + 2 * j)) (f (st.src + 2 * j + 1))) :
    ∃ st', findLoop mps (t32Search f) (primitivityOp none) 127000 fuel st = some (.ret true st') ∧ st'.src = st.src + 2 * i + 2 ∧
      par32 st'.rand = (f (st.src + 2 * i), f (st.src + 2 * i + 1), st.rand.tmat) ∧ ¬ Zero32 st'.rand ∧ Primitive2 st'.poly 127 := by
  induction fuel generalizing st i with
  | zero => omega
  | succ fuel ih =>
    unfold findLoop
    rcases start_first (f := f) hm 127000 st with ⟨k, st', g1, g2, g3, g4, -, g6, g7, g8, g9⟩ | ⟨g1, st', g2, -, g4, g5⟩
    · have hk : k = i := by
        rcases lt_trichotomy k i with h | h | h
        · exact absurd g3 (h2 k h)
        · exact h
        · exact absurd h1 (g4 i h)
      subst hk
      rw [g2]
      exact ⟨st', rfl, g6, g7, g8, g9⟩
    · rw [g2]
      have hle : 127000 ≤ i := by
        by_contra hc
        exact g1 i (by omega) h1
      obtain ⟨k, rfl⟩ : ∃ k, i = k + 127000 := ⟨i - 127000, by omega⟩
      have hsrc : ∀ j, st'.src + 2 * j = st.src + 2 * (j + 127000) := fun j => by rw [g4]; ring
      obtain ⟨st'', q1, q2, q3, q4⟩ := ih st' (i := k) (by omega) (by rw [hsrc]; exact h1) (fun j hj => by
        rw [hsrc]; exact h2 (j + 127000) (by omega))
      rw [hsrc, g5] at q3
      exact ⟨st'', q1, by omega, q3, q4⟩

/-! ## The measured defect and the tempering search -/

/-- Specification: `d` is the sum of the dimension defects of the outputs, over the states reachable from `r`. -/
def IsDefect32 (r : T32) (d : ℤ) : Prop :=
  ∃ k : ℕ → ℕ, (∀ v, 1 ≤ v → v ≤ 32 →
      IsGreatest {k | Equidist (TinyMT.T r.obj) (TinyMT.O r.obj) (cyc (TinyMT.T r.obj) (den32 r)) v k} (k v)) ∧
    d = ∑ v ∈ Finset.Icc 1 32, ((127 / v : ℕ) - (k v : ℤ))

theorem isDefect32_unique {r : T32} {d e : ℤ} (h1 : IsDefect32 r d) (h2 : IsDefect32 r e) : d = e := by
  obtain ⟨k, hk, rfl⟩ := h1
  obtain ⟨k', hk', rfl⟩ := h2
  apply Finset.sum_congr rfl
  intro v hv
  rw [Finset.mem_Icc] at hv
  rw [(hk v hv.1 hv.2).unique (hk' v hv.1 hv.2)]

theorem t32Measure_spec (veq : ℕ → ℕ) (r : T32) : ∃ d, t32Measure veq 32 r = some d ∧ IsDefect32 r d := by
  obtain ⟨hm, hc0, hd⟩ := charpoly_hyps (TinyMT.T r.obj) (den32 r)
  rw [TinyMT.finrank_S] at hd
  obtain ⟨q, e1, e2, -, e4⟩ := getAllEquidist_correct (t32_linGen r) (g := r) ⟨rfl, rfl, rfl, rfl⟩ hm hc0
    (by rw [hd]; decide) (stateBitSize := 127) (by omega) Util.isCalc1pos_32 (bitLen := 32) (by omega)
    (by omega) (fuel := 32 * ((32 + 1) * 127) + 32 + 1) (by rw [hd]) veq
  refine ⟨q.sum, ?_, fun v => q.veq (v - 1), e2, e4⟩
  unfold t32Measure
  rw [e1]

theorem isDefect32_le {r : T32} {d : ℤ} (h : IsDefect32 r d) : d ≤ 127 * 32 := by
  obtain ⟨k, -, rfl⟩ := h
  calc _ ≤ ∑ _v ∈ Finset.Icc 1 32, (127 : ℤ) := Finset.sum_le_sum fun v _ => by
          have : 127 / v ≤ 127 := Nat.div_le_self _ _
          omega
    _ = _ := by simp

theorem t32_setPat_set (m p p' : BitVec 32) (i : ℕ) (r : T32) : t32SetPat m p i (t32SetPat m p' i r) = t32SetPat m p i r := by
  unfold t32SetPat
  dsimp only
  congr 1
  apply BitVec.eq_of_getLsbD_eq
  intro j hj
  simp only [BitVec.getLsbD_or, BitVec.getLsbD_and, BitVec.getLsbD_not, hj, decide_true, Bool.true_and]
  cases m.getLsbD j <;> simp

theorem t32_setPat_same (m : BitVec 32) (i : ℕ) (r : T32) : t32SetPat m (r.tmat &&& m) i r = r := by
  unfold t32SetPat
  have : (r.tmat &&& ~~~ m) ||| (r.tmat &&& m &&& m) = r.tmat := by
    apply BitVec.eq_of_getLsbD_eq
    intro j hj
    simp only [BitVec.getLsbD_or, BitVec.getLsbD_and, BitVec.getLsbD_not, hj, decide_true, Bool.true_and]
    cases m.getLsbD j <;> simp
  rw [this]

theorem t32_contract (veq : ℕ → ℕ) : TemperContract (t32Temper veq) 1 (fun _ => True) (fun r _ => r.tmat) where
  set_inv _ _ _ _ _ _ := trivial
  set_set m p p' i r _ _ := t32_setPat_set m p p' i r
  set_par _ _ _ _ _ _ := rfl
  set_par_ne _ _ _ _ _ _ _ _ _ := by omega
  set_same m i r _ _ := t32_setPat_same m i r
  setUp_setUp _ := rfl
  setUp_inv _ _ := trivial
  delta_le r _ := by
    obtain ⟨d, h1, h2⟩ := t32Measure_spec veq r
    exact ⟨d, h1, isDefect32_le h2⟩

theorem t32_reached (veq : ℕ → ℕ) {r t : T32} (h : Reached (t32Temper veq) 1 r t) : t = { r with tmat := t.tmat } := by
  induction h with
  | refl => rfl
  | step m p i t hi _ ih =>
    show t32SetPat m p i t = _
    rw [ih]
    rfl

/-- A tempering search ends, changes nothing but the tempering parameter, and does not increase the defect. -/
theorem t32_temper (veq : ℕ → ℕ) (P : PBPar) (hP : P.bitLen = 32) (hn : P.paramNum = 1) (hL : P.tryLen ≤ 32) (h1 : 1 ≤ P.step)
    (h31 : P.step < 31) (r : T32) :
    ∃ t, partialBitPattern (t32Temper veq) P (P.tryLen + 1) r = some t ∧ t = { r with tmat := t.tmat } ∧
      ∃ d e, IsDefect32 r d ∧ IsDefect32 t e ∧ e ≤ d := by
  obtain ⟨t, ht, hb⟩ := partialBitPattern_correct (t32_contract veq) P hP hn.le hL h1 h31 r trivial
  have e0 : (if P.lsb then (t32Temper veq).setRev r else (t32Temper veq).resetRev r) = r := by cases P.lsb <;> rfl
  rw [e0] at hb
  refine ⟨t, ht, t32_reached veq hb.reached, ?_⟩
  obtain ⟨d, e, h2, h3, h4⟩ := hb.le
  refine ⟨d, e, ?_, ?_, h4⟩
  · obtain ⟨d', h5, h6⟩ := t32Measure_spec veq r
    have : t32Measure veq 32 r = some d := h2
    rw [h5, Option.some.injEq] at this
    exact this ▸ h6
  · obtain ⟨d', h5, h6⟩ := t32Measure_spec veq t
    have : t32Measure veq 32 t = some e := h3
    rw [h5, Option.some.injEq] at this
    exact this ▸ h6

/-- Both searches, in either order. -/
theorem t32_lsb (veq : ℕ → ℕ) (r : T32) : ∃ t, partialBitPattern (t32Temper veq) stlsb32 10 r = some t ∧ t = { r with tmat := t.tmat } ∧
    ∃ d e, IsDefect32 r d ∧ IsDefect32 t e ∧ e ≤ d := t32_temper veq stlsb32 rfl rfl (by decide) (by decide) (by decide) r

theorem t32_msb (veq : ℕ → ℕ) (r : T32) : ∃ t, partialBitPattern (t32Temper veq) st32 24 r = some t ∧ t = { r with tmat := t.tmat } ∧
    ∃ d e, IsDefect32 r d ∧ IsDefect32 t e ∧ e ≤ d := t32_temper veq st32 rfl rfl (by decide) (by decide) (by decide) r

theorem t32_both (veq : ℕ → ℕ) (r : T32) : ∃ t, temperBoth veq r = some t ∧ t = { r with tmat := t.tmat } ∧
    ∃ d e, IsDefect32 r d ∧ IsDefect32 t e ∧ e ≤ d := by
  obtain ⟨t, h1, h2, d, e, h3, h4, h5⟩ := t32_lsb veq r
  obtain ⟨u, g1, g2, d', e', g3, g4, g5⟩ := t32_msb veq t
  refine ⟨u, by unfold temperBoth; rw [h1]; exact g1, by rw [g2, h2], d, e', h3, g4, ?_⟩
  have := isDefect32_unique g3 h4
  omega

/-! ## Texts -/

theorem hasText_self (p s : List Char) : hasText p (p ++ s) = true := by
  cases p with
  | nil => cases s <;> simp [hasText]
  | cons c p =>
    rw [List.cons_append, hasText, Bool.or_eq_true]
    left
    rw [List.isPrefixOf_iff_prefix, ← List.cons_append]
    exact List.prefix_append _ _

theorem hasText_append (p t s : List Char) (h : hasText p s = true) : hasText p (t ++ s) = true := by
  induction t with
  | nil => exact h
  | cons c t ih => rw [List.cons_append, hasText, ih, Bool.or_true]

theorem param_mat1 (r : T32) : hasText "mat1".toList (t32Param r) = true := by
  unfold t32Param
  rw [show "mat1:".toList = "mat1".toList ++ ":".toList from rfl]
  simp only [List.append_assoc]
  exact hasText_self _ _

theorem param_tmat (r : T32) : hasText "tmat".toList (t32Param r) = true := by
  unfold t32Param
  rw [show "\ntmat:".toList = "\n".toList ++ ("tmat".toList ++ ":".toList) from rfl]
  simp only [List.append_assoc]
  apply hasText_append
  apply hasText_append
  apply hasText_append
  apply hasText_append
  apply hasText_append
  exact hasText_self _ _

/-! ## The weight of an irreducible polynomial -/

theorem weight_lt {p : (ZMod 2)[X]} (h : Primitive2 p 127) : polyWeight p < 128 := by
  have hirr := Primitive2.irreducible (by decide) h
  by_contra hc
  have hsub : p.support ⊆ Finset.range 128 := by
    intro i hi
    have := le_natDegree_of_mem_supp i hi
    rw [h.1] at this
    exact Finset.mem_range.2 (by omega)
  have hall : p.support = Finset.range 128 := Finset.eq_of_subset_of_card_le hsub (by
    rw [Finset.card_range]; unfold polyWeight at hc; omega)
  have hev : p.eval 1 = 0 := by
    rw [eval_eq_sum, Polynomial.sum, hall]
    have : ∀ i ∈ Finset.range 128, p.coeff i * (1 : ZMod 2) ^ i = 1 := by
      intro i hi
      rw [← hall, mem_support_iff] at hi
      have h01 : ∀ z : ZMod 2, z ≠ 0 → z = 1 := by decide
      rw [one_pow, mul_one]
      exact h01 _ hi
    rw [Finset.sum_congr rfl this, Finset.sum_const, Finset.card_range, nsmul_eq_mul, mul_one]
    exact (ZMod.natCast_eq_zero_iff 128 2).2 (by norm_num)
  have h1 := natDegree_eq_of_degree_eq_some (n := 1) (degree_eq_one_of_irreducible_of_root hirr hev)
  rw [h.1] at h1
  omega

end MTT.Tests
