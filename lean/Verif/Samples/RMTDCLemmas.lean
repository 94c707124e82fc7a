import Verif.Samples.RMTDC
import Verif.Samples.RMTToolsProps
import Verif.Search.ReducibleRTProps
import Verif.Temper.Props
import Verif.Parity.Props

/-!
# Helper lemmas for C88
-/

namespace MTT.RMT

open Polynomial PIS Search Temper Parity

variable {n mexp : ℕ}

/-! ### The tempering search -/

theorem measure_eq (veq : ℕ → ℕ) {s : St} (hs : Inv n s) : ∃ d, measure veq n 64 s = some d ∧ d ≤ (n * 64 : ℕ) * 64 := by
  obtain ⟨q, e1, -, e3⟩ := equidist hs veq
  refine ⟨q.sum, ?_, ?_⟩
  · unfold measure
    rw [show 64 * ((64 + 1) * (n * 64)) + 64 + 1 = 64 * (65 * (n * 64)) + 65 from rfl, e1]
  · rw [e3]
    calc ∑ v ∈ Finset.Icc 1 64, ((n * 64 / v : ℕ) - (q.veq (v - 1) : ℤ))
        ≤ ∑ _v ∈ Finset.Icc 1 64, ((n * 64 : ℕ) : ℤ) := Finset.sum_le_sum fun v _ => by
          have : n * 64 / v ≤ n * 64 := Nat.div_le_self _ _
          omega
      _ = _ := by rw [Finset.sum_const, Nat.card_Icc]; simp; ring

/-- The two masks by number. -/
def maskOf (s : St) (i : ℕ) : BitVec 64 := if i = 0 then s.maskb else s.maskc

theorem temperContract (veq : ℕ → ℕ) : TemperContract (temperOps veq n) 2 (Inv n) maskOf where
  set_inv m p i s _ hs := by
    obtain ⟨-, -, -, b, c, e⟩ := setPat_spec m p i s
    show Inv n (setTemperingPattern m p i s)
    rw [e]
    exact ⟨hs.size, hs.index, hs.pos⟩
  set_set m p p' i s _ _ := (setPat_spec m p i s).2.2.1 p'
  set_par m p i s _ _ := by
    show maskOf (setTemperingPattern m p i s) i = _
    unfold maskOf setTemperingPattern
    split <;> rfl
  set_par_ne m p i j s hi hj hne _ := by
    show maskOf (setTemperingPattern m p i s) j = _
    unfold maskOf setTemperingPattern
    by_cases h : i = 0
    · rw [if_pos h]
      by_cases h' : j = 0
      · omega
      · rw [if_neg h', if_neg h']
    · rw [if_neg h]
      by_cases h' : j = 0
      · rw [if_pos h', if_pos h']
      · omega
  set_same m i s _ _ := by
    have key : ∀ x : BitVec 64, (x &&& ~~~ m) ||| ((x &&& m) &&& m) = x := by
      intro x
      apply BitVec.eq_of_getLsbD_eq
      intro k hk
      simp only [BitVec.getLsbD_or, BitVec.getLsbD_and, BitVec.getLsbD_not, hk, decide_true, Bool.true_and]
      cases m.getLsbD k <;> simp
    show setTemperingPattern m (maskOf s i &&& m) i s = s
    unfold maskOf setTemperingPattern
    by_cases h : i = 0
    · rw [if_pos h, if_pos h, key]
    · rw [if_neg h, if_neg h, key]
  setUp_setUp _ := rfl
  setUp_inv _ hs := hs
  delta_le _ hs := measure_eq veq hs

/-- The tempering search ends normally and changes only the masks. -/
theorem st_spec (veq : ℕ → ℕ) {s : St} (hs : Inv n s) (hrev : s.rev = false) :
    ∃ b c, partialBitPattern (temperOps veq n) st64 64 s = some { s with maskb := b, maskc := c } := by
  have e0 : (if st64.lsb then (temperOps veq n).setRev s else (temperOps veq n).resetRev s) = s := by
    show resetReverse s = s
    unfold resetReverse
    rw [← hrev]
  obtain ⟨t, ht, hb⟩ := partialBitPattern_correct (temperContract (n := n) veq) st64 rfl (by decide) (by decide) (by decide) (by decide)
    s (by rw [e0]; exact hs)
  rw [e0] at hb
  have key : ∀ t, Reached (temperOps veq n) 2 s t → ∃ b c, t = { s with maskb := b, maskc := c } := by
    intro t ht
    induction ht with
    | refl => exact ⟨s.maskb, s.maskc, rfl⟩
    | step m p i t hi _ ih =>
      obtain ⟨b, c, rfl⟩ := ih
      obtain ⟨-, -, -, b', c', e⟩ := setPat_spec m p i { s with maskb := b, maskc := c }
      exact ⟨b', c', e⟩
  obtain ⟨b, c, rfl⟩ := key t hb.reached
  refine ⟨b, c, ht.trans ?_⟩
  show some (resetReverse { s with maskb := b, maskc := c }) = _
  unfold resetReverse
  rw [← hrev]

/-! ### The search for a recursion -/

/-- Objects of the program. -/
structure SInv (mexp : ℕ) (s : St) : Prop where
  inv : Inv (mexp / 64 + 1) s
  rev : s.rev = false
  mexp_eq : s.mexp = mexp

theorem linGenS (p : Par) : LinGen (ops (mexp / 64 + 1)) (fun s => SInv mexp s ∧ par s = p) (den (mexp / 64 + 1))
    (T (mexp / 64 + 1) p) (O (mexp / 64 + 1) p) := by
  have L : ∀ s, SInv mexp s ∧ par s = p → LinGen (ops (mexp / 64 + 1)) (fun s => Inv (mexp / 64 + 1) s ∧ par s = p)
      (den (mexp / 64 + 1)) (T (mexp / 64 + 1) p) (O (mexp / 64 + 1) p) :=
    fun s hs => linGen p (by rw [← hs.2]; exact hs.1.rev)
  exact
    { gen_inv := fun s hs => ⟨⟨((L s hs).gen_inv s ⟨hs.1.inv, hs.2⟩).1, hs.1.rev, hs.1.mexp_eq⟩,
        ((L s hs).gen_inv s ⟨hs.1.inv, hs.2⟩).2⟩
      gen_den := fun s hs => (L s hs).gen_den s ⟨hs.1.inv, hs.2⟩
      gen_out := fun s hs => (L s hs).gen_out s ⟨hs.1.inv, hs.2⟩
      genV_inv := fun v s h1 h2 hs => ⟨⟨((L s hs).genV_inv v s h1 h2 ⟨hs.1.inv, hs.2⟩).1, hs.1.rev, hs.1.mexp_eq⟩,
        ((L s hs).genV_inv v s h1 h2 ⟨hs.1.inv, hs.2⟩).2⟩
      genV_den := fun v s h1 h2 hs => (L s hs).genV_den v s h1 h2 ⟨hs.1.inv, hs.2⟩
      genV_out := fun v s h1 h2 hs => (L s hs).genV_out v s h1 h2 ⟨hs.1.inv, hs.2⟩
      add_inv := fun a b ha hb => ⟨⟨((L a ha).add_inv a b ⟨ha.1.inv, ha.2⟩ ⟨hb.1.inv, hb.2⟩).1, ha.1.rev,
        ha.1.mexp_eq⟩, ((L a ha).add_inv a b ⟨ha.1.inv, ha.2⟩ ⟨hb.1.inv, hb.2⟩).2⟩
      add_den := fun a b ha hb => (L a ha).add_den a b ⟨ha.1.inv, ha.2⟩ ⟨hb.1.inv, hb.2⟩
      zero_inv := fun s hs => ⟨⟨((L s hs).zero_inv s ⟨hs.1.inv, hs.2⟩).1, hs.1.rev, hs.1.mexp_eq⟩,
        ((L s hs).zero_inv s ⟨hs.1.inv, hs.2⟩).2⟩
      zero_den := fun s hs => (L s hs).zero_den s ⟨hs.1.inv, hs.2⟩ }

theorem setUp_inv {s : St} (h : SInv mexp s) (a b : BitVec 64) : SInv mexp (setUpParam a b s) :=
  ⟨⟨h.inv.size, h.inv.index, by
    show a.toNat % s.size < _
    rw [h.inv.size]; exact Nat.mod_lt _ (by omega)⟩, h.rev, h.mexp_eq⟩

theorem seed_sinv {s : St} (h : SInv mexp s) : SInv mexp (seed 1 s) :=
  ⟨⟨h.inv.size, by show s.size - 1 < _; rw [h.inv.size]; omega, h.inv.pos⟩, h.rev, h.mexp_eq⟩

theorem family (mexp : ℕ) : Family (searchOps mexp) (SInv mexp) par (den (mexp / 64 + 1)) (T (mexp / 64 + 1))
    (O (mexp / 64 + 1)) where
  lin := linGenS
  dim := finrank_S _
  pos := by show 1 ≤ (mexp / 64 + 1) * 64; omega
  wpos := by omega
  setUp_inv s f s' f' h h' := by
    injection h' with h'
    injection h' with h1 h2
    subst h1
    exact setUp_inv h _ _
  seed_inv s h := seed_sinv h
  seed_par s _ := rfl

/-- What is known when `start` returns true: the state of the search, and the object it seeded. -/
structure Found (mexp : ℕ) (st : RSt St (ℕ → BitVec 64)) : Prop where
  inv : SInv mexp st.rand
  irr : Irreducible st.irreducible
  deg : st.irreducible.natDegree = mexp
  origin : ∃ r p, SInv mexp r ∧ par r = par st.rand ∧ IsSeqMinpoly p (Search.bitAt (ops (mexp / 64 + 1)) (seed 1 r) 0) ∧
    st.irreducible ∣ p ∧ st.rand = stateAt (ops (mexp / 64 + 1)) (seed 1 r) (2 * ((mexp / 64 + 1) * 64))

variable {mps : MPS}

theorem rTry_spec (hm : MinPolySeqSpec mps) (h1 : 1 ≤ mexp) (st : RSt St (ℕ → BitVec 64)) (hs : SInv mexp st.rand) :
    ∃ b st', rTryOnce mps (searchOps mexp) mexp st = .ret b st' ∧ SInv mexp st'.rand ∧ (b = true → Found mexp st') := by
  rcases rTryOnce_correct hm (family mexp) h1 st hs with ⟨h, -⟩ | ⟨r, src, st', b, g1, g2, -, -, g5, g6, g7, g8, g9, -⟩
  · cases h
  · refine ⟨b, st', g2, g6, fun hb => ?_⟩
    obtain ⟨k1, k2, k3⟩ := g9 hb
    exact ⟨g6, k1, k2, r, st'.poly, (family mexp).setUp_inv _ _ _ _ hs g1, g7.symm, g8, k3, g5⟩

theorem rStart_spec (hm : MinPolySeqSpec mps) (h1 : 1 ≤ mexp) (k : ℕ) (st : RSt St (ℕ → BitVec 64))
    (hs : SInv mexp st.rand) :
    ∃ b st', rStart mps (searchOps mexp) mexp k st = .ret b st' ∧ SInv mexp st'.rand ∧ (b = true → Found mexp st') := by
  induction k generalizing st with
  | zero => exact ⟨false, st, rfl, hs, fun h => absurd h (by decide)⟩
  | succ k ih =>
    obtain ⟨b, st1, e1, e2, e3⟩ := rTry_spec hm h1 st hs
    cases b with
    | true => exact ⟨true, st1, by simp only [rStart, e1], e2, e3⟩
    | false =>
      obtain ⟨b, st2, f1, f2, f3⟩ := ih st1 e2
      exact ⟨b, st2, by simp only [rStart, e1]; exact f1, f2, f3⟩

theorem rFind_inv (hm : MinPolySeqSpec mps) (h1 : 1 ≤ mexp) (tries fuel : ℕ) (st : RSt St (ℕ → BitVec 64))
    (hs : SInv mexp st.rand) {r : Res (RSt St (ℕ → BitVec 64))}
    (h : rFindLoop mps (searchOps mexp) mexp tries fuel st = some r) : ∃ st', r = .ret true st' ∧ Found mexp st' := by
  induction fuel generalizing st with
  | zero => cases h
  | succ fuel ih =>
    obtain ⟨b, st1, e1, e2, e3⟩ := rStart_spec hm h1 tries st hs
    rw [rFindLoop, e1] at h
    cases b with
    | false => exact ih st1 e2 h
    | true => exact ⟨st1, (Option.some.inj h).symm, e3 rfl⟩

/-- The position before the first `setUpParam` does not matter. -/
theorem rFind_spec (hm : MinPolySeqSpec mps) (h1 : 1 ≤ mexp) (tries fuel : ℕ) {g : St} (src : ℕ → BitVec 64)
    (hs : SInv mexp { g with pos := 0 }) {r : Res (RSt St (ℕ → BitVec 64))}
    (h : rFindLoop mps (searchOps mexp) mexp (tries + 1) fuel ⟨g, src, 0, 0, 0⟩ = some r) :
    ∃ st', r = .ret true st' ∧ Found mexp st' := by
  refine rFind_inv hm h1 (tries + 1) fuel ⟨{ g with pos := 0 }, src, 0, 0, 0⟩ hs ?_
  rw [← h]
  have e : rTryOnce mps (searchOps mexp) mexp ⟨{ g with pos := 0 }, src, 0, 0, 0⟩ =
      rTryOnce mps (searchOps mexp) mexp ⟨g, src, 0, 0, 0⟩ := rfl
  cases fuel with
  | zero => rfl
  | succ fuel =>
    unfold rFindLoop
    have e2 : rStart mps (searchOps mexp) mexp (tries + 1) ⟨{ g with pos := 0 }, src, 0, 0, 0⟩ =
        rStart mps (searchOps mexp) mexp (tries + 1) ⟨g, src, 0, 0, 0⟩ := by
      unfold rStart
      rw [e]
    rw [e2]

/-! ### The parity search -/

theorem setOneBitX_std : setOneBitX intOneShift = setOneBit := rfl

theorem setOneBitX_inv {one : ℕ → Option (BitVec 64)} {k : ℕ} {s t : St} (hs : Inv n s)
    (h : setOneBitX one k s = some t) : Inv n t ∧ par t = par s := by
  have hz := zero_inv hs
  unfold setOneBitX at h
  dsimp only at h
  split at h
  · injection h with h; subst h; exact hz
  · split at h
    · cases h
    · injection h with h
      subst h
      exact ⟨⟨hz.1.size, hz.1.index, hz.1.pos⟩, hz.2⟩

theorem getParity_eq {s : St} (hs : Inv n s) : getParityValue s = at' (den n s) (n - 1) := by
  have hn : 0 < n := by have := hs.pos; omega
  unfold getParityValue at'
  rw [dif_pos (by omega), hs.size, Nat.mod_eq_of_lt hs.index]
  exact Ring.read_last s.state hs.index

theorem at_shift {p : Par} (x : S n) {k : ℕ} (h : k + 1 < n) : at' (T n p x) k = at' x (k + 1) := by
  unfold at'
  rw [dif_pos (by omega), dif_pos h]
  show (shiftIn n x _ _).val = _
  unfold shiftIn
  rw [dif_pos h]

/-- The invariant of an entry of the parity search. -/
structure EOK (n : ℕ) (st : IS St 64) : Prop where
  inv : Inv n st.rg
  zero : st.zero = true → st.next = 0

theorem setStateLoop_ends (k : ℕ) : ∀ (fuel : ℕ) (st : IS St 64), 1 ≤ fuel → mexp / 64 + 1 ≤ fuel + k →
    Inv (mexp / 64 + 1) st.rg → st.zero = false → st.next = getParityValue st.rg →
    (∀ i, 1 ≤ i → i ≤ k → i < mexp / 64 + 1 → at' (den (mexp / 64 + 1) st.rg) (mexp / 64 + 1 - 1 - i) = 0) →
    ∃ st', setStateLoop (rops mexp) fuel st = some st' ∧ EOK (mexp / 64 + 1) st' ∧ (st'.zero = false → st'.next ≠ 0) := by
  intro fuel
  induction fuel generalizing k with
  | zero => intro st h; omega
  | succ fuel ih =>
    intro st _ hf hi hz hn h0
    unfold setStateLoop
    by_cases hne : st.next ≠ 0
    · rw [if_pos hne]
      exact ⟨st, rfl, ⟨hi, fun h => by rw [hz] at h; cases h⟩, fun _ => hne⟩
    · rw [if_neg hne]
      rw [not_not] at hne
      have hall : ∀ i, i ≤ k → i < mexp / 64 + 1 → at' (den (mexp / 64 + 1) st.rg) (mexp / 64 + 1 - 1 - i) = 0 := by
        intro i hik hin
        rcases Nat.eq_zero_or_pos i with rfl | hpos
        · rw [Nat.sub_zero, ← getParity_eq hi, ← hn, hne]
        · exact h0 i hpos hik hin
      by_cases hzero : (rops mexp).isZero st.rg = true
      · rw [if_pos hzero]
        exact ⟨_, rfl, ⟨hi, fun _ => hne⟩, fun h => by cases h⟩
      · rw [if_neg hzero]
        have hk : k + 1 < mexp / 64 + 1 := by
          by_contra hc
          apply hzero
          show isZero st.rg = true
          rw [isZero_iff hi]
          funext j
          have := hall (mexp / 64 + 1 - 1 - j) (by omega) (by omega)
          rw [show mexp / 64 + 1 - 1 - (mexp / 64 + 1 - 1 - (j : ℕ)) = j by have := j.2; omega] at this
          unfold at' at this
          rw [dif_pos j.2] at this
          exact Wd.ext this
        obtain ⟨⟨g1, g2⟩, g3, -⟩ := generate_spec hi
        refine ih (k + 1) _ (by omega) (by omega) g1 hz rfl ?_
        intro i i1 i2 i3
        show at' (den (mexp / 64 + 1) (generate st.rg).1) _ = 0
        rw [g3, at_shift _ (by omega)]
        rw [show mexp / 64 + 1 - 1 - i + 1 = mexp / 64 + 1 - 1 - (i - 1) by omega]
        exact hall (i - 1) (by omega) (by omega)

theorem setState_ends {st : IS St 64} (hi : Inv (mexp / 64 + 1) st.rg) :
    ∃ st', setState (rops mexp) (mexp / 64 + 1) st = some st' ∧ EOK (mexp / 64 + 1) st' ∧
      (st'.zero = false → st'.next ≠ 0) := by
  unfold setState
  by_cases h : (rops mexp).isZero st.rg = true
  · rw [if_pos h]
    exact ⟨_, rfl, ⟨hi, fun _ => rfl⟩, fun h => by cases h⟩
  · rw [if_neg h]
    exact setStateLoop_ends 0 _ _ (by omega) (by omega) (generate_spec hi).1.1 rfl rfl (fun i h1 h2 _ => by omega)

theorem countBases_update (bases : ℕ → IS St 64) (p : ℕ) (x : IS St 64) :
    countBases (Function.update bases p x) ≤ countBases bases + 1 := by
  unfold countBases
  rw [← List.countP_eq_length_filter, ← List.countP_eq_length_filter]
  have key : ∀ l : List ℕ, l.Nodup → List.countP (fun i => decide ((Function.update bases p x i).next ≠ 0)) l ≤
      List.countP (fun i => decide ((bases i).next ≠ 0)) l + 1 := by
    intro l hl
    induction l with
    | nil => simp
    | cons a l ih =>
      rw [List.nodup_cons] at hl
      by_cases ha : a = p
      · subst ha
        have : List.countP (fun i => decide ((Function.update bases a x i).next ≠ 0)) l =
            List.countP (fun i => decide ((bases i).next ≠ 0)) l := by
          apply List.countP_congr
          intro i hi
          have : i ≠ a := fun h => hl.1 (h ▸ hi)
          rw [Function.update_of_ne this]
        rw [List.countP_cons, List.countP_cons, this]
        split <;> split <;> omega
      · rw [List.countP_cons, List.countP_cons, Function.update_of_ne ha]
        have := ih hl.2
        omega
  exact key _ List.nodup_range

theorem addState_ok {a b : IS St 64} (ha : Inv n a.rg) : Inv n (addState (rops mexp) a b).rg := (add_inv ha).1

theorem addBase_ends (k : ℕ) : ∀ (bases : ℕ → IS St 64) (work : IS St 64), (∀ i, i < 64 → Inv (mexp / 64 + 1) (bases i).rg) →
    EOK (mexp / 64 + 1) work →
    ∃ bases' work', addBaseLoop (rops mexp) words64 (mexp / 64 + 1) k bases work = .ok (bases', work') ∧
      (∀ i, i < 64 → Inv (mexp / 64 + 1) (bases' i).rg) ∧ Inv (mexp / 64 + 1) work'.rg ∧
      countBases bases' ≤ countBases bases + 1 := by
  induction k with
  | zero => intro bases work hb hw; exact ⟨bases, work, rfl, hb, hw.inv, by omega⟩
  | succ k ih =>
    intro bases work hb hw
    unfold addBaseLoop
    have hst : ∃ st, (if work.next = 0 then getNextState (rops mexp) (mexp / 64 + 1) work else some work) = some st ∧
        Inv (mexp / 64 + 1) st.rg ∧ ((work.next = 0 ∧ st.zero = true) ∨ (st.zero = false ∧ st.next ≠ 0)) := by
      by_cases h0 : work.next = 0
      · rw [if_pos h0]
        unfold getNextState
        by_cases h1 : work.zero = true
        · rw [if_pos h1]
          exact ⟨work, rfl, hw.inv, Or.inl ⟨h0, h1⟩⟩
        · rw [if_neg h1]
          obtain ⟨st, e1, e2, e3⟩ := setState_ends hw.inv
          refine ⟨st, e1, e2.inv, ?_⟩
          by_cases h2 : st.zero = true
          · exact Or.inl ⟨h0, h2⟩
          · have h2 : st.zero = false := by simpa using h2
            exact Or.inr ⟨h2, e3 h2⟩
      · rw [if_neg h0]
        refine ⟨work, rfl, hw.inv, Or.inr ⟨?_, h0⟩⟩
        by_contra h1
        exact h0 (hw.zero (by simpa using h1))
    obtain ⟨st, e1, he, hor⟩ := hst
    rw [e1]
    dsimp only
    rcases hor with hc | ⟨hc, hn⟩
    · rw [if_pos hc]; exact ⟨bases, st, rfl, hb, he, by omega⟩
    · rw [if_neg (fun h1 => by rw [h1.2] at hc; exact absurd hc (by decide))]
      obtain ⟨q, hq, hlow⟩ := wordsOK64.calc1pos _ hn
      have hqw := low_lt hlow
      rw [hq, if_neg (by omega), if_neg (by omega)]
      split
      · refine ⟨_, _, rfl, fun i hi => ?_, he, countBases_update _ _ _⟩
        by_cases hip : i = (q : ℤ).toNat
        · rw [hip, Function.update_self]
          exact addState_ok (hb _ (by omega))
        · rw [Function.update_of_ne hip]
          exact hb i hi
      · refine ih _ _ hb ⟨addState_ok he, fun h1 => ?_⟩
        have h2 : st.zero = true := h1
        rw [hc] at h2; exact absurd h2 (by decide)

variable {one : ℕ → Option (BitVec 64)}

theorem annLoop_inv (f : (ZMod 2)[X]) (k : ℕ) : ∀ (i : ℕ) (a b : St), Inv n a → Inv n b →
    Inv n (Lin.annLoop (ops n) f k i a b) := by
  induction k with
  | zero => intro i a b ha _; exact ha
  | succ k ih =>
    intro i a b ha hb
    refine ih _ _ _ ?_ (generate_spec hb).1.1
    split
    · exact (add_inv ha).1
    · exact ha

theorem annihilate_inv {s : St} (hs : Inv n s) (f : (ZMod 2)[X]) : Inv n (Lin.annihilate (ops n) f s) :=
  annLoop_inv f _ _ _ _ (zero_inv hs).1 hs

/-- `calc_basis`: it ends at the first undefined shift, or goes on by at least one position and has then used every shift
between. -/
theorem calcBasis_ends (f : (ZMod 2)[X]) (k : ℕ) : ∀ (b : ℕ) (st : IS St 64), Inv (mexp / 64 + 1) st.rg → 1 ≤ k →
    (calcBasis one mexp f k b st = .error .shift ∧ ∃ r < 64, one r = none) ∨
    ∃ st' b', calcBasis one mexp f k b st = .ok (st', b') ∧ EOK (mexp / 64 + 1) st' ∧ b < b' ∧ b' ≤ b + k ∧
      ∀ j, b ≤ j → j < b' → j < (mexp / 64 + 1) * 64 → one (j % 64) ≠ none := by
  induction k with
  | zero => intro b st _ h; omega
  | succ k ih =>
    intro b st hi _
    unfold calcBasis
    cases h1 : setOneBitX one b st.rg with
    | none =>
      refine .inl ⟨rfl, b % 64, Nat.mod_lt _ (by omega), ?_⟩
      unfold setOneBitX at h1
      dsimp only at h1
      split at h1
      · cases h1
      · split at h1
        · assumption
        · cases h1
    | some rg =>
      dsimp only
      have hone : b < (mexp / 64 + 1) * 64 → one (b % 64) ≠ none := by
        intro hb hn
        unfold setOneBitX at h1
        dsimp only at h1
        rw [if_neg (by show ¬ (b / 64 ≥ st.rg.size); rw [hi.size]; omega), hn] at h1
        cases h1
      have hrg := annihilate_inv (setOneBitX_inv hi h1).1 f
      obtain ⟨st1, e1, e2, e3⟩ := setState_ends (mexp := mexp) (st := { st with rg := Lin.annihilate (ops (mexp / 64 + 1)) f rg }) hrg
      rw [e1]
      dsimp only
      by_cases hz : st1.zero = true
      · rw [if_pos hz]
        rcases Nat.eq_zero_or_pos k with rfl | hk
        · refine .inr ⟨st1, b + 1, rfl, e2, by omega, by omega, fun j h1 h2 h3 => ?_⟩
          obtain rfl : j = b := by omega
          exact hone h3
        · rcases ih (b + 1) st1 e2.inv hk with h | ⟨st', b', g1, g2, g3, g4, g5⟩
          · exact .inl h
          · refine .inr ⟨st', b', g1, g2, by omega, by omega, fun j h1 h2 h3 => ?_⟩
            by_cases hj : j = b
            · subst hj; exact hone h3
            · exact g5 j (by omega) h2 h3
      · rw [if_neg hz]
        refine .inr ⟨st1, b + 1, rfl, e2, by omega, by omega, fun j h1 h2 h3 => ?_⟩
        obtain rfl : j = b := by omega
        exact hone h3

theorem searchLoop_ends (f : (ZMod 2)[X]) (baseNum : ℕ) (k : ℕ) : ∀ (b : ℕ) (bases : ℕ → IS St 64) (work : IS St 64),
    (∀ i, i < 64 → Inv (mexp / 64 + 1) (bases i).rg) → Inv (mexp / 64 + 1) work.rg → countBases bases < baseNum →
    b ≤ (mexp / 64 + 1) * 64 → (mexp / 64 + 1) * 64 ≤ b + k →
    (searchLoop one mexp f baseNum k b bases work = .error .shift ∧ ∃ r < 64, one r = none) ∨
    ∃ bases' b', searchLoop one mexp f baseNum k b bases work = .ok bases' ∧ countBases bases' ≤ baseNum ∧ b ≤ b' ∧
      countBases bases' ≤ countBases bases + (b' - b) ∧ b' ≤ (mexp / 64 + 1) * 64 ∧
      (b' = (mexp / 64 + 1) * 64 ∨ baseNum ≤ countBases bases') ∧ ∀ j, b ≤ j → j < b' → one (j % 64) ≠ none := by
  induction k with
  | zero =>
    intro b bases work hb hw hc h1 h2
    unfold searchLoop
    rw [if_neg (by omega)]
    exact .inr ⟨bases, b, rfl, by omega, le_rfl, by omega, h1, .inl (by omega), fun j _ _ => by omega⟩
  | succ k ih =>
    intro b bases work hb hw hc h1 h2
    unfold searchLoop
    by_cases hbn : b < (mexp / 64 + 1) * 64
    · rw [if_pos hbn]
      rcases calcBasis_ends (one := one) (mexp := mexp) f ((mexp / 64 + 1) * 64 - b) b work hw (by omega) with ⟨e, h⟩ | ⟨st, b', e1, e2, e3, e4, e5⟩
      · rw [e]; exact .inl ⟨rfl, h⟩
      · rw [e1]
        dsimp only
        obtain ⟨bases1, work1, g1, g2, g3, g4⟩ := addBase_ends (mexp := mexp) (64 * 10 + 1) bases st hb e2
        rw [show addBase (rops mexp) words64 (mexp / 64 + 1) bases st = _ from g1]
        dsimp only
        split
        · next h =>
          exact .inr ⟨bases1, b', rfl, by omega, by omega, by omega, by omega, .inr (by exact_mod_cast h), fun j h1 h2 => e5 j h1 h2 (by omega)⟩
        · next h =>
          rcases ih b' bases1 work1 g2 g3 (by omega) (by omega) (by omega) with ⟨q1, q2⟩ | ⟨bases', b'', q1, q2, q3, q4, q5, q6, q7⟩
          · exact .inl ⟨q1, q2⟩
          · refine .inr ⟨bases', b'', q1, q2, by omega, by omega, q5, q6, fun j h1 h2 => ?_⟩
            by_cases hj : j < b'
            · exact e5 j h1 hj (by omega)
            · exact q7 j (by omega) h2
    · rw [if_neg hbn]
      exact .inr ⟨bases, b, rfl, by omega, le_rfl, by omega, h1, .inl (by omega), fun j _ _ => by omega⟩

/-- A matrix with more rows than columns has a kernel. -/
theorem checkVector_ok {kernel : KernelFn} (hK : KernelSpec kernel) (junk : BitVec 64) (bases : ℕ → IS St 64) {size : ℕ}
    (h1 : countBases bases ≤ size) (h2 : size < 64) :
    ∃ parity, searchParityCheckVector words64 kernel junk bases size = .ok parity := by
  have hlen := columns_length bases
  unfold searchParityCheckVector
  rw [if_neg (by omega)]
  generalize hA : matrix words64 junk (size : ℤ).toNat (columns bases) = A
  generalize hsz : (size : ℤ).toNat = size' at A hA
  cases hk : kernel 64 size' A with
  | cons x rest => exact ⟨_, rfl⟩
  | nil =>
    exfalso
    let L : (Fin 64 → ZMod 2) →ₗ[ZMod 2] (Fin size' → ZMod 2) :=
      { toFun := fun x j => ∑ i, x i * A i j
        map_add' := fun x y => by funext j; simp only [Pi.add_apply, add_mul, Finset.sum_add_distrib]
        map_smul' := fun c x => by
          funext j
          simp only [Pi.smul_apply, smul_eq_mul, mul_assoc, ← Finset.mul_sum, RingHom.id_apply] }
    have hL : ¬ Function.Injective L := fun hinj => by
      have := LinearMap.finrank_le_finrank_of_injective hinj
      rw [Module.finrank_fintype_fun_eq_card, Module.finrank_fintype_fun_eq_card, Fintype.card_fin, Fintype.card_fin] at this
      omega
    apply hL
    rw [← LinearMap.ker_eq_bot, LinearMap.ker_eq_bot']
    intro x hx
    have h3 := (hK.ker 64 size' A x).2 fun j => congrFun hx j
    rw [hk] at h3
    have h4 : Set.range ([] : List (Fin 64 → ZMod 2)).get = ∅ := by
      ext y; simp
    rw [h4, Submodule.span_empty] at h3
    exact h3

/-- The parity search ends with a vector or with an undefined shift; with the shifts of the standard, with the latter if more
than 32 base vectors are needed. -/
theorem searchParity_ends {kernel : KernelFn} (hK : KernelSpec kernel) (hmod : mexp % 64 ≠ 0) (junk : BitVec 64) {g : St}
    (hg : Inv (mexp / 64 + 1) g) (f : (ZMod 2)[X]) :
    ((searchParity one mexp kernel junk g f = .error .shift ∧ ∃ r < 64, one r = none) ∨
      ∃ v, searchParity one mexp kernel junk g f = .ok (v, setParityValue v g)) ∧
    (one = intOneShift → mexp + 33 ≤ (mexp / 64 + 1) * 64 → searchParity one mexp kernel junk g f = .error .shift) := by
  obtain ⟨baseNum, hbn⟩ : ∃ k : ℕ, mexp + k = (mexp / 64 + 1) * 64 := ⟨(mexp / 64 + 1) * 64 - mexp, by omega⟩
  have hb : (((mexp / 64 + 1) * 64 : ℕ) : ℤ) - (mexp : ℤ) = baseNum := by omega
  have hc0 : countBases (fun _ => (⟨true, 0, setZero g⟩ : IS St 64)) = 0 := by
    unfold countBases
    simp
  have hz := (zero_inv hg).1
  unfold searchParity
  dsimp only
  rw [hb]
  rcases searchLoop_ends (one := one) (mexp := mexp) f baseNum ((mexp / 64 + 1) * 64) 0 (fun _ => ⟨true, 0, setZero g⟩) ⟨true, 0, setZero g⟩
    (fun _ _ => hz) hz (by rw [hc0]; omega) (by omega) (by omega) with ⟨e1, e2⟩ | ⟨bases, b', e1, e2, -, e4, e5, e6, e7⟩
  · rw [e1]
    exact ⟨.inl ⟨rfl, e2⟩, fun _ _ => rfl⟩
  · rw [e1]
    dsimp only
    obtain ⟨v, hv⟩ := checkVector_ok hK junk bases e2 (by omega)
    rw [hv]
    refine ⟨.inr ⟨v, rfl⟩, fun hone h33 => ?_⟩
    exfalso
    rw [hc0] at e4
    have h32 : b' ≤ 32 := by
      by_contra hlt
      refine e7 32 (by omega) (by omega) ?_
      rw [hone]
      rfl
    omega

end MTT.RMT
