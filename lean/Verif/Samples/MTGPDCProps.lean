import Verif.Samples.MTGPDC
import Verif.Samples.MTGPProps
import Verif.Temper.Props
import Verif.Search.RTProps

/-!
# C35, C57, C59, C61 for `mtgp32` and the program `MTGP32dc`
-/

namespace MTT.MTGP

open Polynomial PIS Search Temper
open MTRec (upper)

variable {n r : ℕ}

/-! ### The measured defect -/

/-- Specification: `d` is the sum of the dimension defects of the outputs of the generator, in its output order,
over the states reachable from `s`. -/
def IsDefect (n r : ℕ) (s : St) (d : ℤ) : Prop :=
  ∃ k : ℕ → ℕ, (∀ v, 1 ≤ v → v ≤ 32 → IsGreatest {k | Equidist (T n r (par s))
      (if s.rev then OR n r (par s) else O n r (par s)) (cyc (T n r (par s)) (den n r s)) v k} (k v)) ∧
    d = ∑ v ∈ Finset.Icc 1 32, ((s.mexp / v : ℕ) - (k v : ℤ))

/-- **C59 for `mtgp32`**: the measured value is the defect in the current output order. -/
theorem measure_spec (J : Junk) {s : St} (hs : Inv n r s) : ∃ d, measure J 32 s = some d ∧ IsDefect n r s d := by
  have hc : Inv n r (clone J.cmask s) :=
    ⟨hs.size, hs.mexp, hs.rlt, hs.idx, hs.mask, hs.pos2, hs.posn, hs.p, hs.tp⟩
  obtain ⟨q, e1, e2, e3⟩ := equidist hc J.veq
  refine ⟨q.sum, ?_, fun v => q.veq (v - 1), e2, e3⟩
  unfold measure
  rw [show (32 : ℕ) * ((32 + 1) * s.mexp) + 32 + 1 = 32 * (33 * s.mexp) + 33 from rfl]
  have e1' : getAllEquidist (ops s.mexp) Util.calc1posWrap32 (clone J.cmask s) 32 s.mexp
    (32 * (33 * s.mexp) + 33) J.veq = .ok q := e1
  rw [e1']

theorem isDefect_le {s : St} {d : ℤ} (h : IsDefect n r s d) : d ≤ s.mexp * 32 := by
  obtain ⟨k, -, rfl⟩ := h
  calc _ ≤ ∑ _v ∈ Finset.Icc 1 32, (s.mexp : ℤ) := Finset.sum_le_sum fun v _ => by
          have : s.mexp / v ≤ s.mexp := Nat.div_le_self _ _
          omega
    _ = _ := by simp [mul_comm]

theorem isDefect_unique {s : St} {d e : ℤ} (h1 : IsDefect n r s d) (h2 : IsDefect n r s e) : d = e := by
  obtain ⟨k, hk, rfl⟩ := h1
  obtain ⟨k', hk', rfl⟩ := h2
  apply Finset.sum_congr rfl
  intro v hv
  rw [Finset.mem_Icc] at hv
  rw [(hk v hv.1 hv.2).unique (hk' v hv.1 hv.2)]

/-! ### The tempering searches -/

theorem setUp_inv {s : St} (hs : Inv n r s) (t : ℕ → BitVec 32) : Inv n r (setUpTempering { s with tmp := t }) :=
  ⟨hs.size, hs.mexp, hs.rlt, hs.idx, hs.mask, hs.pos2, hs.posn, hs.p, (setUpTempering_spec { s with tmp := t }).1⟩

theorem setUp_tp (s : St) (tp : ℕ → BitVec 32) (h : ∀ i, 16 ≤ i → tp i = s.tp i) :
    setUpTempering { s with tp := tp } = setUpTempering s := by
  have : (setUpTempering { s with tp := tp }).tp = (setUpTempering s).tp := by
    funext i
    show fillTable _ _ 16 i = fillTable _ _ 16 i
    rw [fillTable_spec, fillTable_spec]
    by_cases hi : i < 16
    · rw [if_pos hi, if_pos hi]
    · rw [if_neg hi, if_neg hi, if_neg hi, if_neg hi]
      exact h i (by omega)
  unfold setUpTempering at this ⊢
  dsimp only at this ⊢
  rw [this]

theorem setUp_ge (s : St) (i : ℕ) (hi : 16 ≤ i) : (setUpTempering s).tp i = s.tp i := by
  show fillTable _ _ 16 i = _
  rw [fillTable_spec, if_neg (by omega), if_neg (by omega)]

theorem setPat_setUp (m p : BitVec 32) (i : ℕ) (s : St) :
    setUpTempering (setTemperingPattern m p i (setUpTempering s)) =
      setUpTempering (setTemperingPattern m p i s) :=
  setUp_tp (setTemperingPattern m p i s) (setUpTempering s).tp (fun j hj => setUp_ge s j hj)

/-- **C35** for `mtgp32`: the class meets the contract of the tempering search, with four parameters. -/
theorem temperContract (J : Junk) {mexp : ℕ} (hm : mexp + r = 32 * n) :
    TemperContract (temperOps J mexp) 4 (Inv n r) St.tmp where
  set_inv m p i s _ hs := setUp_inv hs _
  set_set m p p' i s _ _ := by
    show setUpTempering (setTemperingPattern m p i (setUpTempering (setTemperingPattern m p' i s))) = _
    rw [setPat_setUp, (setPat_spec m p i s).2.1]
    rfl
  set_par m p i s _ _ := by
    show Function.update s.tmp i _ i = _
    rw [Function.update_self]
  set_par_ne m p i j s _ _ hne _ := by
    show Function.update s.tmp i _ j = _
    rw [Function.update_of_ne hne]
  set_same m i s _ _ := by
    have : (setTemperingPattern m (s.tmp i &&& m) i s) = s := by
      have h : Function.update s.tmp i ((s.tmp i &&& ~~~ m) ||| ((s.tmp i &&& m) &&& m)) = s.tmp := by
        rw [Function.update_eq_self_iff]
        apply BitVec.eq_of_getLsbD_eq
        intro k hk
        rw [setBits _ _ _ _ hk, BitVec.getLsbD_and]
        cases m.getLsbD k <;> simp
      unfold setTemperingPattern
      rw [h]
    show setUpTempering (setTemperingPattern m (s.tmp i &&& m) i s) = setUpTempering s
    rw [this]
  setUp_setUp s := setUp_tp s (setUpTempering s).tp (setUp_ge s)
  setUp_inv s hs := setUp_inv hs s.tmp
  delta_le s hs := by
    obtain ⟨d, h1, h2⟩ := measure_spec J hs
    have h3 := isDefect_le h2
    have h4 := hs.mexp
    obtain rfl : s.mexp = mexp := by omega
    exact ⟨d, h1, h3⟩

/-- The same object apart from the tempering tables. -/
def SameRec (s t : St) : Prop := t = { s with tmp := t.tmp, tp := t.tp }

theorem sameRec_reached (J : Junk) {mexp : ℕ} {s t : St} (h : Reached (temperOps J mexp) 4 s t) :
    SameRec s t := by
  induction h with
  | refl => rfl
  | step m p i t hi _ ih =>
    unfold SameRec at ih ⊢
    show setUpTempering (setTemperingPattern m p i t) = _
    rw [ih]
    rfl

/-- A tempering search ends normally, changes only the tempering tables, and does not make the defect (in the
order it looks at) greater. -/
theorem st_spec (J : Junk) {mexp : ℕ} (hm : mexp + r = 32 * n) (P : PBPar) (hP : P.bitLen = 32)
    (hn : P.paramNum = 4) (hL : P.tryLen ≤ 32) (h1 : 1 ≤ P.step) (h31 : P.step < 31) (s : St) (hs : Inv n r s)
    (hrev : s.rev = false) :
    ∃ t, partialBitPattern (temperOps J mexp) P (P.tryLen + 1) s = some t ∧ SameRec s t ∧ Inv n r t ∧
      ∃ d e, IsDefect n r { s with rev := P.lsb } d ∧ IsDefect n r { t with rev := P.lsb } e ∧ e ≤ d := by
  have hs' : Inv n r { s with rev := P.lsb } :=
    ⟨hs.size, hs.mexp, hs.rlt, hs.idx, hs.mask, hs.pos2, hs.posn, hs.p, hs.tp⟩
  have he : (if P.lsb then setReverse s else resetReverse s) = { s with rev := P.lsb } := by
    cases P.lsb <;> rfl
  obtain ⟨t, ht, hb⟩ := partialBitPattern_correct (temperContract J hm) P hP hn.le hL h1 h31 s
    (by
      show Inv n r (if P.lsb then setReverse s else resetReverse s)
      rw [he]; exact hs')
  have hb' : Better (temperOps J mexp) (Inv n r) St.tmp 4 P.lsb P.tryLen { s with rev := P.lsb } t := by
    rw [← he]; exact hb
  have hr := sameRec_reached J hb'.reached
  have ht' := hb'.inv
  have hi : Inv n r (resetReverse t) :=
    ⟨ht'.size, ht'.mexp, ht'.rlt, ht'.idx, ht'.mask, ht'.pos2, ht'.posn, ht'.p, ht'.tp⟩
  refine ⟨resetReverse t, ht, ?_, hi, ?_⟩
  · unfold SameRec at hr ⊢
    rw [hr]
    simp only [resetReverse, hrev]
  · obtain ⟨d, e, h2, h3, h4⟩ := hb'.le
    have same : ∀ a : St, Inv n r a → ∀ d, measure J 32 (setUpTempering a) = some d → IsDefect n r a d := by
      intro a ha d hd
      obtain ⟨d', g1, g2⟩ := measure_spec J (setUp_inv ha a.tmp)
      have : some d' = some d := g1.symm.trans hd
      injection this with this
      exact this ▸ g2
    refine ⟨d, e, same _ hs' d h2, ?_, h4⟩
    have hrt : t.rev = P.lsb := by rw [hr]
    have : ({ resetReverse t with rev := P.lsb } : St) = t := by rw [← hrt]; rfl
    rw [this]
    exact same _ ht' e h3

/-- **C61.**  The two searches of the program: the first does not make the defect of the output (most significant bit
first) greater, the second does not make the defect of the output read from the least significant bit greater. -/
theorem searches_improve (J : Junk) {mexp : ℕ} (hm : mexp + r = 32 * n) (s : St) (hs : Inv n r s) (hrev : s.rev = false) :
    (∃ t, partialBitPattern (temperOps J mexp) st32 24 s = some t ∧ SameRec s t ∧
      ∃ d e, IsDefect n r { s with rev := false } d ∧ IsDefect n r { t with rev := false } e ∧ e ≤ d) ∧
    (∃ t, partialBitPattern (temperOps J mexp) stlsb32 10 s = some t ∧ SameRec s t ∧
      ∃ d e, IsDefect n r { s with rev := true } d ∧ IsDefect n r { t with rev := true } e ∧ e ≤ d) := by
  obtain ⟨t, t1, t2, -, t3⟩ := st_spec J hm st32 rfl rfl (by decide) (by decide) (by decide) s hs hrev
  obtain ⟨t', t1', t2', -, t3'⟩ := st_spec J hm stlsb32 rfl rfl (by decide) (by decide) (by decide) s hs hrev
  exact ⟨⟨t, t1, t2, t3⟩, t', t1', t2', t3'⟩

/-! ### The search -/

theorem seedLoop_lt (k i : ℕ) (m : ℕ → BitVec 32) {j : ℕ} (hj : j < i) : seedLoop k i m j = m j := by
  induction k generalizing i m with
  | zero => rfl
  | succ k ih =>
    unfold seedLoop
    dsimp only
    rw [ih _ _ (by omega), Function.update_of_ne (by omega)]

theorem seed_inv {s : St} (hs : Inv n r s) (v : BitVec 32) : Inv n r (seed v s) ∧ par (seed v s) = par s :=
  ⟨⟨hs.size, hs.mexp, hs.rlt, by
    show s.size - 1 < n
    have := hs.size; have := hs.posn; omega, hs.mask, hs.pos2, hs.posn, hs.p, hs.tp⟩, rfl⟩

/-- `seed(1)` gives a state that is not zero. -/
theorem seed_ne_zero {s : St} (hs : Inv n r s) : den n r (seed 1 s) ≠ 0 := by
  intro h
  have hn : 2 < n := by have := hs.pos2; have := hs.posn; omega
  have h1 : RingHi.word (den n r (seed 1 s)) 1 = 0 := by
    rw [h]
    unfold RingHi.word
    simp
  unfold den at h1
  rw [RingHi.word_proj _ le_rfl (by omega)] at h1
  have e : ((seed 1 s).idx + 1 + 1) % n = 1 := by
    have e1 : (seed 1 s).idx + 1 + 1 = n + 1 := by
      show s.size - 1 + 1 + 1 = n + 1
      have := hs.size; omega
    rw [e1, Nat.add_mod_left, Nat.mod_eq_of_lt (by omega)]
  have h2 : (seed 1 s).state 1 = 0 := by
    rw [← e]; exact h1
  have h3 : (seed 1 s).state 1 = 1812433254 := by
    show seedLoop (s.size - 1) 1 _ 1 = _
    obtain ⟨k, hk⟩ : ∃ k, s.size - 1 = k + 1 := ⟨s.size - 2, by have := hs.size; omega⟩
    rw [hk]
    unfold seedLoop
    dsimp only
    rw [seedLoop_lt _ _ _ (by omega), Function.update_self]
    simp only [Nat.sub_self, Function.update_self]
    decide
  rw [h3] at h2
  exact absurd h2 (by decide)

/-- What holds during the search for `id`. -/
structure SInv (n r : ℕ) (id : BitVec 32) (s : St) : Prop where
  inv : Inv n r s
  rev : s.rev = false
  id : s.id = id

theorem nextState_id (s : St) : (nextState s).id = s.id ∧ (nextState s).rev = s.rev := ⟨rfl, rfl⟩

/-- **C33 for `mtgp32`**: the class satisfies the contract of the search. -/
theorem family {mexp : ℕ} (hm : mexp + r = 32 * n) (hr : r < 32) (hn : SizeOK n) (hn1 : 1 < n) (id : BitVec 32) :
    Family (searchOps mexp) (SInv n r id) par (den n r) (T n r) (O n r) where
  lin p := by
    have key : ∀ s, SInv n r id s ∧ par s = p → p.rev = false := fun s hs => by rw [← hs.2]; exact hs.1.rev
    have L : ∀ s, SInv n r id s ∧ par s = p →
        LinGen (ops mexp) (fun s => Inv n r s ∧ par s = p) (den n r) (T n r p) (O n r p) :=
      fun s hs => linGen mexp p (key s hs)
    exact {
      gen_inv := fun s hs => ⟨⟨((L s hs).gen_inv s ⟨hs.1.inv, hs.2⟩).1, hs.1.rev, hs.1.id⟩,
        ((L s hs).gen_inv s ⟨hs.1.inv, hs.2⟩).2⟩
      gen_den := fun s hs => (L s hs).gen_den s ⟨hs.1.inv, hs.2⟩
      gen_out := fun s hs => (L s hs).gen_out s ⟨hs.1.inv, hs.2⟩
      genV_inv := fun v s h1 h2 hs => ⟨⟨((L s hs).genV_inv v s h1 h2 ⟨hs.1.inv, hs.2⟩).1, hs.1.rev, hs.1.id⟩,
        ((L s hs).genV_inv v s h1 h2 ⟨hs.1.inv, hs.2⟩).2⟩
      genV_den := fun v s h1 h2 hs => (L s hs).genV_den v s h1 h2 ⟨hs.1.inv, hs.2⟩
      genV_out := fun v s h1 h2 hs => (L s hs).genV_out v s h1 h2 ⟨hs.1.inv, hs.2⟩
      add_inv := fun a b ha hb => ⟨⟨((L a ha).add_inv a b ⟨ha.1.inv, ha.2⟩ ⟨hb.1.inv, hb.2⟩).1, ha.1.rev,
        ha.1.id⟩, ((L a ha).add_inv a b ⟨ha.1.inv, ha.2⟩ ⟨hb.1.inv, hb.2⟩).2⟩
      add_den := fun a b ha hb => (L a ha).add_den a b ⟨ha.1.inv, ha.2⟩ ⟨hb.1.inv, hb.2⟩
      zero_inv := fun s hs => ⟨⟨((L s hs).zero_inv s ⟨hs.1.inv, hs.2⟩).1, hs.1.rev, hs.1.id⟩,
        ((L s hs).zero_inv s ⟨hs.1.inv, hs.2⟩).2⟩
      zero_den := fun s hs => (L s hs).zero_den s ⟨hs.1.inv, hs.2⟩ }
  dim := by
    have := RingHi.finrank (w := 32) (n := n) (r := r) (by omega) (by omega)
    show _ = mexp
    omega
  pos := by
    show 1 ≤ mexp
    omega
  wpos := by omega
  setUp_inv := fun s f s' f' h h' => by
    obtain ⟨s'', e, hi, -, -, -, h3, -, -, -, h4, -⟩ :=
      setUpParam_spec h.inv.pre hn (f 0) (f 1) (f 2) (f 3) (f 4)
    have h'' : (setUpParam (f 0) (f 1) (f 2) (f 3) (f 4) s).map (fun s' => (s', fun k => f (k + 5))) =
      some (s', f') := h'
    rw [e] at h''
    injection h'' with e1
    injection e1 with e1 e2
    subst e1
    exact ⟨hi, h4.trans h.rev, h3.trans h.id⟩
  seed_inv := fun s h => ⟨(seed_inv h.inv 1).1, h.rev, h.id⟩
  seed_par := fun s h => (seed_inv h.inv 1).2

/-! ### What a line says -/

/-- The objects of `n` words and `r` unused bits described by a printed line. -/
structure Has (n r : ℕ) (l : Line) (s : St) : Prop where
  inv : Inv n r s
  rev : s.rev = false
  pos : s.pos = l.pos
  sh1 : s.sh1 = l.sh1
  sh2 : s.sh2 = l.sh2
  tbl : ∀ i, i < 4 → s.tbl i = l.tbl i
  tmp : ∀ i, i < 4 → s.tmp i = l.tmp i

/-- Specification of `k`-dimensional equidistribution with `v`-bit accuracy of the generator printed: every
sequence of `k` blocks of `v` bits is the sequence of the leading bits of the outputs from some state. -/
def EquidistLine (n r mexp : ℕ) (l : Line) (v k : ℕ) : Prop :=
  ∀ a : ℕ → ℕ → Bool, ∃ s, Has n r l s ∧ ∀ t < k, ∀ i < v, (outAt (ops mexp) s t).getMsbD i = a t i

/-- **C61**: what a line printed for `id` claims; `n` words, `r` unused bits. -/
structure GoodLine (n r mexp : ℕ) (id : BitVec 32) (l : Line) : Prop where
  mexp_eq : l.mexp = mexp
  id_eq : l.id = id
  id_tbl : (l.tbl 3 &&& (0xffff0000 : BitVec 32)) ||| ((l.tbl 2 >>> 4) &&& (0x0000ffff : BitVec 32)) = id
  pos3 : 3 ≤ l.pos
  posn : l.pos < n
  sh1 : l.sh1 = 13
  sh2 : l.sh2 = 4
  mask : ∀ i, i < 32 → (l.mask.getLsbD i = true ↔ r ≤ i)
  exist : ∃ s, Has n r l s ∧ den n r s ≠ 0
  period : ∀ s, Has n r l s → den n r s ≠ 0 → ∀ k, den n r (stateAt (ops mexp) s k) = den n r s ↔
    2 ^ mexp - 1 ∣ k
  poly : ∃ P : (ZMod 2)[X], Primitive2 P mexp ∧ (∀ s, Has n r l s → P = (T n r (par s)).charpoly) ∧
    l.weight = ((Finset.range (mexp + 1)).filter fun i => P.coeff i = 1).card
  delta : ∃ k : ℕ → ℕ, (∀ v, 1 ≤ v → v ≤ 32 → IsGreatest {k | EquidistLine n r mexp l v k} (k v)) ∧
    l.delta = ∑ v ∈ Finset.Icc 1 32, ((mexp / v : ℕ) - (k v : ℤ))

theorem comb_congr {t t' : ℕ → BitVec 32} (h : ∀ i, i < 4 → t i = t' i) (i : ℕ) : comb t i = comb t' i := by
  unfold comb
  rw [h 0 (by omega), h 1 (by omega), h 2 (by omega), h 3 (by omega)]

theorem newOf_congr {p p' : Par} (h1 : p.pos = p'.pos) (h2 : p.sh1 = p'.sh1) (h3 : p.sh2 = p'.sh2)
    (h4 : ∀ i, i < 4 → p.tbl i = p'.tbl i) (s : RingHi.S 32 n r) : newOf p s = newOf p' s := by
  unfold newOf new mat
  rw [h1, h2, h3, comb_congr h4]

theorem T_congr {p p' : Par} (h1 : p.pos = p'.pos) (h2 : p.sh1 = p'.sh1) (h3 : p.sh2 = p'.sh2)
    (h4 : ∀ i, i < 4 → p.tbl i = p'.tbl i) : T n r p = T n r p' := by
  apply LinearMap.ext
  intro s
  simp only [T, linOf_apply, newOf_congr h1 h2 h3 h4]

theorem O_congr {p p' : Par} (h1 : p.pos = p'.pos) (h2 : p.sh1 = p'.sh1) (h3 : p.sh2 = p'.sh2)
    (h4 : ∀ i, i < 4 → p.tbl i = p'.tbl i) (h5 : ∀ i, i < 4 → p.tmp i = p'.tmp i) : O n r p = O n r p' := by
  apply LinearMap.ext
  intro s
  simp only [O, linOf_apply, out, newOf_congr h1 h2 h3 h4, h1, comb_congr h5]

theorem proj_word (hn : 0 < n) (hr : r ≤ 32) (y : RingHi.S 32 n r) :
    RingHi.proj n r (fun j : Fin n => Wd.of (RingHi.word y j)) = y := by
  refine Prod.ext ?_ ?_
  · show Wd.of (MTRec.hi r (if h : 0 < n then RingHi.word y 0 else 0)) = y.1
    rw [dif_pos hn]
    have : MTRec.hi r (MTRec.lift r y.1.val : BitVec 32) = y.1.val := by
      apply MTRec.lift_inj hr
      rw [MTRec.lift_hi]
      apply BitVec.eq_of_getLsbD_eq
      intro i hi
      rw [BitVec.getLsbD_and, MTRec.upper_bit, MTRec.lift_bit]
      by_cases h : r ≤ i
      · simp [h, hi]
      · simp [h]
    show Wd.of (MTRec.hi r (MTRec.lift r y.1.val : BitVec 32)) = y.1
    rw [this]; rfl
  · funext j
    show Wd.of (RingHi.word y ((j : ℕ) + 1)) = y.2 j
    unfold RingHi.word
    rw [if_neg (by omega), dif_pos (by have := j.2; omega)]
    rfl

/-- An object with any given effective state. -/
theorem exists_den {s : St} (hs : Inv n r s) (y : RingHi.S 32 n r) :
    ∃ s', Inv n r s' ∧ par s' = par s ∧ den n r s' = y := by
  have hn : 2 < n := by have := hs.pos2; have := hs.posn; omega
  refine ⟨{ s with state := RingHi.word y, idx := n - 1 }, ⟨hs.size, hs.mexp, hs.rlt, by
    show n - 1 < n; omega, hs.mask, hs.pos2, hs.posn, hs.p, hs.tp⟩, rfl, ?_⟩
  have : Ring.vec n (RingHi.word y) (n - 1) = fun j : Fin n => Wd.of (RingHi.word y j) := by
    funext j
    show Wd.of (RingHi.word y ((n - 1 + (j + 1)) % n)) = _
    rw [show n - 1 + ((j : ℕ) + 1) = n + j by omega, Nat.add_mod_left, Nat.mod_eq_of_lt j.2]
  show RingHi.proj n r (Ring.vec n (RingHi.word y) (n - 1)) = y
  rw [this]
  exact proj_word (by omega) hs.rlt.le y

theorem equidistLine_iff {mexp : ℕ} {l : Line} {s0 : St} (h0 : Has n r l s0) (v k : ℕ) :
    EquidistLine n r mexp l v k ↔ Equidist (T n r (par s0)) (O n r (par s0)) ⊤ v k := by
  have hout : ∀ s, Has n r l s → ∀ t, bits (outAt (ops mexp) s t) =
      O n r (par s0) ((T n r (par s0) ^ t) (den n r s)) := fun s hs t => by
    have hT : T n r (par s0) = T n r (par s) :=
      T_congr (h0.pos.trans hs.pos.symm) (h0.sh1.trans hs.sh1.symm) (h0.sh2.trans hs.sh2.symm)
        fun i hi => (h0.tbl i hi).trans (hs.tbl i hi).symm
    have hO : O n r (par s0) = O n r (par s) :=
      O_congr (h0.pos.trans hs.pos.symm) (h0.sh1.trans hs.sh1.symm) (h0.sh2.trans hs.sh2.symm)
        (fun i hi => (h0.tbl i hi).trans (hs.tbl i hi).symm) fun i hi => (h0.tmp i hi).trans (hs.tmp i hi).symm
    rw [hT, hO]
    exact outAt_spec (linGen (n := n) (r := r) mexp (par s) hs.rev) ⟨hs.inv, rfl⟩ t
  have hbit : ∀ (x : BitVec 32) i (b : Bool), x.getMsbD i = b ↔ bits x i = if b then 1 else 0 := fun x i b => by
    unfold bits
    cases x.getMsbD i <;> cases b <;> simp
  constructor
  · intro h a
    obtain ⟨s, hs, h1⟩ := h fun t i => decide (a t i = 1)
    refine ⟨den n r s, Submodule.mem_top, fun t ht i hi => ?_⟩
    rw [← hout s hs, (hbit _ _ _).1 (h1 t ht i hi)]
    have h01 : ∀ z : ZMod 2, (if decide (z = 1) = true then (1 : ZMod 2) else 0) = z := by decide
    exact h01 _
  · intro h a
    obtain ⟨y, -, hy⟩ := h fun t i => if a t i then 1 else 0
    obtain ⟨s, h1, h2, h3⟩ := exists_den h0.inv y
    have hs : Has n r l s := ⟨h1, (congrArg Par.rev h2).trans h0.rev, (congrArg Par.pos h2).trans h0.pos,
      (congrArg Par.sh1 h2).trans h0.sh1, (congrArg Par.sh2 h2).trans h0.sh2,
      fun i hi => (congrFun (congrArg Par.tbl h2) i).trans (h0.tbl i hi),
      fun i hi => (congrFun (congrArg Par.tmp h2) i).trans (h0.tmp i hi)⟩
    refine ⟨s, hs, fun t ht i hi => ?_⟩
    rw [hbit, hout s hs, h3]
    exact hy t ht i hi

/-! ### The program -/

theorem setUpParam_pos (u0 u1 u2 u3 u4 : BitVec 32) (s : St) (q : ℕ) :
    setUpParam u0 u1 u2 u3 u4 { s with pos := q } = setUpParam u0 u1 u2 u3 u4 s := rfl

/-- **C61**, one line. -/
theorem indexedSearch_correct {mps : MPS} (hmps : MinPolySeqSpec mps) {prim : ℕ → (ZMod 2)[X] → Option Bool}
    {mexp : ℕ} (hprim : PrimOK prim mexp) (h32 : mexp % 32 ≠ 0) (hsz : SizeOK (mexp / 32 + 1)) (J : Junk)
    (fuel : ℕ) (id : BitVec 32) (f : ℕ → BitVec 32) {res : Option Line}
    (h : indexedSearch mps prim J fuel mexp id f = some res) : ∃ l, res = some l ∧
      GoodLine (mexp / 32 + 1) (32 - mexp % 32) mexp id l := by
  obtain ⟨n, hn⟩ : ∃ n, n = mexp / 32 + 1 := ⟨_, rfl⟩
  obtain ⟨r, hr⟩ : ∃ r, r = 32 - mexp % 32 := ⟨_, rfl⟩
  have hn2 : 3 < n := by
    rcases hsz with ⟨h1, h2⟩ | ⟨h1, -⟩ <;> omega
  have hm : mexp + r = 32 * n := by omega
  have hr32 : r < 32 := by omega
  rw [← hn] at hsz
  obtain ⟨g, c1, c2, c3, c4, c5, c6, c7, c8, c9⟩ := ctor_spec mexp id J.pos J.sh1 J.sh2 J.mask J.state h32
  have hg : SInv n r id { g with pos := 2 } :=
    ⟨⟨c4.trans hn.symm, by show g.mexp + r = _; rw [c2]; exact hm, hr32, by show g.idx < n; omega,
      by show g.mask = _; rw [c6, hr], le_refl 2, by show 2 < n; omega, fun i _ => c8 i, fun i _ => c9 i⟩, c7, c3⟩
  have F := family hm hr32 hsz (by omega) id
  unfold indexedSearch at h
  rw [c1] at h
  dsimp only at h
  unfold allSearch at h
  rw [rtSearch_congr (s' := { g with pos := 2 }) (fun src => by
      show (setUpParam _ _ _ _ _ g).map _ = Option.map _ _
      rw [← setUpParam_pos _ _ _ _ _ g 2]) (by show 1 ≤ mexp; omega)] at h
  have hst : ∀ P : PBPar, P.bitLen = 32 → P.paramNum = 4 → P.tryLen ≤ 32 → 1 ≤ P.step → P.step < 31 →
      ∀ s, SInv n r id s → ∃ t, partialBitPattern (temperOps J mexp) P (P.tryLen + 1) s = some t ∧
        SInv n r id t ∧ SameRec s t := fun P p1 p2 p3 p4 p5 s hs => by
    obtain ⟨t, t1, t2, t3, -⟩ := st_spec J hm P p1 p2 p3 p4 p5 s hs.inv hs.rev
    have t2' := t2
    unfold SameRec at t2
    exact ⟨t, t1, ⟨t3, by rw [t2]; exact hs.rev, by rw [t2]; exact hs.id⟩, t2'⟩
  have hst1 := hst st32 rfl rfl (by decide) (by decide) (by decide)
  have hst2 := hst stlsb32 rfl rfl (by decide) (by decide) (by decide)
  cases hres : rtSearch mps (searchOps mexp) prim (partialBitPattern (temperOps J mexp) st32 24)
      (partialBitPattern (temperOps J mexp) stlsb32 10) (measure J 32) false fuel { g with pos := 2 } f with
  | none => rw [hres] at h; cases h
  | some rr =>
    rw [hres] at h
    have parts := rtSearch_parts (P := Par) hmps F hprim
      (fun s hs => (hst1 s hs).imp fun t ht => ⟨ht.1, ht.2.1⟩)
      (fun s hs => (hst2 s hs).imp fun t ht => ⟨ht.1, ht.2.1⟩)
      (fun s hs => (measure_spec J hs.inv).imp fun d hd => hd.1) false fuel _ f hg hres
    rcases parts with rfl | ⟨st, t, u, d, ho, ht, hti, hu, hui, hd, rfl⟩
    · exact absurd hres (rtSearch_no_throw F hmps hprim (fun s f hs => by
        obtain ⟨s', e, -⟩ := setUpParam_spec hs.inv.pre hsz (f 0) (f 1) (f 2) (f 3) (f 4)
        show Option.map _ _ ≠ _
        rw [e]; simp) hg)
    · injection h with h
      refine ⟨_, h.symm, ?_⟩
      obtain ⟨q, src, r0, hq, hset, hrand, hpar, hr0⟩ := ho.from_setUp
      have hset' : (setUpParam (src 0) (src 1) (src 2) (src 3) (src 4) q).map
        (fun s' => (s', fun k => src (k + 5))) = some (r0, st.src) := hset
      obtain ⟨r0', e1, -, p3, p4, p5, p6, -⟩ :=
        setUpParam_spec hq.inv.pre hsz (src 0) (src 1) (src 2) (src 3) (src 4)
      have hid := id_recoverable hq.inv.pre hsz e1
      rw [e1] at hset'
      injection hset' with hset'
      injection hset' with e2 e3
      subst e2
      -- the tempering changes only the tempering tables
      obtain ⟨t', t1, t2, t3⟩ := hst2 _ ho.inv
      have ht' : partialBitPattern (temperOps J mexp) stlsb32 10 st.rand = some t := by simpa using ht
      obtain rfl : t' = t := by
        rw [show stlsb32.tryLen + 1 = 10 from rfl, ht'] at t1
        injection t1 with t1; exact t1.symm
      obtain ⟨u', u1, u2, u3⟩ := hst1 _ hti
      obtain rfl : u' = u := by
        rw [show st32.tryLen + 1 = 24 from rfl, hu] at u1
        injection u1 with u1; exact u1.symm
      have hue : u' = { st.rand with tmp := u'.tmp, tp := u'.tp } := by
        unfold SameRec at t3 u3
        rw [t3] at u3
        exact u3
      have hden : den n r u' = den n r st.rand := by rw [hue]; rfl
      have q1 : u'.pos = r0'.pos := by
        have : u'.pos = st.rand.pos := by rw [hue]
        exact this.trans (congrArg Par.pos hpar)
      have q2 : u'.sh1 = r0'.sh1 := by
        have : u'.sh1 = st.rand.sh1 := by rw [hue]
        exact this.trans (congrArg Par.sh1 hpar)
      have q3 : u'.sh2 = r0'.sh2 := by
        have : u'.sh2 = st.rand.sh2 := by rw [hue]
        exact this.trans (congrArg Par.sh2 hpar)
      have q4 : u'.tbl = r0'.tbl := by
        have : u'.tbl = st.rand.tbl := by rw [hue]
        exact this.trans (congrArg Par.tbl hpar)
      have hmx : u'.mexp = mexp := by have := hui.inv.mexp; omega
      have hTu : T n r (par st.rand) = T n r (par u') := by
        rw [hue]; rfl
      have hne : den n r u' ≠ 0 := by
        rw [hden, hrand]
        have hp : par ((searchOps mexp).seedOne r0') = par st.rand :=
          ((seed_inv hr0.inv 1).2).trans hpar.symm
        exact stateAt_ne_zero F (s := (searchOps mexp).seedOne r0') (F.seed_inv _ hr0)
          (by rw [hp]; exact ho.max) (seed_ne_zero hr0.inv) _
      have hHas : Has n r (lineOf ⟨u', st.src, st.poly, polyWeight st.poly, d⟩) u' :=
        ⟨hui.inv, hui.rev, rfl, rfl, rfl, fun _ _ => rfl, fun _ _ => rfl⟩
      have hTl : ∀ s, Has n r (lineOf ⟨u', st.src, st.poly, polyWeight st.poly, d⟩) s →
          T n r (par s) = T n r (par st.rand) := fun s hs => by
        rw [hTu]
        exact T_congr hs.pos hs.sh1 hs.sh2 hs.tbl
      have hperT : ∀ y : RingHi.S 32 n r, y ≠ 0 → ∀ k, (T n r (par st.rand) ^ k) y = y ↔ 2 ^ mexp - 1 ∣ k := by
        intro y hy k
        obtain ⟨s, s1, s2, s3⟩ := exists_den ho.inv.inv y
        have := ho.max { s with id := id } ⟨⟨s1.size, s1.mexp, s1.rlt, s1.idx, s1.mask, s1.pos2, s1.posn, s1.p,
          s1.tp⟩, (congrArg Par.rev s2).trans ho.inv.rev, rfl⟩ s2 (by
            show den n r s ≠ 0
            rw [s3]; exact hy) k
        rw [← show (searchOps mexp).gen.bitSize = mexp from rfl, ← this]
        have L := F.lin (par st.rand)
        rw [(stateAt_spec L (g := { s with id := id }) ⟨⟨⟨s1.size, s1.mexp, s1.rlt, s1.idx, s1.mask, s1.pos2,
          s1.posn, s1.p, s1.tp⟩, (congrArg Par.rev s2).trans ho.inv.rev, rfl⟩, s2⟩ k).2]
        have : den n r { s with id := id } = y := s3
        rw [this]
      have hcyc : cyc (T n r (par u')) (den n r u') = ⊤ :=
        cyc_top (n := mexp) (by omega) F.dim hne (by rw [← hTu]; exact hperT _ hne)
      rw [← hn, ← hr]
      refine ⟨hmx, hui.id, ?_, ?_, hui.inv.posn, q2.trans p4, q3.trans p5, ?_, ⟨u', hHas, hne⟩, ?_, ?_, ?_⟩
      · show (u'.tbl 3 &&& _) ||| ((u'.tbl 2 >>> 4) &&& _) = id
        rw [q4, ← hid, hq.id]
      · show 3 ≤ u'.pos
        rw [q1]; exact p3
      · intro i hi
        show u'.mask.getLsbD i = true ↔ _
        rw [hui.inv.mask, MTRec.upper_bit]
        simp [hi]
      · intro s hs h0 k
        rw [← hperT _ h0 k, ← hTl s hs]
        rw [(stateAt_spec (linGen (n := n) (r := r) mexp (par s) hs.rev) ⟨hs.inv, rfl⟩ k).2]
      · refine ⟨st.poly, ho.prim, fun s hs => ?_, ?_⟩
        · rw [hTl s hs]; exact ho.poly
        · have : st.poly.natDegree = mexp := by
            rw [ho.poly, LinearMap.charpoly_natDegree]; exact F.dim
          exact polyWeight_eq this
      · obtain ⟨d', d1, d2⟩ := measure_spec J hui.inv
        obtain rfl : d' = d := by
          rw [hd] at d1; injection d1 with d1; exact d1.symm
        obtain ⟨k, k1, k2⟩ := d2
        refine ⟨k, fun v v1 v2 => ?_, ?_⟩
        · have := k1 v v1 v2
          rw [hcyc, hui.rev, if_neg (by simp)] at this
          simpa only [equidistLine_iff hHas] using this
        · show d' = _
          rw [k2, hmx]

/-- **C61.**  Every line printed by `MTGP32dc` is as claimed, and `count` lines are printed with consecutive
ids.  (`hprim` holds for the primitivity test of the code, by `primOK_mersenne`, if `2^mexp - 1` is prime.) -/
theorem dcMain_correct {mps : MPS} (hmps : MinPolySeqSpec mps) {prim : ℕ → (ZMod 2)[X] → Option Bool}
    {mexp : ℕ} (hprim : PrimOK prim mexp) (h32 : mexp % 32 ≠ 0) (hsz : SizeOK (mexp / 32 + 1)) (J : ℕ → Junk)
    (fuel : ℕ) (f : ℕ → BitVec 32) (count : ℕ) (id : BitVec 32) {res : Option (List Line)}
    (h : dcMain mps prim J fuel mexp f count id = some res) : ∃ L, res = some L ∧ L.length = count ∧
      ∀ i (hi : i < L.length), GoodLine (mexp / 32 + 1) (32 - mexp % 32) mexp (id + BitVec.ofNat 32 i) L[i] := by
  induction count generalizing id res with
  | zero =>
    injection h with h
    exact ⟨[], h.symm, rfl, fun i hi => absurd hi (by simp)⟩
  | succ c ih =>
    unfold dcMain at h
    cases hs : indexedSearch mps prim (J c) fuel mexp id f with
    | none => rw [hs] at h; cases h
    | some q =>
      obtain ⟨l, rfl, hl⟩ := indexedSearch_correct hmps hprim h32 hsz (J c) fuel id f hs
      rw [hs] at h
      dsimp only at h
      cases hrest : dcMain mps prim J fuel mexp f c (id + 1) with
      | none => rw [hrest] at h; cases h
      | some q =>
        obtain ⟨L, rfl, hlen, hL⟩ := ih (id + 1) hrest
        rw [hrest] at h
        injection h with h
        refine ⟨l :: L, h.symm, by rw [List.length_cons, hlen], ?_⟩
        intro i hi
        cases i with
        | zero => simpa using hl
        | succ i =>
          have := hL i (by simpa using hi)
          rw [List.getElem_cons_succ]
          rw [show id + BitVec.ofNat 32 (i + 1) = id + 1 + BitVec.ofNat 32 i by
            rw [BitVec.ofNat_add, BitVec.add_assoc, BitVec.add_comm (BitVec.ofNat 32 i)]; rfl]
          exact this

open Classical in
/-- The hypotheses are met by each exponent the options accept and a test that decides primitivity. -/
example : ∀ mexp ∈ [3217, 4423, 11213, 23209, 44497, 110503, 216091], mexp % 32 ≠ 0 ∧ SizeOK (mexp / 32 + 1) ∧
    PrimOK (fun n p => some (decide (Primitive2 p n))) mexp :=
  fun mexp h => ⟨(sizeOK_accepted mexp h).2, (sizeOK_accepted mexp h).1, fun p _ => ⟨_, rfl, by simp⟩⟩

/-- Lines with different ids have different tables. -/
theorem lines_differ {n r mexp : ℕ} {id id' : BitVec 32} {l l' : Line} (h : GoodLine n r mexp id l)
    (h' : GoodLine n r mexp id' l') (hne : id ≠ id') : l.tbl 2 ≠ l'.tbl 2 ∨ l.tbl 3 ≠ l'.tbl 3 := by
  by_contra hc
  rw [not_or, not_not, not_not] at hc
  apply hne
  rw [← h.id_tbl, ← h'.id_tbl, hc.1, hc.2]

end MTT.MTGP
