import Verif.Samples.MT2
import Verif.Samples.MTDCProps
import Verif.Temper.BestBits
import Verif.Search.RTProps
import Verif.MT.Orbit
import Verif.Mexp.Props

/-!
# C87: the program `mt2` (dynamic creation of Mersenne Twisters)
-/

namespace MTT.MTDC

open Polynomial PIS Search Temper MTRec

variable {n r : ℕ}

/-! ### Specification

What a line printed by the program means, in terms of sequences of words only. -/

/-- The recurrence of the Mersenne Twister described by a line: `n` words of 32 bits, of the oldest the highest
`32 - r` bits. -/
def recOf (l : Line) : MTPar 32 := ⟨l.mexp / 32 + 1, l.pos, 32 - l.mexp % 32, l.mata⟩

/-- The tempering of the Mersenne Twister with the masks of a line. -/
def temperOf (l : Line) (y : BitVec 32) : BitVec 32 :=
  let y := y ^^^ (y >>> 12)
  let y := y ^^^ ((y <<< 7) &&& l.maskb)
  let y := y ^^^ ((y <<< 15) &&& l.maskc)
  y ^^^ (y >>> 18)

/-- `y` is an output sequence of the generator described by the line. -/
def IsOutput (l : Line) (y : ℕ → BitVec 32) : Prop :=
  ∃ x, IsSeq (recOf l) x ∧ ∀ k, y k = temperOf l (x (k + (l.mexp / 32 + 1)))

/-- `k`-dimensional equidistribution with `v`-bit accuracy: every sequence of `k` blocks of `v` bits is met. -/
def EquidistLine (l : Line) (v k : ℕ) : Prop :=
  ∀ a : ℕ → ℕ → Bool, ∃ y, IsOutput l y ∧ ∀ t < k, ∀ i < v, (y t).getMsbD i = a t i

/-- **C87**: what a line printed for `id` claims. -/
structure GoodLine (mexp : ℕ) (id maxDelta : ℤ) (l : Line) : Prop where
  mexp_eq : l.mexp = mexp
  id_eq : l.id = id
  id_mata : (l.mata.toNat % 2 ^ 16 : ℕ) = id
  pos2 : 2 ≤ l.pos
  posn : l.pos < mexp / 32 + 1
  maskb : ∀ i, i < 6 → l.maskb.getLsbD i = false
  maskc : ∀ i, i < 17 → l.maskc.getLsbD i = false
  exist : ∃ y, IsOutput l y ∧ ∃ k, y k ≠ 0
  period : ∀ y, IsOutput l y → (∃ k, y k ≠ 0) → ∀ N, (∀ k, y (k + N) = y k) ↔ 2 ^ mexp - 1 ∣ N
  delta : ∃ k : ℕ → ℕ, (∀ v, 1 ≤ v → v ≤ 32 → IsGreatest {k | EquidistLine l v k} (k v)) ∧
    l.delta = ∑ v ∈ Finset.Icc 1 32, ((mexp / v : ℕ) - (k v : ℤ))
  max : l.delta ≤ maxDelta

/-! ### The measured defect -/

theorem allLoop_view {σ : Type} {w : ℕ} (G : GenOps σ w) (c1 : BitVec w → ℤ) (size m fuel : ℕ) :
    ∀ v b q, allLoop (view G) c1 size m fuel v b q = allLoop G c1 size m fuel v b q
  | 0, _, _ => rfl
  | v + 1, b, q => by
    have hadj : ∀ l, adjust (view G) size l b = adjust G size l b := fun _ => rfl
    unfold allLoop
    simp only [hadj, allLoop_view G c1 size m fuel v]
    rfl

/-- Only `generate(v)` matters for the calculation. -/
theorem getAllEquidist_view {σ : Type} {w : ℕ} (G : GenOps σ w) (c1 : BitVec w → ℤ) (g : σ) (L m fuel : ℕ)
    (veq : ℕ → ℕ) : getAllEquidist G c1 g L m fuel veq = getAllEquidist (view G) c1 g L m fuel veq := by
  unfold getAllEquidist
  simp only [allLoop_view]
  rfl

theorem measure_spec (veq : ℕ → ℕ) {s : St} (hs : Inv n r s) (hm : 1 ≤ s.mexp) {L : ℕ} (h1 : 1 ≤ L) (h2 : L ≤ 32) :
    ∃ d, measure veq L s = some d ∧ ∃ k : ℕ → ℕ, (∀ v, 1 ≤ v → v ≤ L →
      IsGreatest {k | Equidist (T n r (par s)) (if s.rev then OR n r (par s) else O n r (par s))
        (cyc (T n r (par s)) (den n r s)) v k} (k v)) ∧
      d = ∑ v ∈ Finset.Icc 1 L, ((s.mexp / v : ℕ) - (k v : ℤ)) := by
  obtain ⟨hm', h0, hd⟩ := charpoly_hyps (T n r (par s)) (den n r s)
  rw [finrank_S hs] at hd
  obtain ⟨q, e1, e2, _, e4⟩ := getAllEquidist_correct (linGen_view s.mexp (par s)) (g := s) ⟨hs, rfl⟩ hm' h0
    (by rw [hd]; show s.mexp ≤ 2 * s.mexp + 1; omega) (stateBitSize := s.mexp) (by omega) Util.isCalc1pos_32
    (bitLen := L) (by omega) (by omega) (fuel := L * ((L + 1) * s.mexp) + L + 1) (by rw [hd]) veq
  refine ⟨q.sum, ?_, fun v => q.veq (v - 1), e2, e4⟩
  unfold measure
  rw [getAllEquidist_view, e1]

theorem measure_le (veq : ℕ → ℕ) {s : St} (hs : Inv n r s) (hm : 1 ≤ s.mexp) {L : ℕ} (h1 : 1 ≤ L) (h2 : L ≤ 32) :
    ∃ d, measure veq L s = some d ∧ d ≤ s.mexp * 32 := by
  obtain ⟨d, e, k, -, rfl⟩ := measure_spec veq hs hm h1 h2
  refine ⟨_, e, ?_⟩
  calc _ ≤ ∑ _v ∈ Finset.Icc 1 L, (s.mexp : ℤ) := Finset.sum_le_sum fun v _ => by
          have : s.mexp / v ≤ s.mexp := Nat.div_le_self _ _
          omega
    _ = L * s.mexp := by simp
    _ ≤ _ := by rw [mul_comm]; exact mul_le_mul_of_nonneg_left (by exact_mod_cast h2) (by omega)

/-! ### The tempering search -/

theorem setAll_eq (veq : ℕ → ℕ) (mexp : ℕ) (p : ℕ → BitVec 32) (s : St) :
    setAll (temperOps veq mexp) p 2 0 s = { s with maskb := p 0, maskc := p 1 } := by
  have e : ∀ x q : BitVec 32, (x &&& ~~~ (~~~ (0 : BitVec 32))) ||| (q &&& ~~~ (0 : BitVec 32)) = q := by
    intro x q
    apply BitVec.eq_of_getLsbD_eq
    intro i hi
    simp only [BitVec.getLsbD_or, BitVec.getLsbD_and, BitVec.getLsbD_not, BitVec.ofNat_eq_ofNat, BitVec.getLsbD_zero, hi,
      decide_true, Bool.not_false, Bool.and_true, Bool.not_true, Bool.and_false, Bool.false_or]
  show setTemperingPattern _ (p 1) 1 (setTemperingPattern _ (p 0) 0 s) = _
  simp only [setTemperingPattern, if_true, e, one_ne_zero, if_false]

theorem masks_inv {s : St} (hs : Inv n r s) (b c : BitVec 32) : Inv n r { s with maskb := b, maskc := c } :=
  ⟨hs.size, hs.mexp, hs.rlt, hs.index, hs.upper, hs.lower, hs.pos1, hs.posn⟩

/-- **C37** for `MT32Search`: the class meets the contract of the best-bits search. -/
theorem bbContract (veq : ℕ → ℕ) {mexp : ℕ} (hm : mexp + r = 32 * n) (h1 : 1 ≤ mexp) :
    BBContract (temperOps veq mexp) bb.size (Inv n r) where
  reset_inv s hs := ⟨hs.size, hs.mexp, hs.rlt, hs.index, hs.upper, hs.lower, hs.pos1, hs.posn⟩
  set_all p q s _ := by
    show setAll _ p 2 0 (setAll _ q 2 0 s) = setAll _ p 2 0 s
    simp only [setAll_eq]
  delta_le p s v hs hv1 hv2 := by
    have e : s.mexp = mexp := by have := hs.mexp; omega
    show ∃ d, measure veq v (setAll _ p 2 0 s) = some d ∧ d ≤ mexp * 32
    rw [setAll_eq, ← e]
    exact measure_le veq (masks_inv hs _ _) (by show 1 ≤ s.mexp; omega) hv1 hv2

/-- The bits that the search sets. -/
def Low (p : ℕ → BitVec 32) : Prop :=
  (∀ i, i < 6 → (p 0).getLsbD i = false) ∧ ∀ i, i < 17 → (p 1).getLsbD i = false

theorem kept_low (R : TemperOps St 32) (s : St) : ∀ k, k ≤ 15 → ∀ q ∈ kept R bb s k, Low q.param
  | 0, _, q, hq => by
    rw [kept, List.mem_singleton] at hq
    rw [hq]
    exact ⟨fun i _ => by simp, fun i _ => by simp⟩
  | k + 1, hk, q, hq => by
    unfold kept least at hq
    have h1 := (List.mem_filter.1 hq).1
    unfold generated at h1
    obtain ⟨para, hp, h2⟩ := List.mem_flatMap.1 h1
    obtain ⟨i, -, h3⟩ := List.mem_filterMap.1 h2
    have ih := kept_low R s k (by omega) para hp
    unfold candidate at h3
    split at h3
    · next hr =>
      obtain ⟨p, e1, e2, e3, -⟩ := makePattern_two (w := 32) 7 15 (by omega) 15 i k (by omega) para.param
      have e1' : makePattern bb i k para.param = some p := e1
      rw [e1', Option.bind_some] at h3
      obtain ⟨d, -, rfl⟩ := Option.map_eq_some_iff.1 h3
      have hr' := inRange_two (w := 32) 7 15 15 i k
      have hr'' : inRange ⟨[7, 15], 15⟩ 32 i k = some true := hr
      rw [hr'', Option.some.injEq] at hr'
      have hr3 := (of_decide_eq_true hr'.symm).2.2
      refine ⟨fun j hj => ?_, fun j hj => ?_⟩
      · show (p 0).getLsbD j = false
        rw [e2 j (by omega), if_neg (by omega)]
        split
        · next h =>
          by_contra hb
          have := hr3 (by simpa using hb)
          have h15 : (15 : ℤ).toNat = 15 := rfl
          rw [h15] at h
          omega
        · exact ih.1 j hj
      · show (p 1).getLsbD j = false
        rw [e3 j (by omega), if_neg (by omega)]
        exact ih.2 j hj
    · cases h3

/-- The tempering search ends normally, changes only the two masks, and leaves masks of the form stated. -/
theorem temper_spec (veq : ℕ → ℕ) {mexp : ℕ} (hm : mexp + r = 32 * n) (h1 : 1 ≤ mexp) (s : St) (hs : Inv n r s)
    (hrev : s.rev = false) : ∃ p, bestBits (temperOps veq mexp) bb s = some { s with maskb := p 0, maskc := p 1 } ∧
      Low p := by
  obtain ⟨-, q, h2, h3⟩ := bestBits_correct (bbContract (n := n) (r := r) veq hm h1) (by decide) (by decide)
    (by decide) (by decide) s hs
  refine ⟨q.param, ?_, kept_low _ _ _ (by decide) q (List.mem_of_mem_head? h2)⟩
  rw [h3]
  have : setAll (temperOps veq mexp) q.param bb.size 0 ((temperOps veq mexp).resetRev s) =
    { s with maskb := q.param 0, maskc := q.param 1, rev := false } := setAll_eq ..
  rw [this, ← hrev]
  show some (resetReverse { s with maskb := q.param 0, maskc := q.param 1 }) = _
  have h4 : resetReverse { s with maskb := q.param 0, maskc := q.param 1 } =
    { s with maskb := q.param 0, maskc := q.param 1, rev := false } := rfl
  rw [h4, ← hrev]

/-! ### The search -/

/-- What holds during the search for `id`. -/
structure SInv (n r : ℕ) (id : ℤ) (s : St) : Prop where
  inv : Inv n r s
  rev : s.rev = false
  id : s.id = id

theorem seed_inv {s : St} (hs : Inv n r s) (v : BitVec 32) : Inv n r (seed v s) ∧ par (seed v s) = par s :=
  ⟨⟨hs.size, hs.mexp, hs.rlt, by
    show s.size - 1 < n
    have := hs.size; have := hs.posn; omega, hs.upper, hs.lower, hs.pos1, hs.posn⟩, rfl⟩

theorem seedLoop_lt (k i : ℕ) (m : ℕ → BitVec 32) {j : ℕ} (hj : j < i) : seedLoop k i m j = m j := by
  induction k generalizing i m with
  | zero => rfl
  | succ k ih =>
    unfold seedLoop
    dsimp only
    rw [ih _ _ (by omega), Function.update_of_ne (by omega)]

/-- `seed(1)` gives a state that is not zero. -/
theorem seed_ne_zero {s : St} (hs : Inv n r s) : den n r (seed 1 s) ≠ 0 := by
  intro h
  have hn : 1 < n := by have := hs.pos1; have := hs.posn; omega
  have h1 := den_zero h ⟨0, by omega⟩
  have e : words n (seed 1 s) (1 + 0) = (seed 1 s).state 1 := by
    show (seed 1 s).state ((s.size - 1 + (1 + 0 + 1)) % n) = _
    have hz := hs.size
    rw [show s.size - 1 + (1 + 0 + 1) = n + 1 by omega, Nat.add_mod_left, Nat.mod_eq_of_lt (by omega)]
  have h2 : (seed 1 s).state 1 = 0 := by rw [← e]; exact h1
  have h3 : (seed 1 s).state 1 = 1812433254 := by
    show seedLoop (s.size - 1) 1 _ 1 = _
    obtain ⟨k, hk⟩ : ∃ k, s.size - 1 = k + 1 := ⟨s.size - 2, by have := hs.size; omega⟩
    rw [hk]
    unfold seedLoop
    dsimp only
    rw [seedLoop_lt _ _ _ (by omega), Function.update_self]
    simp only [Nat.sub_self, Function.update_self]
    decide
  rw [h3] at h2
  exact absurd h2 (by decide)

theorem setUpParam_spec {s : St} (hsz : s.size = n) (hn : 3 ≤ n) (r1 r2 : BitVec 32) :
    ∃ p a, setUpParam r1 r2 s = some { s with pos := p, mata := a } ∧ 2 ≤ p ∧ p < n ∧
      (0 ≤ s.id → s.id ≤ 0xffff → (a.toNat % 2 ^ 16 : ℕ) = s.id) := by
  unfold setUpParam
  rw [hsz, if_neg (by omega)]
  refine ⟨_, _, rfl, by omega, ?_, fun h1 h2 => ?_⟩
  · have := Nat.mod_lt r1.toNat (show 0 < n - 2 by omega)
    omega
  · rw [if_pos h1]
    obtain ⟨i, hi⟩ : ∃ i : ℕ, s.id = i := ⟨s.id.toNat, by omega⟩
    rw [hi, BitVec.ofInt_natCast]
    have hi2 : i ≤ 0xffff := by omega
    have key : ((r2 &&& (0xffff0000 : BitVec 32)) ||| (BitVec.ofNat 32 i &&& (0xffff : BitVec 32))).toNat % 2 ^ 16 = i := by
      have e1 : (0xffff0000 : BitVec 32).toNat = 65535 * 2 ^ 16 := by decide
      have e2 : (0xffff : BitVec 32).toNat = 2 ^ 16 - 1 := by decide
      have e3 : (r2.toNat &&& 65535 * 2 ^ 16) % 2 ^ 16 = 0 := by
        apply Nat.eq_of_testBit_eq
        intro j
        rw [Nat.testBit_mod_two_pow, Nat.testBit_and, Nat.testBit_mul_two_pow, Nat.zero_testBit]
        by_cases hj : j < 16
        · simp [hj, Nat.not_le.2 hj]
        · simp [hj]
      rw [BitVec.toNat_or, BitVec.toNat_and, BitVec.toNat_and, e1, e2, BitVec.toNat_ofNat, Nat.or_mod_two_pow, e3,
        Nat.zero_or, Nat.and_two_pow_sub_one_eq_mod, Nat.mod_mod, Nat.mod_eq_of_lt (show i < 2 ^ 32 by omega),
        Nat.mod_eq_of_lt (show i < 2 ^ 16 by omega)]
    rw [key]

/-- **C33 for `MT32Search`**: the class satisfies the contract of the search. -/
theorem family {mexp : ℕ} (hm : mexp + r = 32 * n) (hr : r < 32) (hn : 3 ≤ n) (id : ℤ) :
    Family (searchOps mexp) (SInv n r id) par (den n r) (T n r) (O n r) where
  lin p := by
    have L : ∀ s, SInv n r id s ∧ par s = p →
        LinGen (ops mexp) (fun s => Inv n r s ∧ par s = p) (den n r) (T n r p) (O n r p) :=
      fun s hs => linGen mexp p (by rw [← hs.2]; exact hs.1.rev)
    exact {
      gen_inv := fun s hs => ⟨⟨((L s hs).gen_inv s ⟨hs.1.inv, hs.2⟩).1, hs.1.rev, hs.1.id⟩,
        ((L s hs).gen_inv s ⟨hs.1.inv, hs.2⟩).2⟩
      gen_den := fun s hs => (L s hs).gen_den s ⟨hs.1.inv, hs.2⟩
      gen_out := fun s hs => (L s hs).gen_out s ⟨hs.1.inv, hs.2⟩
      genV_inv := fun v s h1 h2 hs => ⟨⟨((L s hs).genV_inv v s h1 h2 ⟨hs.1.inv, hs.2⟩).1, hs.1.rev, hs.1.id⟩,
        ((L s hs).genV_inv v s h1 h2 ⟨hs.1.inv, hs.2⟩).2⟩
      genV_den := fun v s h1 h2 hs => (L s hs).genV_den v s h1 h2 ⟨hs.1.inv, hs.2⟩
      genV_out := fun v s h1 h2 hs => (L s hs).genV_out v s h1 h2 ⟨hs.1.inv, hs.2⟩
      add_inv := fun a b ha hb => ⟨⟨((L a ha).add_inv a b ⟨ha.1.inv, ha.2⟩ ⟨hb.1.inv, hb.2⟩).1, ha.1.rev,
        ha.1.id⟩, ((L a ha).add_inv a b ⟨ha.1.inv, ha.2⟩ ⟨hb.1.inv, hb.2⟩).2⟩
      add_den := fun a b ha hb => (L a ha).add_den a b ⟨ha.1.inv, ha.2⟩ ⟨hb.1.inv, hb.2⟩
      zero_inv := fun s hs => ⟨⟨((L s hs).zero_inv s ⟨hs.1.inv, hs.2⟩).1, hs.1.rev, hs.1.id⟩,
        ((L s hs).zero_inv s ⟨hs.1.inv, hs.2⟩).2⟩
      zero_den := fun s hs => (L s hs).zero_den s ⟨hs.1.inv, hs.2⟩ }
  dim := by
    have h := finrank_state (⟨n, 1, r, 0⟩ : MTPar 32)
    have : Module.finrank (ZMod 2) (S n r) = (32 - r) + (n - 1) * 32 := h
    rw [this]
    show _ = mexp
    omega
  pos := by
    show 1 ≤ mexp
    omega
  wpos := by omega
  setUp_inv := fun s f s' f' h h' => by
    obtain ⟨p, a, e, h1, h2, -⟩ := setUpParam_spec h.inv.size hn (f 0) (f 1)
    have h'' : (setUpParam (f 0) (f 1) s).map (fun s' => (s', fun k => f (k + 2))) = some (s', f') := h'
    rw [e] at h''
    injection h'' with e1
    injection e1 with e1 e2
    subst e1
    have hi := h.inv
    exact ⟨⟨hi.size, hi.mexp, hi.rlt, hi.index, hi.upper, hi.lower, by show 1 ≤ p; omega, h2⟩, h.rev, h.id⟩
  seed_inv := fun s h => ⟨(seed_inv h.inv 1).1, h.rev, h.id⟩
  seed_par := fun s h => (seed_inv h.inv 1).2

/-! ### What a line says -/

theorem out_seq {p : Par} (hP : (rec n r p).OK) {x : ℕ → BitVec 32} (hx : IsSeq (rec n r p) x) (k : ℕ) :
    O n r p ((T n r p ^ k) (seqState (rec n r p) x 0)) = bits (temper p (x (k + n))) := by
  have e : (T n r p ^ k) (seqState (rec n r p) x 0) = seqState (rec n r p) x (0 + k) :=
    T_pow_seqState hP hx 0 k
  rw [e]
  show bits (temper p (newWord (P := rec n r p) (seqState (rec n r p) x (0 + k)))) = _
  rw [newWord_seqState hP, ← hx (0 + k), Nat.zero_add]

/-- From the properties of the final object to the properties of the line. -/
theorem line_of {mexp : ℕ} {id maxDelta : ℤ} (hm : mexp + r = 32 * n) (hn : n = mexp / 32 + 1) (hr : r = 32 - mexp % 32)
    (h32 : mexp % 32 ≠ 0) {s : St} (hs : SInv n r id s) (h2 : 2 ≤ s.pos)
    (hid : (s.mata.toNat % 2 ^ 16 : ℕ) = id) (hb : ∀ i, i < 6 → s.maskb.getLsbD i = false)
    (hc : ∀ i, i < 17 → s.maskc.getLsbD i = false) (hp : Primitive2 (T n r (par s)).charpoly mexp)
    (hne : den n r s ≠ 0) {veq : ℕ → ℕ} {d : ℤ} (hd : measure veq 32 s = some d) (hmax : d ≤ maxDelta) :
    GoodLine mexp id maxDelta (lineOf s d) := by
  have hmx : s.mexp = mexp := by have := hs.inv.mexp; omega
  have h1 : 1 ≤ mexp := by omega
  have hrec : recOf (lineOf s d) = rec n r (par s) := by
    show (⟨s.mexp / 32 + 1, s.pos, 32 - s.mexp % 32, s.mata⟩ : MTPar 32) = ⟨n, s.pos, r, s.mata⟩
    rw [hmx, ← hn, ← hr]
  have hOK := rec_ok hs.inv
  have hdim : Module.finrank (ZMod 2) (S n r) = mexp := by rw [finrank_S hs.inv, hmx]
  have hT : ∀ y, aeval (T n r (par s)) (T n r (par s)).charpoly y = 0 := fun y => by
    rw [LinearMap.aeval_self_charpoly]; rfl
  have hO : O n r (par s) ≠ 0 := by
    intro h0
    obtain ⟨y, hy⟩ := newest_surjective hOK h2 (Wd.of (1 : BitVec 32))
    have e1 : newWord (P := rec n r (par s)) y = 1 := congrArg Wd.val hy
    have e2 : bits (temper (par s) (newWord (P := rec n r (par s)) y)) = bits (0 : BitVec 32) := by
      have := LinearMap.congr_fun h0 y
      have h3 : bits (temper (par s) (newWord (P := rec n r (par s)) y)) = 0 := this
      rw [h3]; funext i; simp [bits]
    have e3 := bits_inj e2
    have e4 : temper (par s) 0 = 0 := by
      have := temper_xor (par s) 0 0
      rw [BitVec.xor_self, BitVec.xor_self] at this
      exact this
    have e5 := temper_injective (par s) (e3.trans e4.symm)
    rw [e1] at e5
    exact absurd e5 (by decide)
  have out : ∀ y, IsOutput (lineOf s d) y → ∃ z : S n r, ∀ k, bits (y k) = O n r (par s) ((T n r (par s) ^ k) z) := by
    rintro y ⟨x, hx, hy⟩
    rw [hrec] at hx
    refine ⟨seqState (rec n r (par s)) x 0, fun k => ?_⟩
    rw [out_seq hOK hx, hy k]
    show bits (temper (par s) (x (k + (s.mexp / 32 + 1)))) = _
    rw [hmx, ← hn]
  have out' : ∀ z : S n r, ∃ y, IsOutput (lineOf s d) y ∧ ∀ k, bits (y k) = O n r (par s) ((T n r (par s) ^ k) z) := by
    intro z
    obtain ⟨x, hx, e⟩ := exists_seqState hOK z
    refine ⟨fun k => temper (par s) (x (k + n)), ⟨x, by rw [hrec]; exact hx, fun k => ?_⟩, fun k => ?_⟩
    · show temper (par s) (x (k + n)) = temper (par s) (x (k + (s.mexp / 32 + 1)))
      rw [hmx, ← hn]
    · rw [← e, out_seq hOK hx]
  have hbit : ∀ (x : BitVec 32) i (b : Bool), x.getMsbD i = b ↔ bits x i = if b then 1 else 0 := fun x i b => by
    unfold bits
    cases x.getMsbD i <;> cases b <;> simp
  have heq : ∀ v k, EquidistLine (lineOf s d) v k ↔ Equidist (T n r (par s)) (O n r (par s)) ⊤ v k := by
    intro v k
    constructor
    · intro h a
      obtain ⟨y, hy, h1⟩ := h fun t i => decide (a t i = 1)
      obtain ⟨z, hz⟩ := out y hy
      refine ⟨z, Submodule.mem_top, fun t ht i hi => ?_⟩
      rw [← hz, (hbit _ _ _).1 (h1 t ht i hi)]
      have h01 : ∀ z : ZMod 2, (if decide (z = 1) = true then (1 : ZMod 2) else 0) = z := by decide
      exact h01 _
    · intro h a
      obtain ⟨z, -, hz⟩ := h fun t i => if a t i then 1 else 0
      obtain ⟨y, hy, hyz⟩ := out' z
      refine ⟨y, hy, fun t ht i hi => ?_⟩
      rw [hbit, hyz]
      exact hz t ht i hi
  have hbits0 : ∀ u : BitVec 32, bits u = 0 → u = 0 := fun u hu => bits_inj (by
    rw [hu]; funext i; simp [bits])
  refine ⟨hmx, hs.id, hid, h2, by rw [← hn]; exact hs.inv.posn, hb, hc, ?_, ?_, ?_, hmax⟩
  · obtain ⟨z, hz⟩ : ∃ z, O n r (par s) z ≠ 0 := by
      by_contra hall
      exact hO (LinearMap.ext fun z => by
        by_contra hz
        exact hall ⟨z, hz⟩)
    obtain ⟨y, hy, hyz⟩ := out' z
    refine ⟨y, hy, 0, fun h0 => hz ?_⟩
    have := hyz 0
    rw [h0] at this
    rw [show (T n r (par s) ^ 0) z = z from rfl] at this
    rw [← this]
    funext i; simp [bits]
  · intro y hy ⟨k0, hk0⟩ N
    obtain ⟨z, hz⟩ := out y hy
    have hz0 : z ≠ 0 := by
      rintro rfl
      apply hk0
      apply hbits0
      rw [hz, map_zero, map_zero]
    rw [← obs_period h1 hdim hp hT hO hz0 N]
    simp only [← hz]
    exact ⟨fun h k => by rw [h], fun h k => bits_inj (h k)⟩
  · obtain ⟨d', e1, k, e2, e3⟩ := measure_spec veq hs.inv (by omega) (L := 32) (by omega) le_rfl
    obtain rfl : d' = d := by rw [hd] at e1; injection e1 with e1; exact e1.symm
    have hcyc : cyc (T n r (par s)) (den n r s) = ⊤ := cyc_top h1 hdim hne fun k =>
      period_of_primitive h1 hp (hT _) hne k
    refine ⟨k, fun v v1 v2 => ?_, ?_⟩
    · have := e2 v v1 v2
      rw [hcyc, hs.rev, if_neg (by simp)] at this
      simpa only [heq] using this
    · show d' = _
      rw [e3, hmx]

/-! ### The program -/

theorem setUpParam_pos (r1 r2 : BitVec 32) (s : St) (q : ℕ) :
    setUpParam r1 r2 { s with pos := q } = setUpParam r1 r2 s := rfl

/-- One call of `search`. -/
theorem rtCall_correct {mps : MPS} (hmps : MinPolySeqSpec mps) {prim : ℕ → (ZMod 2)[X] → Option Bool}
    {mexp : ℕ} (hprim : PrimOK prim mexp) (hm : mexp + r = 32 * n) (hn : n = mexp / 32 + 1) (hr : r = 32 - mexp % 32)
    (h32 : mexp % 32 ≠ 0) (hn3 : 3 ≤ n) {id : ℤ} (hid0 : 0 ≤ id) (hid1 : id ≤ 0xffff) (veq : ℕ → ℕ) (fuel : ℕ) (g : St)
    (hg : SInv n r id { g with pos := 2 }) (f : ℕ → BitVec 32) {res : RTRes St (ℕ → BitVec 32)}
    (h : rtCall mps prim veq fuel mexp g f = some res) : ∃ o, res = .found o ∧ SInv n r id o.rand ∧
      ∀ maxDelta, o.delta ≤ maxDelta → GoodLine mexp id maxDelta (lineOf o.rand o.delta) := by
  have h1 : 1 ≤ mexp := by omega
  have F := family hm (by omega) hn3 id
  unfold rtCall at h
  rw [rtSearch_congr (s' := { g with pos := 2 }) (fun src => by
      show (setUpParam _ _ g).map _ = Option.map _ _
      rw [← setUpParam_pos _ _ g 2]) (by show 1 ≤ mexp; omega)] at h
  have hst : ∀ s, SInv n r id s → ∃ p, bestBits (temperOps veq mexp) bb s = some { s with maskb := p 0, maskc := p 1 } ∧
      Low p ∧ SInv n r id { s with maskb := p 0, maskc := p 1 } := fun s hs => by
    obtain ⟨p, e, hp⟩ := temper_spec veq hm h1 s hs.inv hs.rev
    exact ⟨p, e, hp, masks_inv hs.inv _ _, hs.rev, hs.id⟩
  have hst' : ∀ s, SInv n r id s → ∃ t, bestBits (temperOps veq mexp) bb s = some t ∧ SInv n r id t := fun s hs => by
    obtain ⟨p, e, -, hi⟩ := hst s hs
    exact ⟨_, e, hi⟩
  have hmeas : ∀ s, SInv n r id s → ∃ d, measure veq 32 s = some d := fun s hs => by
    have := hs.inv.mexp
    exact (measure_le veq hs.inv (by omega) (by omega) le_rfl).imp fun d hd => hd.1
  have parts := rtSearch_parts (P := Par) hmps F hprim hst' hst' hmeas true fuel _ f hg h
  rcases parts with rfl | ⟨st, t, u, d, ho, ht, hti, hu, hui, hd, rfl⟩
  · exact absurd h (rtSearch_no_throw F hmps hprim (fun s f hs => by
      obtain ⟨p, a, e, -⟩ := setUpParam_spec hs.inv.size hn3 (f 0) (f 1)
      show Option.map _ _ ≠ _
      rw [e]; simp) hg)
  · refine ⟨_, rfl, hui, fun maxDelta hmax => ?_⟩
    rw [if_pos rfl] at ht
    injection ht with ht
    subst ht
    obtain ⟨p, e, hlow, -⟩ := hst _ ho.inv
    rw [hu] at e
    injection e with e
    obtain ⟨q, src, r0, hq, hset, hrand, hpar, hr0⟩ := ho.from_setUp
    obtain ⟨p0, a0, e1, p2, p3, p4⟩ := setUpParam_spec hq.inv.size hn3 (src 0) (src 1)
    have hset' : (setUpParam (src 0) (src 1) q).map (fun s' => (s', fun k => src (k + 2))) = some (r0, st.src) := hset
    rw [e1] at hset'
    injection hset' with hset'
    injection hset' with e2 e3
    have q1 : u.pos = p0 := by
      rw [e]
      have : st.rand.pos = r0.pos := congrArg Par.pos hpar
      rw [← e2] at this
      exact this
    have q2 : u.mata = a0 := by
      rw [e]
      have : st.rand.mata = r0.mata := congrArg Par.mata hpar
      rw [← e2] at this
      exact this
    have hTu : T n r (par u) = T n r (par st.rand) := by rw [e]; rfl
    have hden : den n r u = den n r st.rand := by rw [e]; rfl
    refine line_of hm hn hr h32 hui (by rw [q1]; exact p2) ?_ (by rw [e]; exact hlow.1) (by rw [e]; exact hlow.2) ?_ ?_ hd hmax
    · rw [q2, p4 (by rw [hq.id]; exact hid0) (by rw [hq.id]; exact hid1), hq.id]
    · rw [hTu, ← ho.poly]; exact ho.prim
    · rw [hden, hrand]
      have hp : par ((searchOps mexp).seedOne r0) = par st.rand := ((seed_inv hr0.inv 1).2).trans hpar.symm
      exact stateAt_ne_zero F (s := (searchOps mexp).seedOne r0) (F.seed_inv _ hr0)
        (by rw [hp]; exact ho.max) (seed_ne_zero hr0.inv) _

theorem mainLoop_correct {mps : MPS} (hmps : MinPolySeqSpec mps) {prim : ℕ → (ZMod 2)[X] → Option Bool}
    {mexp : ℕ} (hprim : PrimOK prim mexp) (hm : mexp + r = 32 * n) (hn : n = mexp / 32 + 1) (hr : r = 32 - mexp % 32)
    (h32 : mexp % 32 ≠ 0) (hn3 : 3 ≤ n) {id : ℤ} (hid0 : 0 ≤ id) (hid1 : id ≤ 0xffff) (veq : ℕ → ℕ) (fuel : ℕ)
    (maxDelta : ℤ) (turns : ℕ) (count : ℤ) (g : St) (hg : SInv n r id { g with pos := 2 }) (f : ℕ → BitVec 32)
    {res : Option (List Line)} (h : mainLoop mps prim veq fuel mexp maxDelta turns count g f = some res) :
    ∃ L, res = some L ∧ L.length = count.toNat ∧ ∀ l ∈ L, GoodLine mexp id maxDelta l := by
  induction turns generalizing count g f res with
  | zero => cases h
  | succ turns ih =>
    unfold mainLoop at h
    by_cases hc : count > 0
    · rw [if_pos hc] at h
      cases hs : rtCall mps prim veq fuel mexp g f with
      | none => rw [hs] at h; cases h
      | some q =>
        obtain ⟨o, rfl, ho, hl⟩ := rtCall_correct hmps hprim hm hn hr h32 hn3 hid0 hid1 veq fuel g hg f hs
        have ho' : SInv n r id { o.rand with pos := 2 } := by
          have hi := ho.inv
          exact ⟨⟨hi.size, hi.mexp, hi.rlt, hi.index, hi.upper, hi.lower, by show 1 ≤ 2; omega, by show 2 < n; omega⟩,
            ho.rev, ho.id⟩
        rw [hs] at h
        dsimp only at h
        by_cases hd : o.delta > maxDelta
        · rw [if_pos hd] at h
          exact ih count _ ho' _ h
        · rw [if_neg hd] at h
          cases hrest : mainLoop mps prim veq fuel mexp maxDelta turns (count - 1) o.rand o.src with
          | none => rw [hrest] at h; cases h
          | some q =>
            obtain ⟨L, rfl, hlen, hL⟩ := ih (count - 1) _ ho' _ hrest
            rw [hrest] at h
            injection h with h
            refine ⟨_, h.symm, by rw [List.length_cons, hlen]; omega, fun l hl' => ?_⟩
            rcases List.mem_cons.1 hl' with rfl | hl'
            · exact hl maxDelta (by omega)
            · exact hL l hl'
    · rw [if_neg hc] at h
      injection h with h
      exact ⟨[], h.symm, by rw [List.length_nil]; omega, fun l hl => absurd hl (by simp)⟩

/-- **C87.**  For every exponent and identifier the options accept, any numbers of the parameter source and any
uninitialised contents: whenever `main` ends, it ends normally, exactly `count` lines are printed, and every line is
as claimed.  (`prim` is the primitivity test of the code, C27.) -/
theorem main_correct {mps : MPS} (hmps : MinPolySeqSpec mps) {mexp : ℕ} (hmexp : mexp ∈ allowedMexp) {id : ℤ}
    (hid0 : 0 ≤ id) (hid1 : id ≤ 0xffff) (veq : ℕ → ℕ) (fuel turns : ℕ) (count maxDelta : ℤ) (junkPos : ℕ)
    (junkA : BitVec 32) (junk f : ℕ → BitVec 32) {res : Option (List Line)}
    (h : main mps (Period.primitivityOp none) veq fuel turns mexp id count maxDelta junkPos junkA junk f = some res) :
    ∃ L, res = some L ∧ L.length = count.toNat ∧ ∀ l ∈ L, GoodLine mexp id maxDelta l := by
  have htab : ∀ e ∈ allowedMexp, e ∈ Period.mersenneExponent ∧ e ≤ 216091 ∧ e % 32 ≠ 0 ∧ 64 ≤ e := by decide +kernel
  obtain ⟨t1, t2, t3, t4⟩ := htab mexp hmexp
  have hprim : PrimOK (Period.primitivityOp none) mexp := primOK_mersenne (Mexp.table_prime mexp t1 t2)
  obtain ⟨n, hn⟩ : ∃ n, n = mexp / 32 + 1 := ⟨_, rfl⟩
  obtain ⟨r, hr⟩ : ∃ r, r = 32 - mexp % 32 := ⟨_, rfl⟩
  have e : (mexp / 32 + 1) * 32 - mexp = r := by omega
  unfold main ctor at h
  dsimp only at h
  rw [e, if_pos (by omega)] at h
  refine mainLoop_correct (n := n) (r := r) hmps hprim (by omega) hn hr t3 (by omega) hid0 hid1 veq fuel maxDelta turns
    count _ ?_ f h
  refine ⟨⟨hn.symm, ?_, by omega, ?_, rfl, rfl, by show 1 ≤ 2; omega, by show 2 < n; omega⟩, rfl, rfl⟩
  · show mexp + r = _; omega
  · show mexp / 32 + 1 - 1 < n; omega

-- Runs that print a line: `main_finds` and `finds_mt19937` in `MT2Example`.

end MTT.MTDC
