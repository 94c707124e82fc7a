import Verif.Samples.RMTDCLemmas

/-!
# Specification of a printed line and helper lemmas for C88
-/

namespace MTT.RMT

open Polynomial PIS Search Temper Parity Text

variable {n mexp : ℕ} {mps : MPS}

/-! ### Helper lemmas: after the parity search -/

theorem O_zero (p : Par) (x : S n) : O n p x = 0 ↔ newOf p x = 0 := by
  have h0 : temper p 0 = 0 := by
    have := temper_xor p 0 0
    rwa [BitVec.xor_self, BitVec.xor_self] at this
  constructor
  · intro h
    have h1 : bits (out p x) = 0 := h
    rw [bits_eq_zero] at h1
    exact temper_injective p (h1.trans h0.symm)
  · intro h
    show bits (temper p (newOf p x)) = 0
    rw [h, h0, bits_eq_zero]

/-- The tempering does not hide anything. -/
theorem O_hide {p q : Par} (h1 : p.pos = q.pos) (h2 : p.mata = q.mata) (x : S n) : O n p x = 0 ↔ O n q x = 0 := by
  have h : newOf p x = newOf q x := by unfold newOf new; rw [h1, h2]
  rw [O_zero, O_zero, h]

theorem T_eq {p q : Par} (h1 : p.pos = q.pos) (h2 : p.mata = q.mata) : T n p = T n q := by
  have h : ∀ x : S n, newOf p x = newOf q x := fun x => by unfold newOf new; rw [h1, h2]
  apply LinearMap.ext
  intro x
  show shiftIn n x (Wd.of (newOf p x)) = shiftIn n x (Wd.of (newOf q x))
  rw [h]

theorem O_clean (l : Fields) : O n l.clean.par = O n l.par := by
  apply LinearMap.ext
  intro x
  show bits (temper l.clean.par (newOf l.clean.par x)) = bits (temper l.par (newOf l.par x))
  rw [temper_clean]
  rfl

/-- The object as a line, with the masks as they are. -/
def rawOf (s : St) : Fields := ⟨s.mexp, s.pos, s.mata, s.parity, s.maskb, s.maskc⟩

theorem fieldsOf_eq (s : St) : fieldsOf s = (rawOf s).clean := rfl

theorem SInv.invF {s : St} (h : SInv mexp s) : InvF (mexp / 64 + 1) (rawOf s) s :=
  ⟨⟨h.inv, by show Par.mk _ _ _ _ _ = Par.mk _ _ _ _ _; rw [h.rev]; rfl⟩, rfl, rfl⟩

theorem InvF.sinv {l : Fields} {s : St} (h : InvF (mexp / 64 + 1) l s) (hl : l.mexp = mexp) : SInv mexp s ∧ rawOf s = l := by
  obtain ⟨⟨h1, h2⟩, h3, h4⟩ := h
  obtain ⟨m, size, rev, pos, mata, parity, mb, mc, state, index⟩ := s
  obtain ⟨m', pos', mata', parity', mb', mc'⟩ := l
  simp only [par, Fields.par, Par.mk.injEq] at h2 h3 h4
  obtain ⟨rfl, rfl, rfl, rfl, rfl⟩ := h2
  subst h3; subst h4
  exact ⟨⟨h1, rfl, hl⟩, rfl⟩

theorem reduced_total (hm : MinPolySeqSpec mps) {l : Fields} {s : St} (hs : InvF n l s) (f : (ZMod 2)[X]) :
    ∃ a, reducedCopy mps (ops n) s f = some a ∧ InvF n l a := by
  have h := linGenF n l
  obtain ⟨μ, hμ, hμd, hμa⟩ := exists_outMinpoly h hs (finrank_S n).le
  obtain ⟨m, r, e1, -, e3, e4, -⟩ := charPolyLoop_any hm (LinGen.obs h) hs hμ hμd 64 0 0 1 (by omega) (one_dvd _)
    (fun pos hp => absurd hp (by omega))
  have hinv : InvF n l (stateAt (ops n) s m) := (stateAt_spec h hs m).1
  refine ⟨Lin.annihilate (ops n) (r / f) (stateAt (ops n) s m), ?_, (Lin.annihilate_correct h (r / f) hinv).1⟩
  unfold reducedCopy calcCharPoly
  rw [show s = stateAt (ops n) s 0 from rfl, e1]
  rfl

/-- The component that the program measures: the states whose outputs satisfy `f`, if the object that is left by the
parity search still contains it. -/
def Keeps (n : ℕ) (p : Par) (f : (ZMod 2)[X]) (z : S n) : Prop := ∀ q, obs (T n p) (O n p) (aeval (T n p) q z) = 0 → f ∣ q

theorem Keeps.congr {p q : Par} (h1 : p.pos = q.pos) (h2 : p.mata = q.mata) {f : (ZMod 2)[X]} {z : S n} (h : Keeps n p f z) :
    Keeps n q f z := by
  intro r hr
  apply h
  rw [T_eq h1 h2]
  exact (obs_hide (O_hide h1 h2) _).2 hr

theorem afterParity_eq {σ : Type} {w : ℕ} {G : GenOps σ w} {c : BitVec w → Int} {st1 st2 : σ → Option σ} {fuel : ℕ} {veq : ℕ → ℕ}
    {s a b t : σ} {f : (ZMod 2)[X]} {r : EquidistResult} (h1 : reducedCopy mps G s f = some a) (h2 : st2 a = some b)
    (h3 : st1 b = some t) (h4 : getAllEquidist G c t w G.bitSize fuel veq = .ok r) :
    afterParity mps G c st1 st2 false fuel veq s f = some (.ok (t, r.sum)) := by
  unfold afterParity
  simp only [h1, Bool.false_eq_true, if_false, h2, h3, h4]
  rfl

/-- What `afterParity` does to an object. -/
structure After (mexp : ℕ) (f : (ZMod 2)[X]) (s t : St) (d : ℤ) : Prop where
  inv : SInv mexp t
  pos : t.pos = s.pos
  mata : t.mata = s.mata
  parity : t.parity = s.parity
  measured : ∃ kv : ℕ → ℕ, d = ∑ v ∈ Finset.Icc 1 64, (((mexp / 64 + 1) * 64 / v : ℕ) - (kv v : ℤ)) ∧
    (Keeps (mexp / 64 + 1) (par s) f (den (mexp / 64 + 1) s) → ∀ v, 1 ≤ v → v ≤ 64 →
      IsGreatest {k | Equidist (T (mexp / 64 + 1) (par t)) (O (mexp / 64 + 1) (par t))
        (Full (T (mexp / 64 + 1) (par t)) (O (mexp / 64 + 1) (par t)) f) v k} (kv v))

theorem full_hide {T : S n →ₗ[ZMod 2] S n} {O O' : S n →ₗ[ZMod 2] V} (h : ∀ x, O' x = 0 ↔ O x = 0) (f : (ZMod 2)[X]) :
    Full T O' f = Full T O f := by
  ext x
  exact obs_hide h _

theorem equidist_congr {T : S n →ₗ[ZMod 2] S n} {O : S n →ₗ[ZMod 2] V} {A B : Submodule (ZMod 2) (S n)}
    (h : A.map (obs T O) = B.map (obs T O)) (v k : ℕ) : Equidist T O A v k ↔ Equidist T O B v k := by
  rw [← equidist_map, ← equidist_map (W := B), h]

theorem measured_full (hm : MinPolySeqSpec mps) {s a t : St} (hs : SInv mexp s) (h65 : 65 ≤ mexp) {f : (ZMod 2)[X]}
    (hf : Irreducible f) (hd : f.natDegree = mexp) (ha : reducedCopy mps (ops (mexp / 64 + 1)) s f = some a)
    (hden : den (mexp / 64 + 1) t = den (mexp / 64 + 1) a) (q1 : t.pos = s.pos) (q2 : t.mata = s.mata)
    (hk : Keeps (mexp / 64 + 1) (par s) f (den (mexp / 64 + 1) s)) (v k : ℕ) :
    Equidist (T (mexp / 64 + 1) (par t)) (O (mexp / 64 + 1) (par t))
        (Full (T (mexp / 64 + 1) (par t)) (O (mexp / 64 + 1) (par t)) f) v k ↔
      Equidist (T (mexp / 64 + 1) (par t)) (O (mexp / 64 + 1) (par t))
        (cyc (T (mexp / 64 + 1) (par t)) (den (mexp / 64 + 1) t)) v k := by
  have hF := hs.invF
  have h := linGenF (mexp / 64 + 1) (rawOf s)
  have hps : par s = (rawOf s).par := hF.1.2
  rw [hps] at hk
  have hfac : OutputFactor (ops (mexp / 64 + 1)) s f := fun q hq => hk q (obs_of_ann h hF hq)
  obtain ⟨a', g1, g2, g3, g4⟩ := reducedCopy_spec hm h hF (finrank_S _).le hf (by omega) hfac
  obtain rfl : a = a' := Option.some.inj (ha.symm.trans g1)
  have hbig : Module.finrank (ZMod 2) (S (mexp / 64 + 1)) < 2 * mexp := by
    rw [finrank_S]; show (mexp / 64 + 1) * 64 < _; omega
  have hc := component_full hf hd hbig (component_nonzero h hF (finrank_S _).le hf hfac)
  have hT : T (mexp / 64 + 1) (par t) = T _ (rawOf s).par := T_eq q1 q2
  have hO : ∀ x, O (mexp / 64 + 1) (par t) x = 0 ↔ O _ (rawOf s).par x = 0 := O_hide q1 q2
  rw [hT, full_hide hO, hden]
  exact equidist_congr (map_hide hO (hc.symm.trans g4)) v k

theorem after_spec (hm : MinPolySeqSpec mps) (veq : ℕ → ℕ) {s : St} (hs : SInv mexp s) (h65 : 65 ≤ mexp) {f : (ZMod 2)[X]}
    (hf : Irreducible f) (hd : f.natDegree = mexp) :
    ∃ t d, afterParity mps (ops (mexp / 64 + 1)) Util.calc1posWrap64
        (partialBitPattern (temperOps veq (mexp / 64 + 1)) st64 64) (partialBitPattern (temperOps veq (mexp / 64 + 1)) st64 64)
        false (64 * (65 * ((mexp / 64 + 1) * 64)) + 65) veq s f = some (.ok (t, d)) ∧ After mexp f s t d := by
  obtain ⟨a, a1, a2⟩ := reduced_total hm hs.invF f
  obtain ⟨ha, har⟩ := a2.sinv (show (rawOf s).mexp = mexp from hs.mexp_eq)
  obtain ⟨b1, c1, e1⟩ := st_spec veq ha.inv ha.rev
  obtain ⟨b, hb⟩ : ∃ b : St, b = { a with maskb := b1, maskc := c1 } := ⟨_, rfl⟩
  rw [← hb] at e1
  have hbI : Inv (mexp / 64 + 1) b := by rw [hb]; exact ⟨ha.inv.size, ha.inv.index, ha.inv.pos⟩
  have hbr : b.rev = false := by rw [hb]; exact ha.rev
  obtain ⟨b2, c2, e2⟩ := st_spec veq hbI hbr
  obtain ⟨t, ht⟩ : ∃ t : St, t = { b with maskb := b2, maskc := c2 } := ⟨_, rfl⟩
  rw [← ht] at e2
  have htI : SInv mexp t := by
    rw [ht, hb]; exact ⟨⟨ha.inv.size, ha.inv.index, ha.inv.pos⟩, ha.rev, ha.mexp_eq⟩
  have q1 : t.pos = s.pos := by rw [ht, hb]; exact congrArg Fields.pos har
  have q2 : t.mata = s.mata := by rw [ht, hb]; exact congrArg Fields.mata har
  have q3 : t.parity = s.parity := by rw [ht, hb]; exact congrArg Fields.parity har
  have q4 : den (mexp / 64 + 1) t = den (mexp / 64 + 1) a := by rw [ht, hb]; rfl
  clear ht hb
  obtain ⟨r, r1, r2, r3⟩ := equidist htI.inv veq
  rw [if_neg (by rw [htI.rev]; decide)] at r2
  refine ⟨t, r.sum, afterParity_eq a1 e1 e2 r1, htI, q1, q2, q3, fun v => r.veq (v - 1), r3, fun hk v hv1 hv2 => ?_⟩
  have := r2 v hv1 hv2
  simpa only [measured_full hm hs h65 hf hd a1 q4 q1 q2 hk] using this

/-! ### The words after `seed(1)` -/

/-- The words of a generator with these parameters after `seed(1)`, as the seeding and the recurrence define them. -/
structure IsWords (l : Fields) (x : ℕ → BitVec 64) : Prop where
  first : x 0 = 1
  seeded : ∀ i, 1 ≤ i → i < l.mexp / 64 + 1 →
    x i = BitVec.ofNat 64 i + 6364136223846793005 * (x (i - 1) ^^^ (x (i - 1) >>> 62))
  next : ∀ i, x (i + (l.mexp / 64 + 1)) = new l.par (x i) (x (i + l.pos))

/-- The words by recursion. -/
def words (l : Fields) (i : ℕ) : BitVec 64 :=
  if h0 : i = 0 then 1
  else if h1 : i < l.mexp / 64 + 1 then
    BitVec.ofNat 64 i + 6364136223846793005 * (words l (i - 1) ^^^ (words l (i - 1) >>> 62))
  else if h2 : l.pos < l.mexp / 64 + 1 then new l.par (words l (i - (l.mexp / 64 + 1))) (words l (i - (l.mexp / 64 + 1) + l.pos))
  else 0
termination_by i
decreasing_by all_goals omega

/-- The specification can be met: there are such words. -/
theorem isWords_words (l : Fields) (h : l.pos < l.mexp / 64 + 1) : IsWords l (words l) where
  first := by rw [words, dif_pos rfl]
  seeded i h1 h2 := by rw [words, dif_neg (by omega), dif_pos h2]
  next i := by rw [words, dif_neg (by omega), dif_neg (by omega), dif_pos h, Nat.add_sub_cancel]

theorem seedLoop_low (k : ℕ) : ∀ (i : ℕ) (m : ℕ → BitVec 64) (j : ℕ), j < i → seedLoop k i m j = m j := by
  induction k with
  | zero => intros; rfl
  | succ k ih => intro i m j hj; rw [seedLoop, ih _ _ _ (by omega), Function.update_of_ne (by omega)]

theorem seedLoop_cell (k : ℕ) : ∀ (i : ℕ) (m : ℕ → BitVec 64) (j : ℕ), 1 ≤ i → i ≤ j → j < i + k → seedLoop k i m j =
    BitVec.ofNat 64 j + 6364136223846793005 * (seedLoop k i m (j - 1) ^^^ (seedLoop k i m (j - 1) >>> 62)) := by
  induction k with
  | zero => intros; omega
  | succ k ih =>
    intro i m j h1 h2 h3
    rw [seedLoop]
    by_cases hj : j = i
    · subst hj
      rw [seedLoop_low _ _ _ _ (by omega), Function.update_self, seedLoop_low _ _ _ _ (by omega),
        Function.update_of_ne (by omega)]
    · exact ih _ _ _ (by omega) (by omega) (by omega)

theorem words_den {l : Fields} {x : ℕ → BitVec 64} (hx : IsWords l x) {r : St} (hr : SInv l.mexp r) (h1 : r.pos = l.pos)
    (h2 : r.mata = l.mata) (t : ℕ) : ∀ j, j < l.mexp / 64 + 1 →
      at' ((T (l.mexp / 64 + 1) (par r) ^ t) (den _ (seed 1 r))) j = x (t + j) := by
  induction t with
  | zero =>
    intro j
    induction j with
    | zero =>
      intro hj
      rw [pow_zero, Module.End.one_apply, Nat.zero_add, hx.first]
      unfold at'
      rw [dif_pos hj]
      show (seed 1 r).state ((r.size - 1 + (0 + 1)) % (l.mexp / 64 + 1)) = 1
      rw [hr.inv.size, show (l.mexp / 64 + 1 - 1 + (0 + 1)) % (l.mexp / 64 + 1) = 0 by
        rw [show l.mexp / 64 + 1 - 1 + (0 + 1) = l.mexp / 64 + 1 by omega, Nat.mod_self]]
      exact seed_first 1 r
    | succ j ih =>
      intro hj
      have h0 := ih (by omega)
      rw [pow_zero, Module.End.one_apply, Nat.zero_add] at h0 ⊢
      rw [hx.seeded (j + 1) (by omega) hj, Nat.add_sub_cancel, ← h0]
      have e : ∀ i, i < l.mexp / 64 + 1 → at' (den (l.mexp / 64 + 1) (seed 1 r)) i = seedLoop (r.size - 1) 1 (Function.update r.state 0 1) i := by
        intro i hi
        unfold at'
        rw [dif_pos hi]
        show (seed 1 r).state ((r.size - 1 + (i + 1)) % (l.mexp / 64 + 1)) = _
        rw [hr.inv.size, show l.mexp / 64 + 1 - 1 + (i + 1) = i + (l.mexp / 64 + 1) by omega, Nat.add_mod_right, Nat.mod_eq_of_lt hi]
        show seedLoop (r.size - 1) _ _ _ = _
        rw [hr.inv.size]
      rw [e _ hj, e _ (by omega), seedLoop_cell _ _ _ (j + 1) le_rfl (by omega) (by rw [hr.inv.size]; omega)]
      rfl
  | succ t ih =>
    intro j hj
    rw [pow_succ', Module.End.mul_apply]
    by_cases hn : j + 1 < l.mexp / 64 + 1
    · rw [at_shift _ hn, ih _ hn]; congr 1; omega
    · have hj' : j = l.mexp / 64 := by omega
      have hpos : l.pos < l.mexp / 64 + 1 := h1 ▸ hr.inv.pos
      have h3 := hx.next t
      unfold at'
      rw [dif_pos hj]
      show (shiftIn (l.mexp / 64 + 1) ((T (l.mexp / 64 + 1) (par r) ^ t) (den (l.mexp / 64 + 1) (seed 1 r)))
        (Wd.of (newOf (par r) ((T (l.mexp / 64 + 1) (par r) ^ t) (den (l.mexp / 64 + 1) (seed 1 r))))) ⟨j, hj⟩).val = _
      unfold shiftIn
      rw [dif_neg hn]
      show newOf (par r) ((T (l.mexp / 64 + 1) (par r) ^ t) (den (l.mexp / 64 + 1) (seed 1 r))) = _
      unfold newOf
      rw [ih 0 (by omega), show (par r).pos = l.pos from h1, ih _ hpos, show t + 1 + j = t + (l.mexp / 64 + 1) by omega, h3]
      unfold new
      rw [show (par r).mata = l.mata from h2]
      rfl

/-! ### The statement -/

/-- The state that the parity search leaves: `2 * bitSize()` steps after `seed(1)`, with the newest word replaced by the
parity vector. -/
def leftState (l : Fields) (x : ℕ → BitVec 64) : S (l.mexp / 64 + 1) := fun j =>
  Wd.of (if (j : ℕ) + 1 = l.mexp / 64 + 1 then l.parity else x (2 * ((l.mexp / 64 + 1) * 64) + j))

/-- By how much the `delta` of the program is larger than the sum of the defects relative to `mexp`. -/
def excess (mexp : ℕ) : ℤ := ∑ v ∈ Finset.Icc 1 64, (((mexp / 64 + 1) * 64 / v : ℕ) - (mexp / v : ℕ) : ℤ)

/-- What a printed line means. -/
structure GoodLine (mexp : ℕ) (l : Line) : Prop where
  mexp_eq : l.param.mexp = mexp
  pos : l.param.pos < mexp / 64 + 1
  clean : l.param.clean = l.param
  /-- Whatever the masks do, the outputs after `seed(1)` do not become periodic with a shorter period. -/
  period : ∀ x, IsWords l.param x → ∀ k, 1 ≤ k →
    (∃ t0, ∀ t, t0 ≤ t → temper l.param.par (x (t + k + (mexp / 64 + 1))) = temper l.param.par (x (t + (mexp / 64 + 1)))) →
    2 ^ mexp - 1 ∣ k
  /-- There is a large component; and if the state left by the parity search still contains it, `delta` is what
  `calc_equidist` prints (C75) plus the excess. -/
  table : ∃ f veq, Irreducible f ∧ f.natDegree = mexp ∧
    (∃ y ∈ Large l.param f, obs (T _ l.param.par) (O _ l.param.par) y ≠ 0) ∧
    ∀ x, IsWords l.param x → Keeps _ l.param.par f (leftState l.param x) → Table l.param f veq (l.delta - excess mexp)

theorem clean_clean (l : Fields) : l.clean.clean = l.clean := by
  unfold Fields.clean
  have h17 : ∀ (y : BitVec 64) (k : ℕ), (((y >>> k) <<< k) >>> k) <<< k = (y >>> k) <<< k := by
    intro y k
    apply BitVec.eq_of_getLsbD_eq
    intro i hi
    simp only [BitVec.getLsbD_shiftLeft, BitVec.getLsbD_ushiftRight]
    by_cases h : i < k
    · simp [h]
    · have : k + (i - k) = i := by omega
      simp [h, this]
  simp only [h17]

theorem at_last {p : Par} (x : S n) (hn : 0 < n) : at' (T n p x) (n - 1) = newOf p x := by
  unfold at'
  rw [dif_pos (by omega)]
  show (shiftIn n x (Wd.of (newOf p x)) ⟨n - 1, by omega⟩).val = _
  unfold shiftIn
  rw [dif_neg (by show ¬ (n - 1 + 1 < n); omega)]
  rfl

theorem period_words {l : Fields} (h65 : 65 ≤ l.mexp) (hprime : (2 ^ l.mexp - 1).Prime) {r : St} (hr : SInv l.mexp r)
    (p1 : r.pos = l.pos) (p2 : r.mata = l.mata) {p f : (ZMod 2)[X]} (hirr : Irreducible f) (hdeg : f.natDegree = l.mexp)
    (hp : IsSeqMinpoly p (Search.bitAt (ops (l.mexp / 64 + 1)) (seed 1 r) 0)) (hdvd : f ∣ p)
    {x : ℕ → BitVec 64} (hx : IsWords l x) {k t0 : ℕ}
    (ht : ∀ t, t0 ≤ t → temper l.par (x (t + k + (l.mexp / 64 + 1))) = temper l.par (x (t + (l.mexp / 64 + 1)))) :
    2 ^ l.mexp - 1 ∣ k := by
  have hseed : SInv l.mexp (seed 1 r) ∧ par (seed 1 r) = par r := ⟨seed_sinv hr, rfl⟩
  have L := linGenS (mexp := l.mexp) (par r)
  have hnew : ∀ i, newOf (par r) ((T (l.mexp / 64 + 1) (par r) ^ i) (den (l.mexp / 64 + 1) (seed 1 r))) = x (i + (l.mexp / 64 + 1)) := by
    intro i
    have := words_den hx hr p1 p2 (i + 1) (l.mexp / 64 + 1 - 1) (by omega)
    rw [pow_succ', Module.End.mul_apply, at_last _ (by omega)] at this
    rw [this]
    congr 1
    omega
  have hout : ∀ i, outAt (ops (l.mexp / 64 + 1)) (seed 1 r) i = temper (par r) (x (i + (l.mexp / 64 + 1))) := by
    intro i
    apply bits_inj
    rw [outAt_spec L hseed, ← hnew]
    rfl
  have hann : Ann (X ^ t0 * (X ^ k - 1)) (Search.bitAt (ops (l.mexp / 64 + 1)) (seed 1 r) 0) := by
    rw [ann_iff]
    funext i
    rw [map_mul, Module.End.mul_apply, map_pow, aeval_X, shiftOp_pow, map_sub, map_pow, aeval_X, map_one,
      LinearMap.sub_apply, Pi.sub_apply, shiftOp_pow, Module.End.one_apply]
    unfold Search.bitAt
    have := temper_injective _ (ht (i + t0) (by omega))
    rw [hout, hout, this, sub_self]
    rfl
  have hd := hdvd.trans (hp.2.2 _ hann)
  have hX : ¬ f ∣ X := not_dvd_X (by omega)
  have hprim : Primitive2 f l.mexp := by
    rw [← hdeg]
    exact Period.primitive_of_mersenne hirr (by rw [hdeg]; exact hprime)
  rcases hirr.prime.dvd_or_dvd hd with h3 | h3
  · exact absurd (hirr.prime.dvd_of_dvd_pow h3) hX
  · exact (hprim.2 k).1 h3

theorem large_ne {l : Fields} {r : St} (hr : SInv l.mexp r) (p1 : r.pos = l.pos) (p2 : r.mata = l.mata) {p f : (ZMod 2)[X]}
    (hirr : Irreducible f) (hp : IsSeqMinpoly p (Search.bitAt (ops (l.mexp / 64 + 1)) (seed 1 r) 0)) (hdvd : f ∣ p) :
    ∃ y ∈ Large l f, obs (T _ l.par) (O _ l.par) y ≠ 0 := by
  have hseed : SInv l.mexp (seed 1 r) ∧ par (seed 1 r) = par r := ⟨seed_sinv hr, rfl⟩
  have L := linGenS (mexp := l.mexp) (par r)
  have hTr : T (l.mexp / 64 + 1) (par r) = T (l.mexp / 64 + 1) l.par := T_eq p1 p2
  have hOr : ∀ y, O (l.mexp / 64 + 1) l.par y = 0 ↔ O (l.mexp / 64 + 1) (par r) y = 0 := O_hide p1.symm p2.symm
  have hfac : OutputFactor (ops (l.mexp / 64 + 1)) (seed 1 r) f := fun q hq => hdvd.trans (hp.2.2 q (hq 0 (by decide)))
  obtain ⟨y, hy, hy0⟩ := component_nonzero L hseed (finrank_S _).le hirr hfac
  have hy2 : y ∈ Full (T (l.mexp / 64 + 1) (par r)) (O (l.mexp / 64 + 1) (par r)) f := hy.2
  rw [hTr] at hy0 hy2
  rw [← full_hide hOr] at hy2
  exact ⟨y, hy2, fun h => hy0 ((obs_hide hOr _).1 h)⟩

theorem left_eq {l : Fields} {x : ℕ → BitVec 64} (hx : IsWords l x) {r g : St} (hr : SInv l.mexp r) (p1 : r.pos = l.pos)
    (p2 : r.mata = l.mata) (hg : SInv l.mexp g)
    (hrand : g = stateAt (ops (l.mexp / 64 + 1)) (seed 1 r) (2 * ((l.mexp / 64 + 1) * 64))) :
    leftState l x = den (l.mexp / 64 + 1) (setParityValue l.parity g) := by
  have hseed : SInv l.mexp (seed 1 r) ∧ par (seed 1 r) = par r := ⟨seed_sinv hr, rfl⟩
  have h1 := (stateAt_spec (linGenS (mexp := l.mexp) (par r)) hseed (2 * ((l.mexp / 64 + 1) * 64))).2
  rw [← hrand] at h1
  funext j
  have h2 := words_den hx hr p1 p2 (2 * ((l.mexp / 64 + 1) * 64)) j j.2
  rw [← h1] at h2
  unfold at' at h2
  rw [dif_pos j.2] at h2
  unfold leftState
  apply Wd.ext
  show (if (j : ℕ) + 1 = l.mexp / 64 + 1 then l.parity else _) = (setParityValue l.parity g).state ((g.index + (j + 1)) % (l.mexp / 64 + 1))
  show _ = Function.update g.state (g.index % g.size) l.parity ((g.index + (j + 1)) % (l.mexp / 64 + 1))
  have hi := hg.inv.index
  rw [hg.inv.size, Nat.mod_eq_of_lt hi]
  have hjj := j.2
  by_cases hj : (j : ℕ) + 1 = l.mexp / 64 + 1
  · rw [if_pos hj, hj, Nat.add_mod_right, Nat.mod_eq_of_lt hi, Function.update_self]
  · rw [if_neg hj, Function.update_of_ne, ← h2]
    · rfl
    · intro h
      rcases Nat.lt_or_ge (g.index + (j + 1)) (l.mexp / 64 + 1) with h3 | h3
      · rw [Nat.mod_eq_of_lt h3] at h; omega
      · rw [Nat.mod_eq_sub_mod h3, Nat.mod_eq_of_lt (by omega)] at h; omega

theorem good_aux {l : Fields} {d : ℤ} {r g : St} {p f : (ZMod 2)[X]} {kv : ℕ → ℕ} (h65 : 65 ≤ l.mexp)
    (hprime : (2 ^ l.mexp - 1).Prime) (hr : SInv l.mexp r) (hI : SInv l.mexp g) (p1 : r.pos = l.pos) (p2 : r.mata = l.mata)
    (hirr : Irreducible f) (hdeg : f.natDegree = l.mexp)
    (hp : IsSeqMinpoly p (Search.bitAt (ops (l.mexp / 64 + 1)) (seed 1 r) 0)) (hdvd : f ∣ p)
    (hrand : g = stateAt (ops (l.mexp / 64 + 1)) (seed 1 r) (2 * ((l.mexp / 64 + 1) * 64)))
    (p6 : l.clean = l) (p9 : l.pos < l.mexp / 64 + 1)
    (k1 : d = ∑ v ∈ Finset.Icc 1 64, (((l.mexp / 64 + 1) * 64 / v : ℕ) - (kv v : ℤ)))
    (k2 : Keeps (l.mexp / 64 + 1) l.par f (den (l.mexp / 64 + 1) (setParityValue l.parity g)) → ∀ v, 1 ≤ v → v ≤ 64 →
      IsGreatest {k | Equidist (T (l.mexp / 64 + 1) l.par) (O (l.mexp / 64 + 1) l.par)
        (Full (T (l.mexp / 64 + 1) l.par) (O (l.mexp / 64 + 1) l.par) f) v k} (kv v)) : GoodLine l.mexp ⟨l, d⟩ := by
  refine ⟨rfl, p9, p6, ?_, f, fun j => kv (j + 1), hirr, hdeg, large_ne hr p1 p2 hirr hp hdvd, ?_⟩
  · rintro x hx k hk ⟨t0, ht⟩
    exact period_words h65 hprime hr p1 p2 hirr hdeg hp hdvd hx ht
  · intro x hx hk
    have hz : leftState l x = den (l.mexp / 64 + 1) (setParityValue l.parity g) := left_eq hx hr p1 p2 hI hrand
    rw [show (Line.mk l d).param = l from rfl, hz] at hk
    have hkv := k2 hk
    refine ⟨hirr, hdeg, large_ne hr p1 p2 hirr hp hdvd, fun v hv1 hv2 => ?_, ?_⟩
    · dsimp only
      rw [show v - 1 + 1 = v by omega]
      exact hkv v hv1 hv2
    · show d - excess l.mexp = _
      rw [k1]
      unfold excess
      rw [← Finset.sum_sub_distrib]
      apply Finset.sum_congr rfl
      intro v hv
      rw [Finset.mem_Icc] at hv
      dsimp only
      rw [show v - 1 + 1 = v by omega]
      ring

theorem fieldsOf_parts (t : St) : (fieldsOf t).mexp = t.mexp ∧ (fieldsOf t).pos = t.pos ∧ (fieldsOf t).mata = t.mata ∧
    (fieldsOf t).parity = t.parity := by
  unfold fieldsOf getParamString
  exact ⟨rfl, rfl, rfl, rfl⟩

/-- An object that the search accepts makes a good line. -/
theorem good_of_found (h65 : 65 ≤ mexp) (hprime : (2 ^ mexp - 1).Prime) {st : RSt St (ℕ → BitVec 64)} (hst : Found mexp st)
    {v : BitVec 64} {t : St} {d : ℤ} (ha : After mexp st.irreducible (setParityValue v st.rand) t d) :
    GoodLine mexp ⟨fieldsOf t, d⟩ := by
  obtain ⟨hI, hirr, hdeg, r, p, hr, hpar, hp, hdvd, hrand⟩ := hst
  obtain ⟨e2, e3, e4, e5, kv, k1, k2⟩ := ha
  have hm' := (fieldsOf_parts t).1
  have q1 := (fieldsOf_parts t).2.1
  have q2 := (fieldsOf_parts t).2.2.1
  have q3 := (fieldsOf_parts t).2.2.2
  have p4 : O (mexp / 64 + 1) (fieldsOf t).par = O (mexp / 64 + 1) (par t) := by
    rw [e2.invF.1.2, fieldsOf_eq]; exact O_clean _
  have p6 : (fieldsOf t).clean = fieldsOf t := by rw [fieldsOf_eq]; exact clean_clean _
  generalize fieldsOf t = l at *
  obtain rfl : l.mexp = mexp := hm'.trans e2.mexp_eq
  obtain rfl : l.parity = v := q3.trans e5
  have p5 : T (l.mexp / 64 + 1) l.par = T (l.mexp / 64 + 1) (par t) := T_eq (p := l.par) (q := par t) q1 q2
  rw [← p4, ← p5] at k2
  refine good_aux h65 hprime hr hI (((congrArg Par.pos hpar).trans e3.symm).trans q1.symm)
    (((congrArg Par.mata hpar).trans e4.symm).trans q2.symm) hirr hdeg hp hdvd hrand p6 (by rw [q1]; exact e2.inv.pos) k1
    fun hk => k2 ?_
  exact hk.congr (q1.trans e3) (q2.trans e4)

end MTT.RMT
