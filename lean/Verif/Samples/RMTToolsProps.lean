import Verif.Samples.RMTTools
import Verif.Samples.RMTProps
import Verif.Samples.LineTextProps
import Verif.Search.ReducibleProps
import Verif.Period.Props
import Verif.Mexp.Props

/-!
# C75, C76: the tools of the RMT sample
-/

namespace MTT.RMT

open Polynomial PIS Search Text

variable {n : ℕ} {mps : MPS}

/-- The parameters of a line. -/
def Fields.par (l : Fields) : Par := ⟨l.pos, l.mata, l.maskb, l.maskc, false⟩

/-- The state that the tools start from: seeded with 1234. -/
def Fields.start (l : Fields) (junk : ℕ → BitVec 64) : S (l.mexp / 64 + 1) := den (l.mexp / 64 + 1) (l.gen junk)

/-- The line as it would be printed: the masks without the bits that are never used. -/
def Fields.clean (l : Fields) : Fields :=
  { l with maskb := (l.maskb >>> 17) <<< 17, maskc := (l.maskc >>> 37) <<< 37 }

/-- What the calculations do not change. -/
def InvF (n : ℕ) (l : Fields) (s : St) : Prop :=
  (Inv n s ∧ par s = l.par) ∧ s.mexp = l.mexp ∧ s.parity = l.parity

theorem linGenF (n : ℕ) (l : Fields) : LinGen (ops n) (InvF n l) (den n) (T n l.par) (O n l.par) := by
  have h := linGen (n := n) l.par rfl
  exact
    { gen_inv := fun s hs => ⟨h.gen_inv s hs.1, hs.2⟩
      gen_den := fun s hs => h.gen_den s hs.1
      gen_out := fun s hs => h.gen_out s hs.1
      genV_inv := fun v s h1 h2 hs => ⟨h.genV_inv v s h1 h2 hs.1, hs.2⟩
      genV_den := fun v s h1 h2 hs => h.genV_den v s h1 h2 hs.1
      genV_out := fun v s h1 h2 hs => h.genV_out v s h1 h2 hs.1
      add_inv := fun a b ha hb => ⟨h.add_inv a b ha.1 hb.1, ha.2⟩
      add_den := fun a b ha hb => h.add_den a b ha.1 hb.1
      zero_inv := fun s hs => ⟨h.zero_inv s hs.1, hs.2⟩
      zero_den := fun s hs => h.zero_den s hs.1 }

theorem gen_inv (l : Fields) (hp : l.pos < l.mexp / 64 + 1) (junk : ℕ → BitVec 64) : InvF (l.mexp / 64 + 1) l (l.gen junk) :=
  ⟨⟨⟨rfl, by show l.mexp / 64 + 1 - 1 < _; omega, hp⟩, rfl⟩, rfl, rfl⟩

theorem fields_of_inv {l : Fields} {s : St} (hs : InvF n l s) : fieldsOf s = l.clean := by
  obtain ⟨⟨h1, h2⟩, h3, h4⟩ := hs
  have e1 : s.pos = l.pos := congrArg Par.pos h2
  have e2 : s.mata = l.mata := congrArg Par.mata h2
  have e3 : s.maskb = l.maskb := congrArg Par.maskb h2
  have e4 : s.maskc = l.maskc := congrArg Par.maskc h2
  simp only [fieldsOf, getParamString, Fields.clean, e1, e2, e3, e4, h3, h4]

/-- The large component of a generator with these parameters: the states whose outputs satisfy the recurrence `f`. -/
noncomputable def Large (l : Fields) (f : (ZMod 2)[X]) : Submodule (ZMod 2) (S (l.mexp / 64 + 1)) :=
  Full (T _ l.par) (O _ l.par) f

/-- The minimal polynomial of the lowest output bit after `seed(1234)`. -/
def IsStartPoly (l : Fields) (junk : ℕ → BitVec 64) (p : (ZMod 2)[X]) : Prop :=
  IsSeqMinpoly p (Search.bitAt (ops (l.mexp / 64 + 1)) (l.gen junk) 0)

/-- The part of the calculation common to both tools. -/
theorem first_poly (hm : MinPolySeqSpec mps) (l : Fields) (hp : l.pos < l.mexp / 64 + 1) (junk : ℕ → BitVec 64) :
    ∃ p, minpoly mps (ops (l.mexp / 64 + 1)) 0 0 (l.gen junk) =
      some (stateAt (ops (l.mexp / 64 + 1)) (l.gen junk) (2 * ((l.mexp / 64 + 1) * 64)), p) ∧ IsStartPoly l junk p :=
  minpoly_dim hm (linGenF _ l) (gen_inv l hp junk) (pos := 0) (by decide) (finrank_S _).le

theorem output_factor {l : Fields} {junk : ℕ → BitVec 64} {p f : (ZMod 2)[X]} (hp : IsStartPoly l junk p) (hf : f ∣ p) :
    OutputFactor (ops (l.mexp / 64 + 1)) (l.gen junk) f :=
  fun q hq => hf.trans (hp.2.2 q (hq 0 (by decide)))

/-- What a printed table means: `f` is an irreducible polynomial of degree `mexp`, its component is not trivial, `veq[v-1]`
is the dimension of equidistribution of the component with `v`-bit accuracy and `sum` is the total defect. -/
structure Table (l : Fields) (f : (ZMod 2)[X]) (veq : ℕ → ℕ) (sum : ℤ) : Prop where
  irr : Irreducible f
  deg : f.natDegree = l.mexp
  large : ∃ x ∈ Large l f, obs (T _ l.par) (O _ l.par) x ≠ 0
  kv : ∀ v, 1 ≤ v → v ≤ 64 → IsGreatest {k | Equidist (T _ l.par) (O _ l.par) (Large l f) v k} (veq (v - 1))
  delta : sum = ∑ v ∈ Finset.Icc 1 64, ((l.mexp / v : ℕ) - (veq (v - 1) : ℤ))

/-- **C75.**  `calc_equidist` of the RMT sample on a parameter line with `mexp ≥ 65` and `pos` in range, whatever the other
parameters (also for a singular transition): it executes nothing undefined and throws nothing; it prints a table exactly if
the minimal polynomial of the lowest output bit after `seed(1234)` has an irreducible factor of degree `mexp`, and else fails; the line it prints
is the line it was given, with the masks cleaned; and the numbers are the dimensions of equidistribution of the large
component, with the total defect relative to `mexp`. -/
theorem calcEquidist_correct (hm : MinPolySeqSpec mps) {arg : List Char} {l : Fields} (hl : parse arg = some l)
    (h1 : 65 ≤ l.mexp) (hp : l.pos < l.mexp / 64 + 1) (junk : ℕ → BitVec 64) (veq0 : ℕ → ℕ) :
    (calcEquidist mps junk veq0 arg = .fails ∧
      ∀ p f, IsStartPoly l junk p → Irreducible f → f.natDegree = l.mexp → ¬ f ∣ p) ∨
    ∃ f r, calcEquidist mps junk veq0 arg = .printed (l.clean, r) ∧ Table l f r.veq r.sum ∧
      ∃ p, IsStartPoly l junk p ∧ f ∣ p := by
  have h := linGenF (l.mexp / 64 + 1) l
  have hs := gen_inv l hp junk
  have hdim := finrank_S (l.mexp / 64 + 1)
  have hbig : Module.finrank (ZMod 2) (S (l.mexp / 64 + 1)) < 2 * l.mexp := by
    rw [hdim]; show (l.mexp / 64 + 1) * 64 < _; omega
  obtain ⟨p, e1, e2⟩ := first_poly hm l hp junk
  obtain ⟨b, r, g1, g2, g3, -⟩ := Period.hasFactorOfDegree_correct p (degree := l.mexp) (by omega) (fuel := p.natDegree + 1) le_rfl
  unfold calcEquidist
  rw [hl]
  simp only [e1, g1]
  obtain ⟨μ, hμ, hμd, hμa⟩ := exists_outMinpoly h hs hdim.le
  have hpμ : p ∣ μ := e2.2.2 μ (hμa 0 (by decide))
  cases b with
  | false =>
    refine .inl ⟨rfl, fun p' f hp' hf hd hdvd => ?_⟩
    rw [hp'.unique e2] at hdvd
    have hdeg : p.natDegree < 2 * l.mexp := by
      have := natDegree_le_of_dvd hpμ hμ.1
      have h3 : (ops (l.mexp / 64 + 1)).bitSize < 2 * l.mexp := hdim ▸ hbig
      omega
    have := Period.hasFactorOfDegree_half p f e2.1 (by omega) (fuel := p.natDegree + 1) le_rfl hf hdvd hd hdeg
    rw [g1] at this
    cases this
  | true =>
    obtain ⟨hr, hrd⟩ := g3 rfl
    refine .inr ⟨r, ?_⟩
    have hX := not_dvd_X (show 2 ≤ r.natDegree by omega)
    obtain ⟨m, c, c1, c2, c3, c4, -⟩ := charPolyLoop_any hm (LinGen.obs h) hs hμ hμd 64 0 (2 * ((l.mexp / 64 + 1) * 64)) p
      (by omega) hpμ (fun pos hp => absurd hp (by omega))
    have hinv : InvF (l.mexp / 64 + 1) l (stateAt (ops (l.mexp / 64 + 1)) (l.gen junk) m) := (stateAt_spec h hs m).1
    have hden := (stateAt_spec h hs m).2
    have hann := obs_of_ann h hinv c4
    rw [show calcCharPoly mps (ops (l.mexp / 64 + 1)) (stateAt (ops (l.mexp / 64 + 1)) (l.gen junk)
      (2 * ((l.mexp / 64 + 1) * 64))) p = _ from c1]
    dsimp only
    have hc0 : c ≠ 0 := fun h0 => hμ.1 (by rw [h0] at c3; exact zero_dvd_iff.1 c3)
    obtain ⟨q, rfl⟩ := g2.trans c2
    have hq : r * q / r = q := mul_div_cancel_left₀ _ hr.ne_zero
    rw [hq, if_pos (right_ne_zero_of_mul hc0)]
    obtain ⟨a1, a2⟩ := Lin.annihilate_correct h q hinv
    set a := Lin.annihilate (ops (l.mexp / 64 + 1)) q (stateAt (ops (l.mexp / 64 + 1)) (l.gen junk) m)
    have hf : obs (T (l.mexp / 64 + 1) l.par) (O (l.mexp / 64 + 1) l.par) (aeval (T (l.mexp / 64 + 1) l.par) r (den (l.mexp / 64 + 1) a)) = 0 := by
      rw [a2, ← Module.End.mul_apply, ← map_mul]; exact hann
    obtain ⟨p', d1, -⟩ := minpoly_dim hm h a1 (pos := 0) (by decide) hdim.le
    simp only [Nat.cast_zero] at d1
    rw [d1]
    dsimp only
    set j := 2 * (ops (l.mexp / 64 + 1)).bitSize
    have b1 := (stateAt_spec h a1 j).1
    have b2 := (stateAt_spec h a1 j).2
    have hfb : aeval shiftV r (obs (T (l.mexp / 64 + 1) l.par) (O (l.mexp / 64 + 1) l.par) (den (l.mexp / 64 + 1) (stateAt (ops (l.mexp / 64 + 1)) a j))) = 0 := by
      rw [b2, ← shiftV_pow]
      exact cyc_annihilated shiftV (by rw [aeval_obs]; exact hf) (cyc_pow shiftV (cyc_self shiftV _) j)
    have hle : r.natDegree ≤ (ops (l.mexp / 64 + 1)).bitSize := (natDegree_le_of_dvd (g2.trans hpμ) hμ.1).trans hμd
    obtain ⟨t, t1, t2, t3, t4⟩ := getAllEquidist_correct (LinGen.obs h) b1 (monic_of_ne hr.ne_zero) hfb (by omega)
      hrd.le Util.isCalc1pos_64 (bitLen := 64) (by omega) (by omega) (fuel := 64 * (65 * l.mexp) + 65) (by rw [hrd]) veq0
    rw [t1]
    have hne := component_nonzero h hs hdim.le hr (output_factor e2 g2)
    have hcomp : (Large l r).map (obs (T (l.mexp / 64 + 1) l.par) (O (l.mexp / 64 + 1) l.par))
        = (cyc (T (l.mexp / 64 + 1) l.par) (den (l.mexp / 64 + 1) (stateAt (ops (l.mexp / 64 + 1)) a j))).map (obs (T (l.mexp / 64 + 1) l.par) (O (l.mexp / 64 + 1) l.par)) := by
      rw [hden] at hann a2
      rw [map_cyc, b2, a2, ← component_of_quotient hμ hr hX rfl c3 m hann j]
      exact (component_full hr hrd hbig hne).symm
    refine ⟨t, by rw [fields_of_inv b1], ⟨hr, hrd, ?_, fun v hv1 hv2 => ?_, t4⟩, p, e2, g2⟩
    · obtain ⟨x, hx1, hx2⟩ := hne
      exact ⟨x, hx1.2, hx2⟩
    · have := t2 v hv1 hv2
      rw [← map_cyc, ← hcomp] at this
      simpa only [equidist_map] using this

/-- **C75.**  The polynomial and the numbers are determined by the parameters (not by the seed, the parity vector or the
contents of uninitialised memory). -/
theorem Table.unique {l l' : Fields} (he : l.mexp = l'.mexp) (hpar : l.par = l'.par) (h1 : 65 ≤ l.mexp)
    {f f' : (ZMod 2)[X]} {veq veq' : ℕ → ℕ} {sum sum' : ℤ} (h : Table l f veq sum) (h' : Table l' f' veq' sum') :
    f = f' ∧ (∀ j < 64, veq j = veq' j) ∧ sum = sum' := by
  obtain ⟨mexp, pos, mata, parity, mb, mc⟩ := l
  obtain ⟨mexp', pos', mata', parity', mb', mc'⟩ := l'
  dsimp only at he h1
  subst he
  simp only [Fields.par, Par.mk.injEq, and_true] at hpar
  obtain ⟨rfl, rfl, rfl, rfl⟩ := hpar
  have hbig : Module.finrank (ZMod 2) (S (mexp / 64 + 1)) < 2 * mexp := by
    rw [finrank_S]; show (mexp / 64 + 1) * 64 < _; omega
  have hf : f = f' := full_unique h.irr h'.irr h.deg h'.deg hbig h.large h'.large
  subst hf
  have hv : ∀ j < 64, veq j = veq' j := fun j hj =>
    (h.kv (j + 1) (by omega) (by omega)).unique (h'.kv (j + 1) (by omega) (by omega))
  refine ⟨rfl, hv, ?_⟩
  rw [h.delta, h'.delta]
  apply Finset.sum_congr rfl
  intro v hv'
  rw [Finset.mem_Icc] at hv'
  rw [hv (v - 1) (by omega)]

/-- **C75.**  A line that the search prints (its masks are clean) is reproduced: text in, text out, followed by the sum of
the defects. -/
theorem calcEquidist_line (hm : MinPolySeqSpec mps) (l : Fields) (hclean : l.clean = l) {rest : List Char} (hr : Ends rest)
    (h1 : 65 ≤ l.mexp) (h3 : l.mexp < 2 ^ 31) (hp : l.pos < l.mexp / 64 + 1) (junk : ℕ → BitVec 64) (veq0 : ℕ → ℕ) :
    calcEquidist mps junk veq0 (getString l ++ rest) = .fails ∨
    ∃ f r, calcEquidist mps junk veq0 (getString l ++ rest) = .printed (l, r) ∧ Table l f r.veq r.sum := by
  have hpos : l.pos < 2 ^ 31 := by omega
  rcases calcEquidist_correct hm (parse_getString l h3 hpos hr) h1 hp junk veq0 with ⟨e, -⟩ | ⟨f, r, e1, e2, -⟩
  · exact .inl e
  · exact .inr ⟨f, r, by rw [e1, hclean], e2⟩

/-- What `calc_period` says: the outputs after `seed(1234)` do not become periodic with a shorter period. -/
def PeriodAtLeast (l : Fields) (junk : ℕ → BitVec 64) (N : ℕ) : Prop :=
  ∀ k, 1 ≤ k → (∃ t0, ∀ t, t0 ≤ t → outAt (ops (l.mexp / 64 + 1)) (l.gen junk) (t + k) =
    outAt (ops (l.mexp / 64 + 1)) (l.gen junk) t) → N ∣ k

/-- The object of `calc_period` differs from that of `calc_equidist` only in the bits of the masks that are never used. -/
theorem period_gen (l : Fields) (junk : ℕ → BitVec 64) :
    seed 1234 (getParamString (setParityValue l.parity (ctorPar l.mexp l.pos l.mata l.maskb l.maskc 1234 junk)))
      = { l.gen junk with maskb := (l.maskb >>> 17) <<< 17, maskc := (l.maskc >>> 37) <<< 37 } := rfl

theorem temper_clean (l : Fields) (x : BitVec 64) : temper l.clean.par x = temper l.par x := by
  unfold temper Fields.par Fields.clean
  dsimp only
  rw [shl_shr_shl, shl_shr_shl]

theorem stateAt_clean (s : St) (b c : BitVec 64) (k n : ℕ) :
    stateAt (ops n) { s with maskb := b, maskc := c } k = { stateAt (ops n) s k with maskb := b, maskc := c } := by
  induction k with
  | zero => rfl
  | succ k ih =>
    show (generate (stateAt (ops n) { s with maskb := b, maskc := c } k)).1 = _
    rw [ih]; rfl

theorem outAt_clean (s : St) (n k : ℕ) :
    outAt (ops n) { s with maskb := (s.maskb >>> 17) <<< 17, maskc := (s.maskc >>> 37) <<< 37 } k = outAt (ops n) s k := by
  have hb : ∀ k, (stateAt (ops n) s k).maskb = s.maskb ∧ (stateAt (ops n) s k).maskc = s.maskc := by
    intro k
    induction k with
    | zero => exact ⟨rfl, rfl⟩
    | succ k ih => exact ih
  unfold outAt
  rw [stateAt_clean, ← (hb k).1, ← (hb k).2]
  show (generate _).2 = (generate _).2
  simp only [generate, shl_shr_shl]

theorem inv_clean {l : Fields} {s : St} (hs : InvF n l s) :
    InvF n l.clean { s with maskb := (l.maskb >>> 17) <<< 17, maskc := (l.maskc >>> 37) <<< 37 } := by
  obtain ⟨⟨h1, h2⟩, h3, h4⟩ := hs
  refine ⟨⟨⟨h1.size, h1.index, h1.pos⟩, ?_⟩, by simpa only [Fields.clean] using h3, by simpa only [Fields.clean] using h4⟩
  have e1 : s.pos = l.pos := congrArg Par.pos h2
  have e2 : s.mata = l.mata := congrArg Par.mata h2
  have e3 : s.rev = false := congrArg Par.rev h2
  simp only [par, Fields.par, Fields.clean, e1, e2, e3]

/-- **C76.**  `calc_period` of the RMT sample prints, for a parameter line with a Mersenne exponent `mexp ≥ 65`
(`2^mexp - 1` is prime) and `pos` in range, `period >= 2^mexp-1` exactly if the minimal polynomial of the lowest output bit has an
irreducible factor of degree `mexp`, and then the statement is true for the outputs after `seed(1234)`: every period,
also after a pre-period, is a multiple of `2^mexp - 1`. -/
theorem calcPeriod_correct (hm : MinPolySeqSpec mps) {arg : List Char} {l : Fields} (hl : parse arg = some l)
    (h1 : 65 ≤ l.mexp) (hprime : (2 ^ l.mexp - 1).Prime) (hp : l.pos < l.mexp / 64 + 1) (junk : ℕ → BitVec 64) :
    (calcPeriod mps junk arg = .fails ∧
      ∀ p f, IsStartPoly l junk p → Irreducible f → f.natDegree = l.mexp → ¬ f ∣ p) ∨
    (calcPeriod mps junk arg = .printed (l.clean, l.mexp) ∧ PeriodAtLeast l junk (2 ^ l.mexp - 1)) := by
  have h := linGenF (l.mexp / 64 + 1) l.clean
  have hs : InvF (l.mexp / 64 + 1) l.clean { l.gen junk with maskb := (l.maskb >>> 17) <<< 17, maskc := (l.maskc >>> 37) <<< 37 } :=
    inv_clean (gen_inv l hp junk)
  have hdim := finrank_S (l.mexp / 64 + 1)
  obtain ⟨p, e1, e2'⟩ := minpoly_dim hm h hs (pos := 0) (by decide) hdim.le
  have e2 : IsStartPoly l junk p := by
    have : Search.bitAt (ops (l.mexp / 64 + 1))
        { l.gen junk with maskb := (l.maskb >>> 17) <<< 17, maskc := (l.maskc >>> 37) <<< 37 } 0 =
        Search.bitAt (ops (l.mexp / 64 + 1)) (l.gen junk) 0 := by
      funext i
      unfold Search.bitAt
      rw [← outAt_clean (l.gen junk) _ i]
      rfl
    unfold IsStartPoly
    rw [← this]
    exact e2'
  obtain ⟨b, r, g1, g2, g3, -⟩ := Period.hasFactorOfDegree_correct p (degree := l.mexp) (by omega) (fuel := p.natDegree + 1) le_rfl
  unfold calcPeriod
  rw [hl]
  dsimp only
  rw [period_gen]
  have e1' : minpoly mps (ops (l.mexp / 64 + 1)) 0 0
    { l.gen junk with maskb := (l.maskb >>> 17) <<< 17, maskc := (l.maskc >>> 37) <<< 37 } = _ := e1
  simp only [e1', g1]
  cases b with
  | false =>
    refine .inl ⟨rfl, fun p' f hp' hf hd hdvd => ?_⟩
    rw [hp'.unique e2] at hdvd
    obtain ⟨μ, hμ, hμd, hμa⟩ := exists_outMinpoly h hs hdim.le
    have hpμ : p ∣ μ := e2'.2.2 μ (hμa 0 (by decide))
    have hdeg : p.natDegree < 2 * l.mexp := by
      have h3 := (natDegree_le_of_dvd hpμ hμ.1).trans hμd
      have h4 : (ops (l.mexp / 64 + 1)).bitSize = (l.mexp / 64 + 1) * 64 := rfl
      omega
    have := Period.hasFactorOfDegree_half p f e2.1 (by omega) (fuel := p.natDegree + 1) le_rfl hf hdvd hd hdeg
    rw [g1] at this
    cases this
  | true =>
    obtain ⟨hr, hrd⟩ := g3 rfl
    refine .inr ⟨?_, ?_⟩
    · have : fieldsOf (setParityValue l.parity (ctorPar l.mexp l.pos l.mata l.maskb l.maskc 1234 junk)) = l.clean := rfl
      simp only [this, Period.deg_of_ne hr.ne_zero, hrd]
    · rintro k hk ⟨t0, ht⟩
      have hann : Ann (X ^ t0 * (X ^ k - 1)) (Search.bitAt (ops (l.mexp / 64 + 1)) (l.gen junk) 0) := by
        rw [ann_iff]
        funext i
        rw [map_mul, Module.End.mul_apply, map_pow, aeval_X, shiftOp_pow, map_sub, map_pow, aeval_X, map_one,
          LinearMap.sub_apply, Pi.sub_apply, shiftOp_pow, Module.End.one_apply]
        unfold Search.bitAt
        rw [ht _ (by omega), sub_self]
        rfl
      have hd := g2.trans (e2.2.2 _ hann)
      have hX := not_dvd_X (show 2 ≤ r.natDegree by omega)
      have hprim : Primitive2 r l.mexp := by
        rw [← hrd]
        exact Period.primitive_of_mersenne hr (by rw [hrd]; exact hprime)
      rcases hr.prime.dvd_or_dvd hd with h3 | h3
      · exact absurd (hr.prime.dvd_of_dvd_pow h3) hX
      · exact (hprim.2 k).1 h3

-- A line that meets the hypotheses of `calcEquidist_line` and `calcPeriod_correct`.
example : ∃ l : Fields, l.clean = l ∧ 65 ≤ l.mexp ∧ l.mexp < 2 ^ 31 ∧ l.pos < l.mexp / 64 + 1 ∧ (2 ^ l.mexp - 1).Prime ∧
    parse (getString l) = some l := by
  obtain ⟨m, hm, hp⟩ : ∃ m, m = 1279 ∧ (2 ^ m - 1).Prime := ⟨1279, rfl, Mexp.table_prime 1279 (by decide +kernel) (by norm_num)⟩
  refine ⟨⟨m, 7, 0x9d2c568000000001, 3, 0x7fffffff00020000, 0xffffe00000000000⟩, ?_, by dsimp only; omega, by dsimp only; omega,
    by dsimp only; omega, hp, ?_⟩
  · have h1 : ((0x7fffffff00020000 : BitVec 64) >>> 17) <<< 17 = 0x7fffffff00020000 := by decide +kernel
    have h2 : ((0xffffe00000000000 : BitVec 64) >>> 37) <<< 37 = 0xffffe00000000000 := by decide +kernel
    simp only [Fields.clean, h1, h2]
  · have := parse_getString ⟨m, 7, 0x9d2c568000000001, 3, 0x7fffffff00020000, 0xffffe00000000000⟩ (by dsimp only; omega)
      (by dsimp only; omega) (rest := []) (.inl rfl)
    rwa [List.append_nil] at this

end MTT.RMT
