import Verif.Samples.SFMTDC
import Verif.SIMD.Sum
import Verif.Mexp.Props

/-!
# C67: the SFMT parameter search, from the options to the printed lines
-/

namespace MTT.SFMT

open Polynomial PIS Search W128 Parity Anni SIMD

variable {n : ℕ}

/-! ### The class as a family -/

theorem setUp_spec {s : St} (h3 : 3 ≤ n) (hn : n < 2 ^ 24) (hs : s.size = n) (r : ℕ → BitVec 32) :
    ∃ p, setUpParam r s = some { s with param := p } ∧ ParOK p ∧ 1 ≤ p.pos1 ∧ p.pos1 < n := by
  obtain ⟨s0, e1, e2, -⟩ := ctor_setUp (mexp := 128 * (n - 1)) (by omega) (by omega) s.state r
  have hsz : (ctor (128 * (n - 1)) s.state).size = n := by
    show 128 * (n - 1) / 128 + 1 = n
    omega
  unfold setUpParam at e1 ⊢
  rw [hsz, if_neg (show ¬ n = 2 by omega)] at e1
  rw [hs, if_neg (show ¬ n = 2 by omega)]
  refine ⟨_, rfl, ?_⟩
  injection e1 with e1
  subst e1
  have e3 := e2.pos
  rw [show 128 * (n - 1) / 128 + 1 = n by omega] at e3
  exact ⟨e2.ok, e2.pos_pos, e3⟩

/-- What is needed of `setUpParam`: it ends and chooses parameters in range, nothing else is changed. -/
def SetUpOK (n : ℕ) (su : St → (ℕ → BitVec 32) → Option (St × (ℕ → BitVec 32))) : Prop :=
  ∀ s f, s.size = n → ∃ p f', su s f = some ({ s with param := p }, f') ∧ ParOK p ∧ 1 ≤ p.pos1 ∧ p.pos1 < n

theorem setUpOK (h3 : 3 ≤ n) (hn : n < 2 ^ 24) : SetUpOK n setUp := fun s f hs => by
  obtain ⟨p, e1, e2⟩ := setUp_spec h3 hn hs f
  exact ⟨p, _, by unfold setUp; rw [e1]; rfl, e2⟩

theorem setUpFixedOK (h3 : 3 ≤ n) (hn : n < 2 ^ 24) : SetUpOK n setUpFixed := fun s f hs => by
  obtain ⟨p, e1, -, e3⟩ := setUp_spec h3 hn hs f
  unfold setUpParam at e1
  rw [if_neg (by omega)] at e1
  injection e1 with e1
  have e4 := congrArg (fun t => t.param.pos1) e1
  unfold setUpFixed
  rw [if_neg (by omega)]
  refine ⟨_, _, rfl, ?_, ?_⟩
  · exact ⟨show 19 < 32 by decide, show 7 < 32 by decide, le_rfl, show 1 ≤ 7 by decide, le_rfl, show 1 ≤ 7 by decide⟩
  · show 1 ≤ _ ∧ _ < n
    have e5 : ((f 0) % (BitVec.ofNat 32 s.size - 2) + 1).toInt.toNat = p.pos1 := e4
    rw [e5]
    exact e3

/-- Before the first `setUpParam`. -/
structure Inv0 (n mexp : ℕ) (s : St) : Prop where
  size : s.size = n
  index : s.index < n
  start : s.startMode = 0
  weight : s.weightMode = 4
  rev : s.rev = false
  mexp : s.mexp = mexp

/-- With parameters. -/
structure Inv1 (n mexp : ℕ) (s : St) : Prop extends Inv n s where
  start : s.startMode = 0
  weight : s.weightMode = 4
  rev : s.rev = false
  mexp : s.mexp = mexp

theorem redGen1 {mexp : ℕ} {s : St} (hs : Inv1 n mexp s) :
    RedGen (rops n mexp) (fun t => Inv1 n mexp t ∧ t.param = s.param) (den n) (T n ⟨s.param, 0, 4, false⟩)
      (O n ⟨s.param, 0, 4, false⟩) (unit n) (P n) := by
  have h := Anni.RedGen.field (redGen (n := n) ⟨s.param, 0, 4, false⟩ mexp rfl rfl hs.pos_pos hs.pos hs.three hs.ok)
    (fun t => t.mexp) (fun _ => rfl) (fun _ _ => rfl) (fun _ _ => rfl) (fun _ => rfl) (fun _ _ => rfl) mexp
  have : (fun t => (Inv n t ∧ cfg t = ⟨s.param, 0, 4, false⟩) ∧ t.mexp = mexp) =
      fun t => Inv1 n mexp t ∧ t.param = s.param := by
    funext t
    apply propext
    unfold cfg
    rw [Cfg.mk.injEq]
    constructor
    · rintro ⟨⟨h1, h2, h3, h4, h5⟩, h6⟩
      exact ⟨⟨h1, h3, h4, h5, h6⟩, h2⟩
    · rintro ⟨h1, h2⟩
      exact ⟨⟨h1.toInv, h2, h1.start, h1.weight, h1.rev⟩, h1.mexp⟩
  rw [← this]
  exact h

/-- The words of the state after `seed` do not depend on the object. -/
theorem seed_state {s t : St} (hs : s.size = n) (ht : t.size = n) (v : W128) {k : ℕ} (hk : k < n) :
    (seed v s).state k = (seed v t).state k := by
  have key : ∀ (j i : ℕ) (a b : ℕ → W128), 1 ≤ i → i + j ≤ n * 4 → (∀ k, k < n → a k = b k) →
      ∀ k, k < n → seedLoop j i a k = seedLoop j i b k := by
    intro j
    induction j with
    | zero => intro i a b _ _ h k hk; exact h k hk
    | succ j ih =>
      intro i a b h1 h2 h k hk
      rw [seedLoop, seedLoop]
      refine ih (i + 1) _ _ (by omega) (by omega) (fun k hk => ?_) k hk
      rw [h (i / 4) (by omega), h ((i - 1) / 4) (by omega)]
      by_cases hki : k = i / 4
      · rw [hki, Function.update_self, Function.update_self]
      · rw [Function.update_of_ne hki, Function.update_of_ne hki, h k hk]
  have hz : ∀ (s : St), s.size = n → ∀ k, k < n → (setZero s).state k = 0 := by
    intro s hs k hk
    show (List.range s.size).foldl (fun a i => Function.update a i (mk64 0 0)) s.state k = 0
    rw [hs, mk64_zero]
    exact Ring.clear n s.state hk
  show seedLoop (s.size * 4 - 1) 1 (Function.update (setZero s).state 0 v) k =
    seedLoop (t.size * 4 - 1) 1 (Function.update (setZero t).state 0 v) k
  rw [hs, ht]
  refine key _ 1 _ _ le_rfl (by omega) (fun k hk => ?_) k hk
  by_cases h : k = 0
  · rw [h, Function.update_self, Function.update_self]
  · rw [Function.update_of_ne h, Function.update_of_ne h, hz s hs k hk, hz t ht k hk]

theorem seed_den_eq {s t : St} (hs : Inv n s) (ht : Inv n t) (hw : s.weightMode = t.weightMode) (v : W128) :
    den n (seed v s) = den n (seed v t) := by
  refine Prod.ext ?_ ?_
  · funext j
    show Wd.of ((seed v s).state ((0 + ((j : ℕ) + 1)) % n)) = Wd.of ((seed v t).state ((0 + ((j : ℕ) + 1)) % n))
    rw [seed_state hs.size ht.size v (Nat.mod_lt _ (by have := j.2; omega))]
  · show Wd.of (mk64 0 0 &&& keep s.weightMode) = Wd.of (mk64 0 0 &&& keep t.weightMode)
    rw [hw]

/-- **C56.**  The SFMT class as the reducible search uses it. -/
theorem family {mexp : ℕ} {su : St → (ℕ → BitVec 32) → Option (St × (ℕ → BitVec 32))} (h3 : 3 ≤ n) (hsu : SetUpOK n su) :
    RFamily (rops n mexp) su (seed getOne) (Inv0 n mexp) (Inv1 n mexp) (fun s => s.param) (den n)
      (fun p => T n ⟨p, 0, 4, false⟩) (fun p => O n ⟨p, 0, 4, false⟩) (unit n) (P n) where
  wpos := by decide
  red s hs := redGen1 hs
  weak s hs := ⟨hs.size, hs.index, hs.start, hs.weight, hs.rev, hs.mexp⟩
  setUp_inv s f s' f' hs h := by
    obtain ⟨p, f2, e1, e2, e3, e4⟩ := hsu s f hs.size
    rw [e1] at h
    injection h with h
    injection h with h1 h2
    subst h1
    exact ⟨⟨h3, hs.size, hs.index, e3, e4, e2⟩, hs.start, hs.weight, hs.rev, hs.mexp⟩
  seed_inv s hs := by
    have h := seed_inv hs.toInv getOne
    exact ⟨⟨h.1, hs.start, hs.weight, hs.rev, hs.mexp⟩, rfl, den_full hs.weight⟩
  seed_den s t hs ht _ := seed_den_eq hs.toInv ht.toInv (hs.weight.trans ht.weight.symm) _

/-- The certified words of SFMT (the last words of the ring) determine the state. -/
theorem obsP {c : Cfg} (h3 : 3 ≤ n) (hpos : 1 ≤ c.p.pos1) (hn : c.p.pos1 < n) (hp : ParOK c.p) :
    ObsP 128 (n * 128) (unit n) (T n c) (P n) := by
  intro x hx hout
  rw [M_full, mem_full] at hx
  have hzero : ∀ i, at' ((T1 n c.p ^ (i + 1)) x.1) (n - 1) = 0 := by
    intro i
    rw [← pow_fst]
    apply bits_inj
    funext j
    by_cases hj : j < 128
    · exact (hout i j hj).trans (by simp [bits])
    · have : ∀ y : W128, bits y j = 0 := fun y => by
        unfold bits; rw [BitVec.getMsbD_of_ge _ _ (by omega)]; rfl
      rw [this, this]
  have hring : (T1 n c.p ^ n) x.1 = 0 := by
    funext j
    have h1 := at_pow c.p x.1 j.2 (j.1 + 1)
    rw [hzero, show j.1 + 1 + (n - 1 - j.1) = n by have := j.2; omega] at h1
    exact (at_val _ j.2).symm.trans (by rw [h1]; rfl)
  refine Prod.ext ?_ hx
  exact Anni.pow_injective (T1_bijective h3 hpos hn hp).1 n (hring.trans (map_zero _).symm)

/-! ### What a printed line means -/

/-- The states of the ring that the polynomial `f` annihilates. -/
noncomputable def Large (n : ℕ) (p : Par) (f : (ZMod 2)[X]) : Submodule (ZMod 2) (Fin n → Wd 128) :=
  LinearMap.ker (aeval (T1 n p) f)

/-- The stream of 128-bit words: the last word of the ring is word 0, the next one produced is word 1, and so on. -/
def stream128 (n : ℕ) (p : Par) (k : ℕ) : (Fin n → Wd 128) →ₗ[ZMod 2] V :=
  (linOf (fun v => bits (at' v (n - 1))) (fun v v' => by rw [at_add, bits_xor])).comp (T1 n p ^ k)

/-- What three numbers say of the words that the parameters `p` produce in the component of `f`, counted from the most
significant bit or (`lsb`) from the least significant: `d128` is the sum of the defects of the 128-bit words; `d32` and `d64`
are the sums for what `calc_SIMD_equidistribution` delivers for the 32-bit and 64-bit words, which is at most the dimension
and short of it by at most 3 and 1. -/
structure Measured (mexp : ℕ) (p : Par) (f : (ZMod 2)[X]) (lsb : Bool) (d32 d64 d128 : ℤ) : Prop where
  dim : Module.finrank (ZMod 2) (Large (mexp / 128 + 1) p f) = mexp
  s32 : SimdSum 4 32 mexp (fun k => (SIMD.flip 32 lsb).comp (stream32 (mexp / 128 + 1) p k))
    (Large (mexp / 128 + 1) p f) d32
  s64 : SimdSum 2 64 mexp (fun k => (SIMD.flip 64 lsb).comp (stream64 (mexp / 128 + 1) p k))
    (Large (mexp / 128 + 1) p f) d64
  s128 : EqdSum 128 mexp (fun k => (SIMD.flip 128 lsb).comp (stream128 (mexp / 128 + 1) p k))
    (Large (mexp / 128 + 1) p f) d128

/-- What is promised of printed parameters and parity for exponent `mexp`. -/
structure GoodFields (mexp : ℕ) (l : Fields) : Prop where
  mexp_eq : l.mexp = mexp
  /-- The parameters are in range. -/
  par : ParOK l.param ∧ 1 ≤ l.param.pos1 ∧ l.param.pos1 < mexp / 128 + 1
  /-- An object with these parameters, filled with any words and certified, has a period that is a multiple of
  `2^mexp - 1`. -/
  period : ∀ (x : ℕ → W128) (k : ℕ),
    den (mexp / 128 + 1) (stateAt (ops (mexp / 128 + 1)) (periodCertification { l.gen with state := x }).1 k) =
      den (mexp / 128 + 1) (periodCertification { l.gen with state := x }).1 → 2 ^ mexp - 1 ∣ k

/-- The sequence of the lowest bits of the outputs of `g` has an irreducible factor of degree `mexp`. -/
def HasLarge (mexp : ℕ) (g : St) : Prop :=
  ∃ f p : (ZMod 2)[X], Irreducible f ∧ f.natDegree = mexp ∧ IsSeqMinpoly p (Search.bitAt (ops (mexp / 128 + 1)) g 0) ∧ f ∣ p

/-- What is promised of a printed line. -/
structure GoodLine (mexp : ℕ) (l : Line) : Prop extends GoodFields mexp l.toFields where
  /-- There is a large component, and the printed numbers measure the words produced in it. -/
  equi : ∃ f : (ZMod 2)[X], Irreducible f ∧ f.natDegree = mexp ∧
    Measured mexp l.param f false l.delta32 l.delta64 l.delta128
  /-- Seeded with 1, the object has the large component. -/
  one : HasLarge mexp (seed (mk32 1 0 0 0) l.gen)

section

variable {mexp : ℕ} {mps : MPS} {kernel : KernelFn}

theorem pow_pair {p : Par} (r : Bool) (x : Fin n → Wd 128) (k : ℕ) :
    (T n ⟨p, 0, 4, r⟩ ^ k) ((x, 0) : S n) = ((T1 n p ^ k) x, 0) := by
  have := aeval_ring (n := n) (c := ⟨p, 0, 4, r⟩) rfl (X ^ k) x
  rwa [map_pow, map_pow, aeval_X, aeval_X] at this

/-- The space of the ring states generated by one of them. -/
theorem cyc_pair {p : Par} (r : Bool) (x y : Fin n → Wd 128) :
    ((y, 0) : S n) ∈ cyc (T n ⟨p, 0, 4, r⟩) ((x, 0) : S n) ↔ y ∈ cyc (T1 n p) x := by
  have h : cyc (T n ⟨p, 0, 4, r⟩) ((x, 0) : S n) =
      (cyc (T1 n p) x).map (LinearMap.inl (ZMod 2) (Fin n → Wd 128) (Wd 128)) := by
    unfold cyc
    rw [Submodule.map_span, ← Set.range_comp]
    congr 2
    funext k
    exact pow_pair r x k
  rw [h]
  constructor
  · rintro ⟨z, hz, e⟩
    have : z = y := congrArg Prod.fst e
    rw [← this]; exact hz
  · intro hy
    exact ⟨y, hy, rfl⟩

theorem bits_reverse (y : W128) {b : ℕ} (hb : b < 128) : bits y.reverse b = bits y (128 - 1 - b) := by
  unfold bits
  rw [BitVec.getMsbD_reverse, BitVec.getLsbD_eq_getMsbD, decide_eq_true hb, Bool.true_and]

theorem out_pair (hn : 1 ≤ n) {p : Par} (r : Bool) (x : Fin n → Wd 128) (t : ℕ) {b : ℕ} (hb : b < 128) :
    (if r then OR n ⟨p, 0, 4, r⟩ else O n ⟨p, 0, 4, r⟩) ((T n ⟨p, 0, 4, r⟩ ^ t) ((x, 0) : S n)) b =
      (SIMD.flip 128 r).comp (stream128 n p (1 + t)) x b := by
  have hout : out ⟨p, 0, 4, r⟩ ((T1 n p ^ t) x, 0) = at' ((T1 n p ^ (1 + t)) x) (n - 1) := by
    rw [Nat.add_comm, pow_succ', Module.End.mul_apply, at_T1 hn]
    unfold out
    show (selOf _ _ &&& ~~~ keep 4) ^^^ (0 : W128) = _
    rw [show keep 4 = 0 from rfl, show ~~~ (0 : W128) = BitVec.allOnes 128 by decide, BitVec.and_allOnes]
    refine (BitVec.xor_zero).trans ?_
    exact mk32_eta _
  rw [pow_pair]
  show _ = SIMD.flip 128 r (bits (at' ((T1 n p ^ (1 + t)) x) (n - 1))) b
  rw [flip_apply, if_pos hb, ← hout]
  cases r with
  | false => rfl
  | true => exact bits_reverse _ hb

theorem mem_cyc_pair {p : Par} {r : Bool} {x : Fin n → Wd 128} {y : S n}
    (hy : y ∈ cyc (T n ⟨p, 0, 4, r⟩) ((x, 0) : S n)) : y = (y.1, 0) := by
  refine Prod.ext rfl ?_
  refine Submodule.span_induction (p := fun y _ => (y : S n).2 = 0) ?_ rfl ?_ ?_ hy
  · rintro _ ⟨k, rfl⟩
    show ((T n ⟨p, 0, 4, r⟩ ^ k) ((x, 0) : S n)).2 = 0
    rw [pow_pair]
  · intro a b _ _ ha hb
    rw [Prod.snd_add, ha, hb, add_zero]
  · intro c a _ ha
    rw [Prod.smul_snd, ha, smul_zero]

/-- Equidistribution of the outputs of the object and of the 128-bit words at every place of the stream. -/
theorem equidist_stream (h3 : 3 ≤ n) {p : Par} (hp : ParOK p) (h1 : 1 ≤ p.pos1) (h2 : p.pos1 < n) (r : Bool)
    (x : Fin n → Wd 128) {v : ℕ} (hv : v ≤ 128) (k : ℕ) :
    Equidist (T n ⟨p, 0, 4, r⟩) (if r then OR n ⟨p, 0, 4, r⟩ else O n ⟨p, 0, 4, r⟩)
        (cyc (T n ⟨p, 0, 4, r⟩) ((x, 0) : S n)) v k ↔
      EqdAll (fun k => (SIMD.flip 128 r).comp (stream128 n p k)) (cyc (T1 n p) x) v k := by
  have hB : Blocks (fun k => (SIMD.flip 128 r).comp (stream128 n p k)) (cyc (T1 n p) x) (T1 n p) 1 := by
    refine ⟨fun k s => ?_, fun s => cyc_T _, cyc_onto h3 h1 h2 hp x⟩
    show SIMD.flip 128 r (bits (at' ((T1 n p ^ (k + 1)) s) (n - 1))) =
      SIMD.flip 128 r (bits (at' ((T1 n p ^ k) (T1 n p s)) (n - 1)))
    rw [pow_succ, Module.End.mul_apply]
  have hE : EqdAll (fun k => (SIMD.flip 128 r).comp (stream128 n p k)) (cyc (T1 n p) x) v k ↔
      Eqd (fun k => (SIMD.flip 128 r).comp (stream128 n p k)) (cyc (T1 n p) x) v 1 k := by
    constructor
    · exact fun h => h 1
    · intro h
      rw [hB.eqdAll_iff Nat.one_pos]
      intro j hj
      rw [Nat.lt_one_iff.1 hj, ← hB.eqd_add]
      exact h
  rw [hE]
  constructor
  · intro h a
    obtain ⟨y, hy, e⟩ := h a
    have hy2 := mem_cyc_pair hy
    rw [hy2, cyc_pair] at hy
    refine ⟨y.1, hy, fun i hi b hb => ?_⟩
    rw [← out_pair (by omega) _ _ _ (by omega), ← hy2]
    exact e i hi b hb
  · intro h a
    obtain ⟨y, hy, e⟩ := h a
    refine ⟨(y, 0), (cyc_pair r x y).2 hy, fun i hi b hb => ?_⟩
    rw [out_pair (by omega) _ _ _ (by omega)]
    exact e i hi b hb

theorem one_eq : mk32 1 0 0 0 = (getOne : W128) := by decide

/-- What `anni` leaves spans the large component. -/
theorem cyc_large {g : St} (hg : Inv1 n mexp g) (hbig : n * 128 < 2 * mexp) {f : (ZMod 2)[X]} (hf : Irreducible f)
    (hdeg : f.natDegree = mexp) (hx : IsVecMinpoly (T n ⟨g.param, 0, 4, false⟩) (den n g) f) :
    IsVecMinpoly (T1 n g.param) (Ring.vec n g.state g.index) f ∧
      cyc (T1 n g.param) (Ring.vec n g.state g.index) = Large n g.param f ∧
      Module.finrank (ZMod 2) (Large n g.param f) = mexp := by
  have hden : den n g = (Ring.vec n g.state g.index, 0) := den_ring hg.weight
  have hvec : IsVecMinpoly (T1 n g.param) (Ring.vec n g.state g.index) f := by
    refine ⟨hx.1, fun r => ?_⟩
    rw [← hx.2 r, hden, aeval_ring rfl]
    exact ⟨fun h => by rw [h]; rfl, fun h => congrArg Prod.fst h⟩
  have hcyc : cyc (T1 n g.param) (Ring.vec n g.state g.index) = Large n g.param f := by
    ext y
    rw [← cyc_pair false, ← hden, cyc_eq_root (redGen1 hg) hbig hf hdeg (den_full hg.weight) hx]
    have hM : ((y, 0) : S n) ∈ M (n * 128) (unit n) := by rw [M_full, mem_full]
    unfold Large
    rw [LinearMap.mem_ker, aeval_ring rfl]
    exact ⟨fun h => congrArg Prod.fst h.2, fun h => ⟨hM, by rw [h]; rfl⟩⟩
  exact ⟨hvec, hcyc, by rw [← hcyc, finrank_cyc hvec, hdeg]⟩

/-- **C63, C67.**  The three measurements, from either end of the words. -/
theorem deltas_correct (h1 : 256 ≤ mexp) (h3 : mexp < 2 ^ 30) (J : Junk) {g : St} (hg : Inv1 (mexp / 128 + 1) mexp g)
    {f : (ZMod 2)[X]} (hf : Irreducible f) (hdeg : f.natDegree = mexp)
    (hx : IsVecMinpoly (T (mexp / 128 + 1) ⟨g.param, 0, 4, false⟩) (den (mexp / 128 + 1) g) f) (lsb : Bool) :
    ∃ d32 d64 d128, deltas J mexp lsb { g with rev := lsb } g = some (d32, d64, d128) ∧
      Measured mexp g.param f lsb d32 d64 d128 := by
  obtain ⟨hvec, hcyc, hrank⟩ := cyc_large hg (by omega) hf hdeg hx
  generalize hn : mexp / 128 + 1 = n at *
  have hmon := monic_of_ne hf.ne_zero
  have hann : aeval (T1 n g.param) f (Ring.vec n g.state g.index) = 0 := (hvec.2 f).2 (dvd_refl f)
  let gr : St := { g with rev := lsb }
  have hgr : Inv n gr := ⟨hg.three, hg.size, hg.index, hg.pos_pos, hg.pos, hg.ok⟩
  obtain ⟨q, e1, e2, e3⟩ := equidist (s := gr) hgr hg.weight hmon hann hdeg.le (by omega) J.veq
  obtain ⟨veq32, sum32, e4, e5⟩ := calcSIMD_sum (G := simdOps n) (Layout.w32 lsb)
    (blocks32 hg.three hg.pos_pos hg.pos hg.ok _) (rand := g) (fun a ha b h1 h2 => mode32 hg.toInv hg.rev ha h1 h2) hmon
    hann (by show _ ≤ n * 128; omega) isCalc1pos_128 (fuel := 128 * (129 * mexp) + 129) (by omega) hdeg.le (by omega)
    J.veq32
  obtain ⟨veq64, sum64, e6, e7⟩ := calcSIMD_sum (G := simdOps n) (Layout.w64 lsb)
    (blocks64 hg.three hg.pos_pos hg.pos hg.ok _) (rand := g) (fun a ha b h1 h2 => mode64 hg.toInv hg.rev ha h1 h2) hmon
    hann (by show _ ≤ n * 128; omega) isCalc1pos_128 (fuel := 128 * (129 * mexp) + 129) (by omega) hdeg.le (by omega)
    J.veq64
  refine ⟨sum32, sum64, q.sum, ?_, ?_⟩
  · unfold deltas
    dsimp only
    rw [hn, show getAllEquidist (ops n) calc1posWrap { g with rev := lsb } 128 mexp (128 * (129 * mexp) + 129) J.veq = .ok q
      from e1]
    dsimp only
    rw [e4]
    dsimp only
    rw [e6]
  rw [hcyc] at e5 e7
  subst hn
  refine ⟨hrank, e5, e7, fun v => q.veq (v - 1), fun v hv1 hv2 => ?_, e3⟩
  have h := e2 v hv1 hv2
  have hc : cfg gr = ⟨g.param, 0, 4, lsb⟩ := by
    unfold cfg
    rw [Cfg.mk.injEq]
    exact ⟨rfl, hg.start, hg.weight, rfl⟩
  have hd : den (mexp / 128 + 1) gr = (Ring.vec (mexp / 128 + 1) g.state g.index, 0) := den_ring hg.weight
  rw [hc, hd, show gr.rev = lsb from rfl] at h
  rw [← hcyc]
  have hset : {k | EqdAll (fun k => (SIMD.flip 128 lsb).comp (stream128 (mexp / 128 + 1) g.param k))
      (cyc (T1 (mexp / 128 + 1) g.param) (Ring.vec (mexp / 128 + 1) g.state g.index)) v k} = _ :=
    Set.ext fun k => (equidist_stream hg.three hg.ok hg.pos_pos hg.pos lsb _ hv2 k).symm
  rw [hset]
  exact h

/-- **C50, C67.**  A parity vector that `searchParity` returned, printed with the parameters. -/
theorem parity_good (hK : KernelSpec kernel) (hprime : (2 ^ mexp - 1).Prime)
    (h1 : 256 ≤ mexp) (hbig : (mexp / 128 + 1) * 128 < 2 * mexp) {g : St} (hg : Inv1 (mexp / 128 + 1) mexp g)
    {f : (ZMod 2)[X]} (hf : Irreducible f) (hdeg : f.natDegree = mexp)
    (hx : ∃ x ∈ M ((mexp / 128 + 1) * 128) (unit (mexp / 128 + 1)), x ≠ 0 ∧
      aeval (T (mexp / 128 + 1) ⟨g.param, 0, 4, false⟩) f x = 0) {fuel : ℕ} {sh v : W128} {g1 : St}
    (hv : searchParity (rops (mexp / 128 + 1) mexp) words128 fuel kernel sh g f = .ok (v, g1)) :
    GoodFields mexp ⟨mexp, g.param, u v 0, u v 1, u v 2, u v 3⟩ := by
  generalize hn : mexp / 128 + 1 = n at *
  refine ⟨rfl, hn ▸ ⟨hg.ok, hg.pos_pos, hg.pos⟩, fun x k hk => ?_⟩
  rw [hn] at hk
  have hMf : ∀ x : S n, x ∈ M (n * 128) (unit n) ↔ x.2 = 0 := fun x => by rw [M_full, mem_full]
  obtain ⟨q', c1, c2, c3⟩ := exists_cofactor (redGen1 hg) hbig hf hdeg hx
  obtain ⟨x0, hx0M, hx00, hx0f⟩ := hx
  obtain ⟨b1, -⟩ := ctorPar_inv (mexp := mexp) h1 hg.ok hg.pos_pos (by rw [hn]; exact hg.pos) (u v 0) (u v 1) (u v 2)
    (u v 3)
  rw [hn] at b1
  have b3 : Inv n { ctorPar mexp g.param (u v 0) (u v 1) (u v 2) (u v 3) with state := x } :=
    ⟨b1.three, b1.size, b1.index, b1.pos_pos, b1.pos, b1.ok⟩
  refine certified_period (n := n) (c := ⟨g.param, 0, 4, false⟩) (mexp := mexp) rfl rfl hK hf hdeg hprime
    ⟨x0, (hMf x0).1 hx0M, hx00, hx0f⟩ c1 (fun x hx => c3 x ((hMf x).2 hx)) (g := g) ⟨hg.toInv, ?_⟩ hv
    (s := { ctorPar mexp g.param (u v 0) (u v 1) (u v 2) (u v 3) with state := x }) b3 rfl rfl ?_ hk
  · unfold cfg
    rw [Cfg.mk.injEq]
    exact ⟨rfl, hg.start, hg.weight, hg.rev⟩
  · exact mk32_eta v

theorem gen_inv (h1 : 256 ≤ mexp) {l : Fields} (hl : l.mexp = mexp)
    (hp : ParOK l.param ∧ 1 ≤ l.param.pos1 ∧ l.param.pos1 < mexp / 128 + 1) : Inv1 (mexp / 128 + 1) mexp l.gen := by
  subst hl
  exact ⟨(ctorPar_inv h1 hp.1 hp.2.1 hp.2.2 _ _ _ _).1, rfl, rfl, rfl, rfl⟩

/-- One turn of the loop. -/
theorem measure_good (hm : MinPolySeqSpec mps) (hK : KernelSpec kernel) (hprime : (2 ^ mexp - 1).Prime)
    (h1 : 256 ≤ mexp) (h2 : mexp % 128 ≠ 0) (h3 : mexp < 2 ^ 30) {fuel : ℕ}
    (hfuel : (mexp / 128 + 1) * 128 < fuel) (J : Junk) {g : St} {f p : (ZMod 2)[X]}
    (H : Hit (rops (mexp / 128 + 1) mexp) (seed getOne) (Inv1 (mexp / 128 + 1) mexp) (fun s => s.param)
      (den (mexp / 128 + 1)) (unit (mexp / 128 + 1)) f p g) :
    ∃ l g', measure mps kernel fuel J mexp g f = .ok (l, g') ∧ Inv1 (mexp / 128 + 1) mexp g' ∧ GoodLine mexp l ∧
      l.param = g.param := by
  have hn3 : 3 ≤ mexp / 128 + 1 := by omega
  have hnb : mexp / 128 + 1 < 2 ^ 24 := by omega
  have F := family (n := mexp / 128 + 1) (mexp := mexp) hn3 (setUpOK hn3 hnb)
  have hg := H.inv
  have hmexp : 1 ≤ mexp := by omega
  have hR := redGen1 hg
  have hroot := H.root F hmexp
  have hbig : (mexp / 128 + 1) * 128 < 2 * mexp := by omega
  obtain ⟨v, hv⟩ := searchParity_returns hR wordsOK128 hK (obsP hn3 hg.pos_pos hg.pos hg.ok) H.irr H.deg
    hroot (by show (mexp / 128 + 1) * 128 - mexp < 128; omega) (fuel := fuel) hfuel J.shift ⟨hg, rfl⟩
  -- the object after `searchParity` and its seeding
  let g1 := setParityValue v g
  have hg1 : Inv1 (mexp / 128 + 1) mexp g1 :=
    ⟨⟨hg.three, hg.size, hg.index, hg.pos_pos, hg.pos, hg.ok⟩, hg.start, hg.weight, hg.rev, hg.mexp⟩
  have hp1 := H.seeded F hg1 rfl
  have hs1 := F.seed_inv g1 hg1
  have hR' := Anni.RedGen.field hR (fun t => (t.parity1, t.parity2, t.parity3, t.parity4)) (fun _ => rfl) (fun _ _ => rfl)
    (fun _ _ => rfl) (fun _ => rfl) (fun _ _ => rfl) (u v 0, u v 1, u v 2, u v 3)
  obtain ⟨g2, a1, ⟨⟨⟨i1, i2⟩, i3⟩, a3, a4⟩⟩ := anniS_of_factor hm hR' (by decide) hmexp hbig
    (obs rfl hn3 hg.pos_pos hg.pos hg.ok) (t := seed getOne g1) ⟨⟨hs1.1, rfl⟩, rfl⟩ hs1.2.2 H.irr H.deg hp1 H.dvd
  have i2' : g2.param = g.param := i2
  rw [← i2'] at a4
  obtain ⟨d32, d64, d128, e1, e2⟩ := deltas_correct h1 h3 J i1 H.irr H.deg a4 false
  have hrev : { g2 with rev := false } = g2 := by rw [← i1.rev]
  rw [hrev] at e1
  have hpar : (g2.parity1, g2.parity2, g2.parity3, g2.parity4) = (u v 0, u v 1, u v 2, u v 3) := i3
  rw [Prod.mk.injEq, Prod.mk.injEq, Prod.mk.injEq] at hpar
  obtain ⟨j1, j2, j3, j4⟩ := hpar
  have hfl : fieldsOf g2 = ⟨mexp, g.param, u v 0, u v 1, u v 2, u v 3⟩ := by
    unfold fieldsOf
    rw [i1.mexp, i2', j1, j2, j3, j4]
  refine ⟨⟨fieldsOf g2, d32, d64, d128⟩, g2, ?_, i1, ⟨?_, ⟨f, H.irr, H.deg, e2⟩, ?_⟩, i2'⟩
  · unfold measure
    dsimp only
    rw [if_neg (by rw [Period.deg_of_ne H.irr.ne_zero, show f.natDegree = mexp from H.deg]; simp)]
    rw [hv]
    dsimp only
    rw [one_eq, show anniS mps (rops (mexp / 128 + 1) mexp) (seed getOne ((rops (mexp / 128 + 1) mexp).setParity v g)) =
      some (g2, true) from a1]
    dsimp only
    rw [e1]
  · show GoodFields mexp (fieldsOf g2)
    rw [hfl]
    exact parity_good hK hprime h1 hbig hg H.irr H.deg hroot hv
  · rw [one_eq]
    refine ⟨f, p, H.irr, H.deg, H.seeded F (t := (fieldsOf g2).gen) ?_ ?_, H.dvd⟩
    · rw [hfl]
      exact gen_inv h1 rfl ⟨hg.ok, hg.pos_pos, hg.pos⟩
    · rw [hfl]; rfl

theorem allowed : ∀ m ∈ allowedMexp, 256 ≤ m ∧ m % 128 ≠ 0 ∧ m < 2 ^ 30 ∧ m ∈ Period.mersenneExponent ∧ m ≤ 216091 := by
  decide +kernel

theorem dcLoop_good (hm : MinPolySeqSpec mps) (hK : KernelSpec kernel)
    {su : St → (ℕ → BitVec 32) → Option (St × (ℕ → BitVec 32))} (hsu : SetUpOK (mexp / 128 + 1) su) (hprime : (2 ^ mexp - 1).Prime)
    (h1 : 256 ≤ mexp) (h2 : mexp % 128 ≠ 0) (h3 : mexp < 2 ^ 30) {fuel : ℕ}
    (hfuel : (mexp / 128 + 1) * 128 < fuel) (J : Junk) (c : ℕ) (st : RSt St (ℕ → BitVec 32))
    (hst : Inv0 (mexp / 128 + 1) mexp st.rand) (out : List Line) (hout : ∀ l ∈ out, GoodLine mexp l) :
    (∃ lines, dcLoop mps kernel su fuel J mexp c st out = .done lines ∧ lines.length = out.length + c ∧
      ∀ l ∈ lines, GoodLine mexp l) ∨
    ∃ lines, dcLoop mps kernel su fuel J mexp c st out = .failed lines ∧ lines.length < out.length + c ∧
      ∀ l ∈ lines, GoodLine mexp l := by
  have F := family (n := mexp / 128 + 1) (mexp := mexp) (by omega) hsu
  induction c generalizing st out with
  | zero =>
    exact .inl ⟨out.reverse, rfl, by rw [List.length_reverse]; rfl, fun l hl => hout l (List.mem_reverse.1 hl)⟩
  | succ c ih =>
    have hsrc : ∀ s src, Inv0 (mexp / 128 + 1) mexp s → su s src ≠ none := by
      intro s src hs
      obtain ⟨p, f', e1, -⟩ := hsu s src hs.size
      rw [e1]
      simp
    obtain ⟨b, st', i1, i2, -, -, i5⟩ := rStart_red hm F (by show 1 ≤ mexp; omega) hsrc (mexp * 100) st hst
    have i1' : rStart mps (dOps (rops (mexp / 128 + 1) mexp) su (seed getOne)) mexp (mexp * 100) st = .ret b st' := i1
    rw [dcLoop, i1']
    cases b with
    | false =>
      exact .inr ⟨out.reverse, rfl, by rw [List.length_reverse]; omega, fun l hl => hout l (List.mem_reverse.1 hl)⟩
    | true =>
      obtain ⟨l, g', m1, m2, m3, -⟩ := measure_good hm hK hprime h1 h2 h3 hfuel J (i5 rfl)
      dsimp only
      rw [m1]
      dsimp only
      have := ih { st' with rand := g' } (F.weak _ m2) (l :: out) (fun l' hl' => by
        rcases List.mem_cons.1 hl' with h | h
        · rw [h]; exact m3
        · exact hout l' h)
      rw [List.length_cons, show out.length + 1 + c = out.length + (c + 1) by omega] at this
      exact this

theorem ctor_inv0 (junk : ℕ → W128) : Inv0 (mexp / 128 + 1) mexp (ctor mexp junk) :=
  ⟨rfl, by show 0 < mexp / 128 + 1; omega, rfl, rfl, rfl, rfl⟩

/-- **C67.**  For each of the thirteen exponents that the program accepts, whatever the random numbers, the uninitialised
memory, the kernel base that NTL chooses and the number `count` of lines asked for: the search ends by printing `count`
lines or by reporting `search failed` after fewer; it raises no exception, does not end with -1 and does nothing undefined;
and all lines printed are right. -/
theorem dcSearch_correct (hm : MinPolySeqSpec mps) (hK : KernelSpec kernel) (hmexp : mexp ∈ allowedMexp) {fuel : ℕ}
    (hfuel : (mexp / 128 + 1) * 128 < fuel) (J : Junk) (count : ℕ) (f : ℕ → BitVec 32) :
    (∃ lines, dcSearch mps kernel fuel J mexp count f = .done lines ∧ lines.length = count ∧
      ∀ l ∈ lines, GoodLine mexp l) ∨
    ∃ lines, dcSearch mps kernel fuel J mexp count f = .failed lines ∧ lines.length < count ∧
      ∀ l ∈ lines, GoodLine mexp l := by
  obtain ⟨h1, h2, h3, h4, h5⟩ := allowed mexp hmexp
  have := dcLoop_good hm hK (setUpOK (by omega) (by omega)) (Mexp.table_prime mexp h4 h5) h1 h2 h3 hfuel J count
    ⟨ctor mexp J.state, f, 0, 0, 0⟩ (ctor_inv0 J.state) [] (fun l hl => absurd hl (by simp))
  rw [List.length_nil, Nat.zero_add] at this
  exact this

/-- **C89.**  The same for sfmtdcfixed.cpp. -/
theorem dcFixed_correct (hm : MinPolySeqSpec mps) (hK : KernelSpec kernel) (hmexp : mexp ∈ allowedMexp) {fuel : ℕ}
    (hfuel : (mexp / 128 + 1) * 128 < fuel) (J : Junk) (count : ℕ) (f : ℕ → BitVec 32) :
    (∃ lines, dcFixed mps kernel fuel J mexp count f = .done lines ∧ lines.length = count ∧
      ∀ l ∈ lines, GoodLine mexp l) ∨
    ∃ lines, dcFixed mps kernel fuel J mexp count f = .failed lines ∧ lines.length < count ∧
      ∀ l ∈ lines, GoodLine mexp l := by
  obtain ⟨h1, h2, h3, h4, h5⟩ := allowed mexp hmexp
  have := dcLoop_good hm hK (setUpFixedOK (by omega) (by omega)) (Mexp.table_prime mexp h4 h5) h1 h2 h3 hfuel J count
    ⟨ctor mexp J.state, f, 0, 0, 0⟩ (ctor_inv0 J.state) [] (fun l hl => absurd hl (by simp))
  rw [List.length_nil, Nat.zero_add] at this
  exact this

-- The hypotheses can be met: SFMT19937 (156 words), any functions that meet the contracts of NTL.
example : 19937 ∈ allowedMexp ∧ (19937 / 128 + 1) * 128 < 20000 := by decide

end

end MTT.SFMT
