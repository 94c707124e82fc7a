import Verif.Anni.Finds
import Verif.Samples.DSFMTDC
import Verif.SIMD.Sum
import Verif.Mexp.Props

/-!
# C68: the dSFMT parameter search, from the options to the printed lines
-/

namespace MTT.DSFMT

open Polynomial PIS Search W128 Parity Anni SIMD

variable {n : ℕ}

/-! ### The class as a family -/

/-- The option `--fixed` is absent or has an argument from 1 to 63. -/
def FixOK (s : St) : Prop := s.fixed = true → 1 ≤ s.fixedSL1 ∧ s.fixedSL1 < 64

theorem setUp_spec {s : St} (h3 : 3 ≤ n) (hn : n < 2 ^ 31) (hs : s.size = n) (hf : FixOK s) (r : ℕ → BitVec 64) :
    ∃ p, setUpParam r s = some { s with param := p } ∧ MskOK p ∧ 1 ≤ p.pos1 ∧ p.pos1 + 2 ≤ n ∧ 1 ≤ p.sl1 ∧ p.sl1 < 64 := by
  have hpos : ∀ x : BitVec 64, (x % (BitVec.ofNat 64 n - 2) + 1).toNat = x.toNat % (n - 2) + 1 := by
    intro x
    have e1 : (BitVec.ofNat 64 n - 2).toNat = n - 2 := by
      have hm : n % 2 ^ 64 = n := Nat.mod_eq_of_lt (by omega)
      rw [BitVec.toNat_sub, BitVec.toNat_ofNat, show (2 : BitVec 64).toNat = 2 from rfl, hm]
      omega
    have hl : x.toNat % (n - 2) < n - 2 := Nat.mod_lt _ (by omega)
    rw [BitVec.toNat_add, BitVec.toNat_umod, e1, show (1 : BitVec 64).toNat = 1 from rfl, Nat.mod_eq_of_lt (by omega)]
  have h51 : ∀ x : BitVec 64, 1 ≤ (x % (52 - 1) + 1).toNat ∧ (x % (52 - 1) + 1).toNat ≤ 51 := by
    intro x
    have hl : x.toNat % 51 < 51 := Nat.mod_lt _ (by omega)
    have : (x % (52 - 1) + 1).toNat = x.toNat % 51 + 1 := by
      rw [BitVec.toNat_add, BitVec.toNat_umod, show ((52 : BitVec 64) - 1).toNat = 51 from by decide,
        show (1 : BitVec 64).toNat = 1 from rfl, Nat.mod_eq_of_lt (by omega)]
    omega
  have hl : (r 0).toNat % (n - 2) < n - 2 := Nat.mod_lt _ (by omega)
  have hsl : 1 ≤ (if s.fixed then s.fixedSL1 else ((r 1) % (52 - 1) + 1).toNat) ∧
      (if s.fixed then s.fixedSL1 else ((r 1) % (52 - 1) + 1).toNat) < 64 := by
    by_cases h : s.fixed = true
    · rw [if_pos h]; exact hf h
    · rw [if_neg h]; have := h51 (r 1); omega
  unfold setUpParam
  rw [hs, if_neg (by omega)]
  refine ⟨_, rfl, ⟨and52 _, and52 _⟩, ?_, ?_, hsl.1, hsl.2⟩
  · show 1 ≤ ((r 0) % (BitVec.ofNat 64 n - 2) + 1).toNat
    rw [hpos]; omega
  · show ((r 0) % (BitVec.ofNat 64 n - 2) + 1).toNat + 2 ≤ n
    rw [hpos]; omega

/-- Before the first `setUpParam`. -/
structure Inv0 (n mexp : ℕ) (s : St) : Prop where
  size : s.size = n
  index : s.index < n
  start : s.startMode = 0
  weight : s.weightMode = 2
  pfx : s.pfx = 0
  mexp : s.mexp = mexp
  fixed : FixOK s

/-- With parameters. -/
structure Inv1 (n mexp : ℕ) (s : St) : Prop extends Inv n s where
  msk : MskOK s.param
  sl1_pos : 1 ≤ s.param.sl1
  start : s.startMode = 0
  weight : s.weightMode = 2
  pfx : s.pfx = 0
  mexp : s.mexp = mexp
  fixed : FixOK s

theorem redGen1 {mexp : ℕ} {s : St} (hs : Inv1 n mexp s) :
    RedGen (rops n mexp) (fun t => Inv1 n mexp t ∧ t.param = s.param) (den n) (T n ⟨s.param, 0, 2⟩)
      (O n ⟨s.param, 0, 2⟩) (unit n) (P n) := by
  have h := Anni.RedGen.field (redGen (n := n) ⟨s.param, 0, 2⟩ mexp rfl hs.pos_pos hs.pos hs.msk)
    (fun t => (t.pfx = 0 ∧ t.mexp = mexp ∧ FixOK t : Prop)) (fun _ => rfl) (fun _ _ => rfl) (fun _ _ => rfl)
    (fun _ => rfl) (fun k t => by
      show ((setOneBit k t).pfx = 0 ∧ (setOneBit k t).mexp = mexp ∧ FixOK (setOneBit k t)) = _
      unfold setOneBit; dsimp only; split <;> rfl) True
  have : (fun t => (Inv n t ∧ cfg t = ⟨s.param, 0, 2⟩) ∧ (t.pfx = 0 ∧ t.mexp = mexp ∧ FixOK t : Prop) = True) =
      fun t => Inv1 n mexp t ∧ t.param = s.param := by
    funext t
    apply propext
    unfold cfg
    rw [Cfg.mk.injEq, eq_iff_iff, iff_true]
    constructor
    · rintro ⟨⟨h1, h2, h3, h4⟩, h5, h6, h7⟩
      exact ⟨⟨h1, by rw [h2]; exact hs.msk, by rw [h2]; exact hs.sl1_pos, h3, h4, h5, h6, h7⟩, h2⟩
    · rintro ⟨h1, h2⟩
      exact ⟨⟨h1.toInv, h2, h1.start, h1.weight⟩, h1.pfx, h1.mexp, h1.fixed⟩
  rw [← this]
  exact h

/-- The words of the state after `seed` do not depend on the object. -/
theorem seed_den_eq {s t : St} (hs : Inv n s) (ht : Inv n t) (hw : s.weightMode = t.weightMode) (hp : s.pfx = t.pfx)
    (v : W128) : den n (seed v s) = den n (seed v t) := by
  have key : ∀ k, k < n → (seed v s).state k = (seed v t).state k := by
    intro k hk
    unfold seed
    dsimp only
    rw [setupPrefix_state ?_ hk, setupPrefix_state ?_ hk]
    · dsimp only
      rw [hs.size, ht.size, fold_set (fun i => mk64 (seedLoop ((n + 1) * 2 - 1) 1 _ (i * 2)) (seedLoop ((n + 1) * 2 - 1) 1 _ (i * 2 + 1))) n _ hk,
        fold_set (fun i => mk64 (seedLoop ((n + 1) * 2 - 1) 1 _ (i * 2)) (seedLoop ((n + 1) * 2 - 1) 1 _ (i * 2 + 1))) n _ hk, hp]
    · exact ht.size
    · exact hs.size
  have hn : 0 < n := by have := hs.two; omega
  refine Prod.ext (Prod.ext ?_ ?_) ?_
  · funext j
    show Wd.of ((seed v s).state ((0 + ((j : ℕ) + 1)) % n)) = Wd.of ((seed v t).state ((0 + ((j : ℕ) + 1)) % n))
    rw [key _ (Nat.mod_lt _ hn)]
  · show Wd.of (seed v s).lung = Wd.of (seed v t).lung
    unfold seed setupPrefix
    dsimp only
    rw [hs.size, ht.size]
  · show Wd.of (mk64 0 0 &&& keep s.weightMode) = Wd.of (mk64 0 0 &&& keep t.weightMode)
    rw [hw]

theorem family {mexp : ℕ} (h3 : 3 ≤ n) (hn : n < 2 ^ 31) :
    RFamily (rops n mexp) setUp (seed getOne) (Inv0 n mexp) (Inv1 n mexp) (fun s => s.param) (den n)
      (fun p => T n ⟨p, 0, 2⟩) (fun p => O n ⟨p, 0, 2⟩) (unit n) (P n) where
  wpos := by decide
  red s hs := redGen1 hs
  weak s hs := ⟨hs.size, hs.index, hs.start, hs.weight, hs.pfx, hs.mexp, hs.fixed⟩
  setUp_inv s f s' f' hs h := by
    obtain ⟨p, e1, e2, e3, e4, e5, e6⟩ := setUp_spec h3 hn hs.size hs.fixed f
    unfold setUp at h
    rw [e1] at h
    injection h with h
    injection h with h1 h2
    subst h1
    exact ⟨⟨by show 2 ≤ n; omega, hs.size, hs.index, e3, by show p.pos1 < n; omega, e6⟩, e2, e5, hs.start, hs.weight, hs.pfx, hs.mexp, hs.fixed⟩
  seed_inv s hs := by
    have h := seed_inv hs.toInv getOne
    exact ⟨⟨h.1, hs.msk, hs.sl1_pos, hs.start, hs.weight, hs.pfx, hs.mexp, hs.fixed⟩, rfl,
      den_full (by omega) hs.weight (seed_low hs.toInv hs.pfx _).1⟩
  seed_den s t hs ht _ := seed_den_eq hs.toInv ht.toInv (hs.weight.trans ht.weight.symm) (hs.pfx.trans ht.pfx.symm) _

theorem setUp_pos {mexp : ℕ} (h3 : 3 ≤ n) (hn : n < 2 ^ 31) (s : St) (f : ℕ → BitVec 64) (s' : St) (f' : ℕ → BitVec 64)
    (hs : Inv0 n mexp s) (h : setUp s f = some (s', f')) : s'.param.pos1 + 2 ≤ n := by
  obtain ⟨p, e1, -, -, e4, -⟩ := setUp_spec h3 hn hs.size hs.fixed f
  unfold setUp at h
  rw [e1] at h
  injection h with h
  injection h with h1 h2
  subst h1
  exact e4

/-! ### What a printed line means -/

/-- The states without exponent bits that the polynomial `f` annihilates. -/
noncomputable def Large (n : ℕ) (p : Par) (f : (ZMod 2)[X]) : Submodule (ZMod 2) (Core n) :=
  LinearMap.ker (aeval (T1 n p) f) ⊓ Low n

/-- What a number says of the 52-bit words that the parameters `p` produce in the component of `f`: it is the sum of the
defects for what `calc_dSFMT_equidistribution` delivers, which is at most the dimension and short of it by at most 1. -/
structure Measured (n mexp : ℕ) (p : Par) (f : (ZMod 2)[X]) (d52 : ℤ) : Prop where
  dim : Module.finrank (ZMod 2) (Large n p f) = mexp
  s52 : SimdSum 2 52 mexp (stream52 n p) (Large n p f) d52

/-- The parameters are in range. -/
def ParOK (n : ℕ) (p : Par) : Prop := MskOK p ∧ 1 ≤ p.pos1 ∧ p.pos1 < n ∧ 1 ≤ p.sl1 ∧ p.sl1 < 64

/-- There is a component of dimension `mexp`, and the printed fixed point is one for it. -/
def GoodFix (n mexp : ℕ) (l : Fields) : Prop :=
  ∃ f : (ZMod 2)[X], Irreducible f ∧ f.natDegree = mexp ∧ Large n l.param f ≠ ⊥ ∧
    FixPoint n l.param f (mk64 l.fix1 l.fix2)

/-- What is promised of printed parameters, fixed point and parity for exponent `mexp`; `n` words. -/
structure GoodFields (n mexp : ℕ) (l : Fields) : Prop where
  mexp_eq : l.mexp = mexp
  par : ParOK n l.param
  fixed : GoodFix n mexp l
  /-- An object with these parameters, filled with any lung and any words that have the sign and exponent bits of 1.0, and
  certified, has a period that is a multiple of `2^mexp - 1`. -/
  period : ∀ (x : ℕ → W128) (lung : W128) (k : ℕ),
    (∀ i, i < n → x i &&& mk64 0xfff0000000000000 0xfff0000000000000 = mk64 0x3ff0000000000000 0x3ff0000000000000) →
    core n (stateAt (ops n) (periodCertification false { l.gen with state := x, lung := lung }).1 k) =
      core n (periodCertification false { l.gen with state := x, lung := lung }).1 → 2 ^ mexp - 1 ∣ k

/-- The sequence of the lowest bits of the outputs of `g` has an irreducible factor of degree `mexp`. -/
def HasLarge (n mexp : ℕ) (g : St) : Prop :=
  ∃ f p : (ZMod 2)[X], Irreducible f ∧ f.natDegree = mexp ∧ IsSeqMinpoly p (Search.bitAt (ops n) g 0) ∧ f ∣ p

/-- What is promised of a printed line for exponent `mexp`; `n` words. -/
structure GoodLine (n mexp : ℕ) (l : Line) : Prop extends GoodFields n mexp l.toFields where
  /-- The program does not try every distance `pos1` below `n`. -/
  pos : l.param.pos1 + 2 ≤ n
  /-- There is a large component, and the printed number measures the words produced in it. -/
  equi : ∃ f : (ZMod 2)[X], Irreducible f ∧ f.natDegree = mexp ∧ Measured n mexp l.param f l.delta52
  /-- Seeded with 1, the object has the large component. -/
  one : HasLarge n mexp (seed (mk32 1 0 0 0) l.gen)

theorem cyc_inj {A B : Type} [AddCommGroup A] [Module (ZMod 2) A] [AddCommGroup B] [Module (ZMod 2) B]
    {T : A →ₗ[ZMod 2] A} {T' : B →ₗ[ZMod 2] B} (ι : A →ₗ[ZMod 2] B) (hι : Function.Injective ι) {x : A}
    (hx : ∀ k : ℕ, (T' ^ k) (ι x) = ι ((T ^ k) x)) (y : A) : ι y ∈ cyc T' (ι x) ↔ y ∈ cyc T x := by
  have h : cyc T' (ι x) = (cyc T x).map ι := by
    unfold cyc
    rw [Submodule.map_span, ← Set.range_comp]
    congr 2
    funext k
    exact hx k
  rw [h]
  constructor
  · rintro ⟨z, hz, e⟩
    rw [← hι e]; exact hz
  · intro hy
    exact ⟨y, hy, rfl⟩

theorem one_eq : mk32 1 0 0 0 = (getOne : W128) := by decide

theorem isVec_mul {A : Type} [AddCommGroup A] [Module (ZMod 2) A] {T : A →ₗ[ZMod 2] A} {x : A} {f c : (ZMod 2)[X]}
    (h : IsVecMinpoly T x f) (hc : IsCoprime f c) : IsVecMinpoly T (aeval T c x) f := by
  refine ⟨h.1, fun r => ?_⟩
  rw [← Module.End.mul_apply, ← map_mul, h.2]
  exact ⟨fun hd => hc.dvd_of_dvd_mul_right hd, fun hd => hd.mul_right c⟩

theorem coprime_X_add_one {f : (ZMod 2)[X]} (hf : Irreducible f) (hd : 2 ≤ f.natDegree) : IsCoprime f (X + 1) := by
  rw [hf.coprime_iff_not_dvd]
  intro h
  have e : (X + 1 : (ZMod 2)[X]) = X + C 1 := by rw [map_one]
  rw [e] at h
  have := natDegree_le_of_dvd h (monic_X_add_C _).ne_zero
  rw [natDegree_X_add_C] at this
  omega

variable {mexp : ℕ} {mps : MPS} {kernel : KernelFn} {xgcd : XgcdFn}

theorem mem_M (hn : 0 < n) (x : S n) : x ∈ M (rops n mexp).bitSize (unit n) ↔ x.1 ∈ Low n ∧ x.2 = 0 := by
  rw [show M (rops n mexp).bitSize (unit n) = Full n from M_full hn, mem_full]

theorem aeval_low {p : Par} (hp : ParOK n p) (r : (ZMod 2)[X]) {x : Core n} (hx : x ∈ Low n) :
    aeval (T n ⟨p, 0, 2⟩) r ((x, 0) : S n) = (aeval (T1 n p) r x, 0) := by
  have hR := redGen (n := n) ⟨p, 0, 2⟩ 1 rfl hp.2.1 hp.2.2.1 hp.1
  have hn : 0 < n := by have := hp.2.2.1; omega
  exact Prod.ext (aeval_fst ⟨p, 0, 2⟩ r _) ((mem_M hn _).1 (aeval_M hR r ((mem_M hn (x, 0)).2 ⟨hx, rfl⟩))).2

theorem Inv1.par {g : St} (hg : Inv1 n mexp g) : ParOK n g.param := ⟨hg.msk, hg.pos_pos, hg.pos, hg.sl1_pos, hg.sl1⟩

theorem gen_inv (h1 : 336 ≤ mexp) (hn : (mexp - 128) / 104 + 1 = n) {l : Fields} (hl : l.mexp = mexp)
    (hp : ParOK n l.param) : Inv1 n mexp l.gen := by
  subst hl hn
  obtain ⟨p1, p2, p3, p4, p5⟩ := hp
  exact ⟨(ctorPar_inv (by omega) p5 p2 p3 _ _ _ _).1, p1, p4, rfl, rfl, rfl, rfl, fun h => Bool.noConfusion (show false = true from h)⟩

/-- The component of `f` is not zero if a state of the invariant subspace is annihilated by `f`. -/
theorem large_root (hn : 0 < n) {p : Par} (hp : ParOK n p) (f : (ZMod 2)[X]) :
    (∃ x ∈ M (rops n mexp).bitSize (unit n), x ≠ 0 ∧ aeval (T n ⟨p, 0, 2⟩) f x = 0) ↔ Large n p f ≠ ⊥ := by
  constructor
  · rintro ⟨x, h1, h2, h3⟩ hb
    obtain ⟨m1, m2⟩ := (mem_M hn x).1 h1
    have : x.1 ∈ Large n p f := by
      refine Submodule.mem_inf.2 ⟨?_, m1⟩
      rw [LinearMap.mem_ker, ← aeval_fst ⟨p, 0, 2⟩, h3]; rfl
    rw [hb, Submodule.mem_bot] at this
    exact h2 (Prod.ext this m2)
  · intro hne
    obtain ⟨x, hx, hx0⟩ := Submodule.exists_mem_ne_zero_of_ne_bot hne
    obtain ⟨m1, m2⟩ := Submodule.mem_inf.1 hx
    refine ⟨(x, 0), (mem_M hn _).2 ⟨m2, rfl⟩, fun h => hx0 (congrArg Prod.fst h), ?_⟩
    rw [aeval_low hp f m2, LinearMap.mem_ker.1 m1]; rfl

/-- What `anni` leaves spans the large component. -/
theorem cyc_large {g : St} (hg : Inv1 n mexp g) (hbig : n * 104 + 128 < 2 * mexp) {f : (ZMod 2)[X]} (hf : Irreducible f)
    (hdeg : f.natDegree = mexp) (hM : den n g ∈ M (n * 104 + 128) (unit n))
    (hx : IsVecMinpoly (T n ⟨g.param, 0, 2⟩) (den n g) f) :
    IsVecMinpoly (T1 n g.param) (core n g) f ∧ cyc (T1 n g.param) (core n g) = Large n g.param f ∧
      Module.finrank (ZMod 2) (Large n g.param f) = mexp := by
  have hn : 0 < n := by have := hg.two; omega
  have hlow : core n g ∈ Low n := ((mem_M (mexp := mexp) hn _).1 hM).1
  have hden : den n g = (core n g, 0) := Prod.ext rfl ((mem_M (mexp := mexp) hn _).1 hM).2
  have hvec : IsVecMinpoly (T1 n g.param) (core n g) f := by
    refine ⟨hx.1, fun r => ?_⟩
    rw [← hx.2 r, hden, aeval_low hg.par r hlow]
    exact ⟨fun h => by rw [h]; rfl, fun h => congrArg Prod.fst h⟩
  have hpow : ∀ k : ℕ, (T n ⟨g.param, 0, 2⟩ ^ k) ((core n g, 0) : S n) = ((T1 n g.param ^ k) (core n g), 0) := by
    intro k
    have := aeval_low hg.par (X ^ k) hlow
    rwa [map_pow, map_pow, aeval_X, aeval_X] at this
  have hcyc : cyc (T1 n g.param) (core n g) = Large n g.param f := by
    ext y
    have hy := cyc_inj (T := T1 n g.param) (T' := T n ⟨g.param, 0, 2⟩) (x := core n g)
      (LinearMap.inl (ZMod 2) (Core n) (Wd 128)) LinearMap.inl_injective hpow y
    rw [← hy]
    rw [show (LinearMap.inl (ZMod 2) (Core n) (Wd 128)) (core n g) = den n g from hden.symm,
      cyc_eq_root (redGen1 hg) hbig hf hdeg hM hx]
    unfold Large
    rw [Submodule.mem_inf, LinearMap.mem_ker]
    constructor
    · rintro ⟨y1, y2⟩
      have hy : y ∈ Low n := ((mem_M (mexp := mexp) hn _).1 y1).1
      rw [show (LinearMap.inl (ZMod 2) (Core n) (Wd 128)) y = ((y, 0) : S n) from rfl, aeval_low hg.par f hy] at y2
      exact ⟨congrArg Prod.fst y2, hy⟩
    · rintro ⟨y1, y2⟩
      refine ⟨(mem_M hn _).2 ⟨y2, rfl⟩, ?_⟩
      rw [show (LinearMap.inl (ZMod 2) (Core n) (Wd 128)) y = ((y, 0) : S n) from rfl, aeval_low hg.par f y2, y1]; rfl
  exact ⟨hvec, hcyc, by rw [← hcyc, finrank_cyc hvec, hdeg]⟩

/-- **C64, C68.**  The measurement. -/
theorem delta_correct (h3 : mexp < 2 ^ 30) (hn : (mexp - 128) / 104 + 1 = n)
    (hbig : n * 104 + 128 < 2 * mexp) (veq52 : ℕ → ℤ) {g : St} (hg : Inv1 n mexp g) {f : (ZMod 2)[X]} (hf : Irreducible f)
    (hdeg : f.natDegree = mexp) (hM : den n g ∈ M (n * 104 + 128) (unit n))
    (hx : IsVecMinpoly (T n ⟨g.param, 0, 2⟩) (den n g) f) :
    ∃ veq d52, calcSIMD (simdOps n) (dsfmtAlg dinfo) calc1posWrap (128 * (129 * mexp) + 129) mexp 52 g veq52 =
      .ok (veq, d52) ∧ Measured n mexp g.param f d52 := by
  obtain ⟨hvec, hcyc, hrank⟩ := cyc_large hg hbig hf hdeg hM hx
  have hann : aeval (T1 n g.param) f (core n g) = 0 := (hvec.2 f).2 (dvd_refl f)
  obtain ⟨veq, sum, e1, e2⟩ := calcSIMD_sum (G := simdOps n) Layout.d52
    (blocks52 hg.pos_pos hg.pos _) (rand := g) (fun a ha b h1 h2 => mode52 hg.toInv ha h1 h2) (monic_of_ne hf.ne_zero) hann
    (by show _ ≤ n * 104 + 128; omega) isCalc1pos_128 (fuel := 128 * (129 * mexp) + 129) (by omega) hdeg.le (by omega) veq52
  rw [hcyc] at e2
  refine ⟨veq, sum, e1, hrank, e2.congr fun k s b hb => ?_⟩
  show SIMD.flip 52 false (stream52 n g.param k s) b = _
  rw [flip_apply, if_pos hb]
  rfl

/-- **C50, C68.**  The fixed point that `calc_fixpoint` returns for the factor `f`. -/
theorem fix_good (hX : XgcdSpec xgcd) (h1 : 336 ≤ mexp) (hbig : n * 104 + 128 < 2 * mexp)
    {g : St} (hg : Inv1 n mexp g) {f q : (ZMod 2)[X]} (hf : Irreducible f) (hdeg : f.natDegree = mexp)
    (hx : ∃ x ∈ M (n * 104 + 128) (unit n), x ≠ 0 ∧ aeval (T n ⟨g.param, 0, 2⟩) f x = 0) {fx : W128}
    (hrun : calcFixpoint xgcd n g f q = some fx) : FixPoint n g.param f fx := by
  have hn : 0 < n := by have := hg.two; omega
  obtain ⟨q', c1, c2, c3⟩ := exists_cofactor (redGen1 hg) hbig hf hdeg hx
  refine calcFixpoint_fixPoint hX hg.toInv hg.msk c1 (coprime_X_add_one hf (by omega)) (fun y hy => ?_) hrun
  have := c3 _ ((mem_M (mexp := mexp) hn (y, 0)).2 ⟨hy, rfl⟩)
  rw [aeval_low hg.par _ hy] at this
  exact congrArg Prod.fst this

/-- **C49, C68.**  A parity vector that `searchParity` returned, printed with the parameters and a fixed point. -/
theorem parity_good (hK : KernelSpec kernel) (hprime : (2 ^ mexp - 1).Prime)
    (hn : (mexp - 128) / 104 + 1 = n) (hbig : n * 104 + 128 < 2 * mexp) {g : St} (hg : Inv1 n mexp g)
    {f : (ZMod 2)[X]} (hf : Irreducible f) (hdeg : f.natDegree = mexp)
    (hx : ∃ x ∈ M (n * 104 + 128) (unit n), x ≠ 0 ∧ aeval (T n ⟨g.param, 0, 2⟩) f x = 0)
    (hfix : FixPoint n g.param f (mk64 g.fix1 g.fix2)) {fuel : ℕ} {sh v : W128} {g1 : St}
    (hv : searchParity (rops n mexp) words128 fuel kernel sh g f = .ok (v, g1)) :
    GoodFields n mexp ⟨mexp, g.param, g.fix1, g.fix2, u64 v 0, u64 v 1⟩ := by
  have hn0 : 0 < n := by omega
  refine ⟨rfl, hg.par, ⟨f, hf, hdeg, (large_root (mexp := mexp) hn0 hg.par f).1 hx, hfix⟩, fun x lung k hxx hk => ?_⟩
  obtain ⟨q', c1, c2, c3⟩ := exists_cofactor (redGen1 hg) hbig hf hdeg hx
  obtain ⟨x0, hx0M, hx00, hx0f⟩ := hx
  have hx0 := (mem_M (mexp := mexp) hn0 x0).1 hx0M
  refine certified_period_fix (n := n) (c := ⟨g.param, 0, 2⟩) (mexp := mexp) rfl hg.msk hK hf hdeg hprime
    ⟨x0.1, hx0.1, fun h => hx00 (Prod.ext h hx0.2), ?_⟩ c1 ?_ (g1 := g) ⟨hg.toInv, ?_⟩ hv
    (s := { ctorPar mexp g.param g.fix1 g.fix2 (u64 v 0) (u64 v 1) with state := x, lung := lung }) ?_ rfl ?_ ?_ hfix hk
  · rw [← aeval_fst ⟨g.param, 0, 2⟩, hx0f]; rfl
  · intro y hy
    have := c3 _ ((mem_M (mexp := mexp) hn0 (y, 0)).2 ⟨hy, rfl⟩)
    rw [aeval_low hg.par _ hy] at this
    exact congrArg Prod.fst this
  · unfold cfg
    rw [Cfg.mk.injEq]
    exact ⟨rfl, hg.start, hg.weight⟩
  · exact ⟨hg.two, hn, hn0, hg.pos_pos, hg.pos, hg.sl1⟩
  · intro j
    show (x ((0 + ((j : ℕ) + 1)) % n) ^^^ mk64 0x3ff0000000000000 0x3ff0000000000000) &&& hi = 0
    have hj := hxx ((0 + ((j : ℕ) + 1)) % n) (Nat.mod_lt _ (by omega))
    rw [and_xor]
    show (_ &&& mk64 0xfff0000000000000 0xfff0000000000000) ^^^ _ = _
    rw [hj]
    decide
  · exact mk64_u64 v

theorem setFix_inv {g : St} (hg : Inv1 n mexp g) (fx : W128) : Inv1 n mexp (setFixPoint fx g) :=
  ⟨⟨hg.two, hg.size, hg.index, hg.pos_pos, hg.pos, hg.sl1⟩, hg.msk, hg.sl1_pos, hg.start, hg.weight, hg.pfx, hg.mexp,
    hg.fixed⟩

/-- The generators with prescribed fixed point and parity. -/
theorem redGen2 {s : St} (hs : Inv1 n mexp s) (a b c d : BitVec 64) :
    RedGen (rops n mexp) (fun t => (Inv1 n mexp t ∧ t.param = s.param) ∧ (t.fix1, t.fix2, t.parity1, t.parity2) = (a, b, c, d))
      (den n) (T n ⟨s.param, 0, 2⟩) (O n ⟨s.param, 0, 2⟩) (unit n) (P n) :=
  Anni.RedGen.field (redGen1 hs) (fun t => (t.fix1, t.fix2, t.parity1, t.parity2)) (fun _ => rfl) (fun _ _ => rfl)
    (fun _ _ => rfl) (fun _ => rfl) (fun k t => by
      show ((setOneBit k t).fix1, (setOneBit k t).fix2, (setOneBit k t).parity1, (setOneBit k t).parity2) = _
      unfold setOneBit; dsimp only; split <;> rfl) (a, b, c, d)

/-- One turn of the loop. -/
theorem measure_good (hm : MinPolySeqSpec mps) (hK : KernelSpec kernel) (hX : XgcdSpec xgcd)
    (hprime : (2 ^ mexp - 1).Prime) (h1 : 336 ≤ mexp) (h3 : mexp < 2 ^ 30) (hn : (mexp - 128) / 104 + 1 = n) {fuel : ℕ}
    (hfuel : n * 104 + 128 < fuel) (J : Junk) {g : St} {f p : (ZMod 2)[X]}
    (H : Hit (rops n mexp) (seed getOne) (Inv1 n mexp) (fun s => s.param) (den n) (unit n) f p g)
    (hpos : g.param.pos1 + 2 ≤ n) :
    ∃ l g', measure mps kernel xgcd fuel J mexp g f p = .ok (l, g') ∧ Inv1 n mexp g' ∧ GoodLine n mexp l ∧
      l.param = g.param ∧ (g'.fixed, g'.fixedSL1) = (g.fixed, g.fixedSL1) := by
  have hn3 : 3 ≤ n := by omega
  have F := family (n := n) (mexp := mexp) hn3 (by omega)
  have hg := H.inv
  have hmexp : 1 ≤ mexp := by omega
  have hdeg : f.natDegree = mexp := H.deg
  have hR := redGen1 hg
  have hbig : n * 104 + 128 < 2 * mexp := by omega
  have hroot := H.root F hmexp
  -- the least common annihilator and its quotient
  obtain ⟨r, r1, r2, r3, r4, r5⟩ := getLCMPolyD_correct hm hR (by decide) (s := g) ⟨hg, rfl⟩ H.mem
    (lcm := p) (fun q hq => H.poly_dvd F hq)
  obtain ⟨c, rfl⟩ := H.dvd.trans ((r5 r).1 (dvd_refl r)).1
  have hf0 := H.irr.ne_zero
  have hc0 : c ≠ 0 := right_ne_zero_of_mul r2
  have hcop : IsCoprime f c := by
    rw [H.irr.coprime_iff_not_dvd]
    intro hd
    have e1 := natDegree_le_of_dvd hd hc0
    rw [natDegree_mul hf0 hc0] at r3
    have e2 : (rops n mexp).bitSize = n * 104 + 128 := rfl
    omega
  obtain ⟨fx, hfx⟩ := calcFixpoint_total (n := n) hX g hcop (coprime_X_add_one H.irr (by omega))
  have hfp := fix_good hX h1 hbig hg H.irr hdeg hroot hfx
  -- the parity vector
  let g1 := setFixPoint fx g
  have hg1 : Inv1 n mexp g1 := setFix_inv hg fx
  obtain ⟨v, hv⟩ := searchParity_returns (redGen1 hg1) wordsOK128 hK (obs hg.pos_pos hg.pos hg.sl1_pos) H.irr H.deg
    hroot (by show n * 104 + 128 - mexp < 128; omega) (fuel := fuel) hfuel J.shift ⟨hg1, rfl⟩
  let g2 := setParityValue v g1
  have hg2 : Inv1 n mexp g2 := ⟨⟨hg.two, hg.size, hg.index, hg.pos_pos, hg.pos, hg.sl1⟩, hg.msk, hg.sl1_pos, hg.start,
    hg.weight, hg.pfx, hg.mexp, hg.fixed⟩
  have hp1 := H.seeded F hg2 rfl
  have hs2 := F.seed_inv g2 hg2
  have hR' := Anni.RedGen.field (redGen2 hg (u64 fx 0) (u64 fx 1) (u64 v 0) (u64 v 1)) (fun t => (t.fixed, t.fixedSL1))
    (fun _ => rfl) (fun _ _ => rfl) (fun _ _ => rfl) (fun _ => rfl) (fun k t => by
      show ((setOneBit k t).fixed, (setOneBit k t).fixedSL1) = _
      unfold setOneBit; dsimp only; split <;> rfl) (g.fixed, g.fixedSL1)
  obtain ⟨g3, a1, ⟨a2, a3, a4⟩⟩ := anniD_of_factor hm hR' (by decide) hmexp hbig
    (obs hg.pos_pos hg.pos hg.sl1_pos) (t := seed getOne g2) ⟨⟨⟨hs2.1, rfl⟩, rfl⟩, rfl⟩ hs2.2.2 H.irr H.deg hp1 H.dvd
  obtain ⟨⟨⟨⟨i1, i2⟩, i3⟩, i5⟩, i4⟩ := Lin.annihilate_correct hR'.toLinGen c (g := g3) a2
  have a4' := isVec_mul a4 hcop
  have a3' := aeval_M hR c a3
  rw [← i4] at a3' a4'
  generalize hg4 : Lin.annihilate (ops n) c g3 = g4 at *
  have hg4' : Lin.annihilate (rops n mexp).toGenOps c g3 = g4 := hg4
  rw [hg4'] at i1 i2 i3 i4 i5 a3' a4'
  have i2' : g4.param = g.param := i2
  rw [← i2'] at a4'
  obtain ⟨veq52, sum52, e4, e5⟩ := delta_correct h3 hn hbig J.veq52 i1 H.irr hdeg a3' a4'
  have hpar : (g4.fix1, g4.fix2, g4.parity1, g4.parity2) = (u64 fx 0, u64 fx 1, u64 v 0, u64 v 1) := i3
  rw [Prod.mk.injEq, Prod.mk.injEq, Prod.mk.injEq] at hpar
  obtain ⟨j1, j2, j3, j4⟩ := hpar
  have hfl : fieldsOf g4 = ⟨mexp, g.param, u64 fx 0, u64 fx 1, u64 v 0, u64 v 1⟩ := by
    unfold fieldsOf
    rw [i1.mexp, i2', j1, j2, j3, j4]
  refine ⟨⟨fieldsOf g4, sum52⟩, g4, ?_, i1, ⟨?_, ?_, ⟨f, H.irr, hdeg, e5⟩, ?_⟩, i2', i5⟩
  · unfold measure
    dsimp only
    rw [hn, if_neg (by rw [Period.deg_of_ne hf0, hdeg]; simp), r1]
    dsimp only
    rw [mul_div_cancel_left₀ c hf0, hfx]
    dsimp only
    rw [show searchParity (rops n mexp) words128 fuel kernel J.shift (setFixPoint fx g) f = _ from hv]
    dsimp only
    rw [one_eq, show anniD mps (rops n mexp) (seed getOne ((rops n mexp).setParity v g1)) = some (g3, true) from a1]
    dsimp only
    rw [hg4, e4]
  · show GoodFields n mexp (fieldsOf g4)
    rw [hfl]
    refine parity_good hK hprime hn hbig hg1 H.irr hdeg hroot ?_ hv
    show FixPoint n g.param f (mk64 (u64 fx 0) (u64 fx 1))
    rw [mk64_u64]; exact hfp
  · show g4.param.pos1 + 2 ≤ n
    rw [i2']; exact hpos
  · rw [one_eq]
    refine ⟨f, p, H.irr, H.deg, H.seeded F (t := (fieldsOf g4).gen) ?_ ?_, H.dvd⟩
    · rw [hfl]
      exact gen_inv h1 hn rfl hg.par
    · rw [hfl]; rfl

theorem allowed : ∀ m ∈ allowedMexp, 336 ≤ m ∧ m < 2 ^ 30 ∧ m ∈ Period.mersenneExponent ∧ m ≤ 216091 := by
  decide +kernel

theorem dcLoop_good (hm : MinPolySeqSpec mps) (hK : KernelSpec kernel) (hX : XgcdSpec xgcd)
    (hprime : (2 ^ mexp - 1).Prime) (h1 : 336 ≤ mexp) (h3 : mexp < 2 ^ 30) (hn : (mexp - 128) / 104 + 1 = n) {fuel : ℕ}
    (hfuel : n * 104 + 128 < fuel) (J : Junk) (c : ℕ) (st : RSt St (ℕ → BitVec 64))
    (hst : Inv0 n mexp st.rand) (out : List Line) (hout : ∀ l ∈ out, GoodLine n mexp l) :
    (∃ lines, dcLoop mps kernel xgcd fuel J mexp c st out = .done lines ∧ lines.length = out.length + c ∧
      ∀ l ∈ lines, GoodLine n mexp l) ∨
    ∃ lines, dcLoop mps kernel xgcd fuel J mexp c st out = .failed lines ∧ lines.length < out.length + c ∧
      ∀ l ∈ lines, GoodLine n mexp l := by
  have F := family (n := n) (mexp := mexp) (by omega) (by omega)
  have F' := F.and (Q := fun p => p.pos1 + 2 ≤ n) (setUp_pos (by omega) (by omega))
  induction c generalizing st out with
  | zero =>
    exact .inl ⟨out.reverse, rfl, by rw [List.length_reverse]; rfl, fun l hl => hout l (List.mem_reverse.1 hl)⟩
  | succ c ih =>
    have hsrc : ∀ s src, Inv0 n mexp s → setUp s src ≠ none := by
      intro s src hs
      obtain ⟨p, e1, -⟩ := setUp_spec (n := n) (by omega) (by omega) hs.size hs.fixed src
      unfold setUp
      rw [e1]
      simp
    obtain ⟨b, st', i1, i2, -, -, i5⟩ := rStart_red hm F' (by show 1 ≤ mexp; omega) hsrc (mexp * 100) st hst
    have i1' : rStart mps (dOps (rops n mexp) setUp (seed getOne)) mexp (mexp * 100) st = .ret b st' := i1
    rw [dcLoop, hn, i1']
    cases b with
    | false =>
      exact .inr ⟨out.reverse, rfl, by rw [List.length_reverse]; omega, fun l hl => hout l (List.mem_reverse.1 hl)⟩
    | true =>
      obtain ⟨l, g', m1, m2, m3, -⟩ := measure_good hm hK hX hprime h1 h3 hn hfuel J ((i5 rfl).mono fun _ h => h.1)
        (i5 rfl).inv.2
      dsimp only
      rw [m1]
      dsimp only
      have := ih { st' with rand := g' } (F.weak _ m2) (l :: out) (fun l' hl' => by
        rcases List.mem_cons.1 hl' with h | h
        · rw [h]; exact m3
        · exact hout l' h)
      rw [List.length_cons, show out.length + 1 + c = out.length + (c + 1) by omega] at this
      exact this

theorem start_inv0 (junk : ℕ → W128) {fixedSL1 : Option ℕ} (hfix : ∀ x ∈ fixedSL1, 1 ≤ x ∧ x < 64) :
    Inv0 ((mexp - 128) / 104 + 1) mexp (start mexp junk fixedSL1) := by
  cases fixedSL1 with
  | none => exact ⟨rfl, by show 0 < (mexp - 128) / 104 + 1; omega, rfl, rfl, rfl, rfl, fun h => by cases h⟩
  | some x => exact ⟨rfl, by show 0 < (mexp - 128) / 104 + 1; omega, rfl, rfl, rfl, rfl, fun _ => hfix x rfl⟩

/-- **C68.**  For each of the seven exponents that the program accepts, with or without a fixed shift `1 ≤ sl1 < 64`,
whatever the random numbers, the uninitialised memory, the kernel base and the Bézout coefficients that NTL chooses and the
number `count` of lines asked for: the search ends by printing `count` lines or by reporting `search failed` after fewer; it
raises no exception, does not end with -1 and does nothing undefined; and all lines printed are right. -/
theorem dcSearch_correct (hm : MinPolySeqSpec mps) (hK : KernelSpec kernel) (hX : XgcdSpec xgcd)
    (hmexp : mexp ∈ allowedMexp) {fixedSL1 : Option ℕ} (hfix : ∀ x ∈ fixedSL1, 1 ≤ x ∧ x < 64) {fuel : ℕ}
    (hfuel : ((mexp - 128) / 104 + 1) * 104 + 128 < fuel) (J : Junk) (count : ℕ) (f : ℕ → BitVec 64) :
    (∃ lines, dcSearch mps kernel xgcd fuel J mexp count fixedSL1 f = .done lines ∧ lines.length = count ∧
      ∀ l ∈ lines, GoodLine ((mexp - 128) / 104 + 1) mexp l) ∨
    ∃ lines, dcSearch mps kernel xgcd fuel J mexp count fixedSL1 f = .failed lines ∧ lines.length < count ∧
      ∀ l ∈ lines, GoodLine ((mexp - 128) / 104 + 1) mexp l := by
  obtain ⟨h1, h3, h4, h5⟩ := allowed mexp hmexp
  have h0 := start_inv0 (mexp := mexp) J.state hfix
  have := dcLoop_good hm hK hX (Mexp.table_prime mexp h4 h5) h1 h3 rfl hfuel J count
    ⟨start mexp J.state fixedSL1, f, 0, 0, 0⟩ h0 [] (fun l hl => absurd hl (by simp))
  rw [List.length_nil, Nat.zero_add] at this
  exact this

-- The hypotheses can be met: dSFMT19937 (191 words) with `--fixed 19`, any functions that meet the contracts of NTL.
example : 19937 ∈ allowedMexp ∧ (∀ x ∈ some 19, 1 ≤ x ∧ x < 64) ∧ ((19937 - 128) / 104 + 1) * 104 + 128 < 20000 := by
  decide

end MTT.DSFMT
