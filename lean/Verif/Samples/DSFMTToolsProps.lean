import Verif.Samples.DSFMTTools
import Verif.Samples.DSFMTDCProps
import Verif.Samples.LineTextProps

/-!
# C72, C73: the tools of the dSFMT search
-/

namespace MTT.DSFMT

open Polynomial PIS Search W128 Parity Anni SIMD Text

variable {n mexp : ℕ} {mps : MPS} {kernel : KernelFn} {xgcd : XgcdFn}

theorem Measured.unique {p : Par} {f : (ZMod 2)[X]} {a b : ℤ} (h : Measured n mexp p f a) (h' : Measured n mexp p f b) :
    a = b := h.s52.unique h'.s52

/-- The component of dimension `mexp` is determined by the parameters. -/
theorem large_unique (h1 : 336 ≤ mexp) (hn : (mexp - 128) / 104 + 1 = n) {p : Par} (hp : ParOK n p)
    {f f' : (ZMod 2)[X]} (hf : Irreducible f) (hdeg : f.natDegree = mexp) (hx : Large n p f ≠ ⊥)
    (hf' : Irreducible f') (hdeg' : f'.natDegree = mexp) (hx' : Large n p f' ≠ ⊥) : f' = f := by
  have hg := gen_inv (l := ⟨mexp, p, 0, 0, 0, 0⟩) h1 hn rfl hp
  have hn0 : 0 < n := by omega
  exact root_unique (redGen1 hg) (by show n * 104 + 128 < 2 * mexp; omega) hf hdeg
    ((large_root (mexp := mexp) hn0 hp f).2 hx) hf' hdeg' ((large_root (mexp := mexp) hn0 hp f').2 hx')

theorem ne_bot_of_dim (h1 : 336 ≤ mexp) {p : Par} {f : (ZMod 2)[X]}
    (h : Module.finrank (ZMod 2) (Large n p f) = mexp) : Large n p f ≠ ⊥ := by
  intro hb
  rw [hb, finrank_bot] at h
  omega

theorem seeded_inv {g : St} (hg : Inv1 n mexp g) (w : W128) :
    Inv1 n mexp (seed w g) ∧ (seed w g).param = g.param ∧ den n (seed w g) ∈ M (n * 104 + 128) (unit n) := by
  have hn : 0 < n := by have := hg.two; omega
  exact ⟨⟨(seed_inv hg.toInv w).1, hg.msk, hg.sl1_pos, hg.start, hg.weight, hg.pfx, hg.mexp, hg.fixed⟩, rfl,
    den_full hn hg.weight (seed_low hg.toInv hg.pfx _).1⟩

/-- The outputs after `seed` depend only on exponent and parameters. -/
theorem bitAt_seed (h1 : 336 ≤ mexp) (hn : (mexp - 128) / 104 + 1 = n) {p : Par} (hp : ParOK n p) (w : W128)
    (a b c d a' b' c' d' : BitVec 64) :
    Search.bitAt (ops n) (seed w (Fields.gen ⟨mexp, p, a, b, c, d⟩)) 0 =
      Search.bitAt (ops n) (seed w (Fields.gen ⟨mexp, p, a', b', c', d'⟩)) 0 := by
  have hg := gen_inv (l := ⟨mexp, p, a, b, c, d⟩) h1 hn rfl hp
  have hg' := gen_inv (l := ⟨mexp, p, a', b', c', d'⟩) h1 hn rfl hp
  have hs := (seeded_inv hg w).1
  have hs' := (seeded_inv hg' w).1
  have e := bitAt_eq (redGen1 hs).toLinGen ⟨hs, rfl⟩ (show 0 < 128 by decide)
  have e' := bitAt_eq (redGen1 hs').toLinGen ⟨hs', rfl⟩ (show 0 < 128 by decide)
  refine Eq.trans e (Eq.trans ?_ e'.symm)
  rw [seed_den_eq hg.toInv hg'.toInv rfl rfl w]
  rfl

/-- **C72.**  `calc_equidist` on a text that begins with admissible parameters, for every seed word: it fails exactly when the
seed has no large component, and otherwise prints the parameters and the measure of the large component; no exception,
nothing undefined. -/
theorem calcEquidist_correct (hm : MinPolySeqSpec mps) (veq52 : ℕ → ℤ) (w : W128) {l : Fields} (h1 : 336 ≤ l.mexp)
    (h3 : l.mexp < 2 ^ 30) (hn : (l.mexp - 128) / 104 + 1 = n) (hp : ParOK n l.param) (rest : List Char) :
    (calcEquidist mps veq52 w (getString l ++ rest) = .fails ∧ ¬ HasLarge n l.mexp (seed w l.gen)) ∨
    ∃ d52, calcEquidist mps veq52 w (getString l ++ rest) = .printed ⟨l, d52⟩ ∧ HasLarge n l.mexp (seed w l.gen) ∧
      ∃ f : (ZMod 2)[X], Irreducible f ∧ f.natDegree = l.mexp ∧ Measured n l.mexp l.param f d52 := by
  obtain ⟨hs, -, hsM⟩ := seeded_inv (gen_inv h1 hn rfl hp) w
  have hbig : n * 104 + 128 < 2 * l.mexp := by omega
  have hR := redGen2 hs l.fix1 l.fix2 l.parity1 l.parity2
  obtain ⟨g2, b, p, a1, a2, a3, a4⟩ := anniD_correct hm hR (by decide) (by show 1 ≤ l.mexp; omega)
    (by show n * 104 + 128 < 2 * l.mexp; omega) (obs hs.pos_pos hs.pos hs.sl1_pos) (s := seed w l.gen)
    ⟨⟨hs, rfl⟩, rfl⟩ hsM
  unfold calcEquidist
  rw [parse_getString l (by omega) (by have := hp.2.2.1; omega) (by have := hp.2.2.2.2; omega) rest]
  dsimp only
  rw [hn, a1]
  cases b with
  | false =>
    refine .inl ⟨rfl, ?_⟩
    rintro ⟨f, p', f1, f2, f3, f4⟩
    rw [f3.unique a2] at f4
    exact (a3 rfl).2 f f1 f2 f4
  | true =>
    obtain ⟨f, f1, f2, f3, ⟨⟨⟨i1, i2⟩, i3⟩, i4, i5⟩⟩ := a4 rfl
    have i2' : g2.param = l.param := i2
    have i3' : (g2.fix1, g2.fix2, g2.parity1, g2.parity2) = (l.fix1, l.fix2, l.parity1, l.parity2) := i3
    rw [Prod.mk.injEq, Prod.mk.injEq, Prod.mk.injEq] at i3'
    obtain ⟨j1, j2, j3, j4⟩ := i3'
    have i5' : IsVecMinpoly (T n ⟨g2.param, 0, 2⟩) (den n g2) f := by rw [i2']; exact i5
    obtain ⟨veq, d52, e1, e2⟩ := delta_correct h3 hn hbig veq52 i1 f1 f2 i4 i5'
    refine .inr ⟨d52, ?_, ⟨f, p, f1, f2, a2, f3⟩, f, f1, f2, i2' ▸ e2⟩
    dsimp only
    rw [e1]
    dsimp only
    unfold fieldsOf
    rw [i1.mexp, i2', j1, j2, j3, j4]

/-- **C72.**  `calc_equidist` on a line that dSFMTdc printed prints the same line or fails; with seed 1 it does not fail. -/
theorem calcEquidist_reproduces (hm : MinPolySeqSpec mps) (veq52 : ℕ → ℤ) (w : W128) (h1 : 336 ≤ mexp)
    (h3 : mexp < 2 ^ 30) (hn : (mexp - 128) / 104 + 1 = n) {l : Line} (hl : GoodLine n mexp l) :
    (calcEquidist mps veq52 w l.text = .fails ∨ calcEquidist mps veq52 w l.text = .printed l) ∧
      calcEquidist mps veq52 (mk32 1 0 0 0) l.text = .printed l := by
  obtain ⟨f, f1, f2, f3⟩ := hl.equi
  have hone := hl.one
  obtain ⟨hme, hp, -, -⟩ := hl.toGoodFields
  subst hme
  have key : ∀ w, (calcEquidist mps veq52 w l.text = .fails ∧ ¬ HasLarge n l.mexp (seed w l.gen)) ∨
      calcEquidist mps veq52 w l.text = .printed l := by
    intro w
    unfold Line.text
    rcases calcEquidist_correct hm veq52 w h1 h3 hn hp (decInt l.delta52) with ⟨e1, e2⟩ | ⟨d52, e1, -, f', g1, g2, g3⟩
    · exact .inl ⟨e1, e2⟩
    · have := large_unique h1 hn hp f1 f2 (ne_bot_of_dim h1 f3.dim) g1 g2 (ne_bot_of_dim h1 g3.dim)
      subst this
      rw [g3.unique f3] at e1
      exact .inr e1
  refine ⟨?_, ?_⟩
  · rcases key w with h | h
    · exact .inl h.1
    · exact .inr h
  · rcases key (mk32 1 0 0 0) with h | h
    · exact absurd hone h.2
    · exact h

/-- **C72.**  The printed line depends only on the parameters. -/
theorem calcEquidist_seed (hm : MinPolySeqSpec mps) (veq veq' : ℕ → ℤ) (w w' : W128) {l : Fields} (h1 : 336 ≤ l.mexp)
    (h3 : l.mexp < 2 ^ 30) (hn : (l.mexp - 128) / 104 + 1 = n) (hp : ParOK n l.param) (rest rest' : List Char) {a a' : Line}
    (ha : calcEquidist mps veq w (getString l ++ rest) = .printed a)
    (ha' : calcEquidist mps veq' w' (getString l ++ rest') = .printed a') : a = a' := by
  rcases calcEquidist_correct hm veq w h1 h3 hn hp rest with ⟨e1, -⟩ | ⟨d52, e1, -, f, f1, f2, f3⟩
  · rw [e1] at ha; cases ha
  rcases calcEquidist_correct hm veq' w' h1 h3 hn hp rest' with ⟨e1', -⟩ | ⟨c52, e1', -, f', g1, g2, g3⟩
  · rw [e1'] at ha'; cases ha'
  rw [e1] at ha
  rw [e1'] at ha'
  have := large_unique h1 hn hp f1 f2 (ne_bot_of_dim h1 f3.dim) g1 g2 (ne_bot_of_dim h1 g3.dim)
  subst this
  cases ha
  cases ha'
  rw [g3.unique f3]

/-- **C73.**  `calc_fixpoint` on a text that begins with admissible parameters: it reports an error exactly when the seed has
no large component, and otherwise prints the same parameters with a fixed point for the large component, whatever the text
says of the fixed point and whatever the uninitialised fields and the Bézout coefficients that NTL chooses. -/
theorem calcFix_correct (hm : MinPolySeqSpec mps) (hX : XgcdSpec xgcd) {l : Fields} (h1 : 336 ≤ l.mexp)
    (h3 : l.mexp < 2 ^ 30) (hn : (l.mexp - 128) / 104 + 1 = n) (hp : ParOK n l.param) (f1 f2 p1 p2 : BitVec 64) (w : W128)
    (rest : List Char) :
    (calcFix mps xgcd f1 f2 p1 p2 w (getString l ++ rest) = .fails ∧ ¬ HasLarge n l.mexp (seed w l.gen)) ∨
    ∃ l', calcFix mps xgcd f1 f2 p1 p2 w (getString l ++ rest) = .printed l' ∧ HasLarge n l.mexp (seed w l.gen) ∧
      l'.mexp = l.mexp ∧ l'.param = l.param ∧ GoodFix n l.mexp l' := by
  have hg := gen_inv (l := { l with fix1 := f1, fix2 := f2, parity1 := p1, parity2 := p2 }) h1 hn rfl hp
  have hbig : n * 104 + 128 < 2 * l.mexp := by omega
  have hn0 : 0 < n := by omega
  obtain ⟨hs, hsp, hsM⟩ := seeded_inv hg w
  have hR := redGen1 hs
  obtain ⟨p, sf, b, irr, e1, e2, ⟨i1, i2⟩, i3, e3, e4, e5, e6⟩ := factor_step hm hR (by decide)
    (by show 1 ≤ l.mexp; omega) hbig ⟨hs, rfl⟩ hsM
  have i2' : sf.param = l.param := i2.trans hsp
  have hL : HasLarge n l.mexp (seed w l.gen) ↔ ∃ f : (ZMod 2)[X], Irreducible f ∧ f.natDegree = l.mexp ∧ f ∣ p := by
    have hseed : Search.bitAt (ops n) (seed w l.gen) 0 = Search.bitAt (rops n l.mexp).toGenOps (seed w
        { l with fix1 := f1, fix2 := f2, parity1 := p1, parity2 := p2 }.gen) 0 :=
      bitAt_seed h1 hn hp w _ _ _ _ _ _ _ _
    constructor
    · rintro ⟨f, p', h1, h2, h3, h4⟩
      rw [hseed] at h3
      rw [h3.unique e2] at h4
      exact ⟨f, h1, h2, h4⟩
    · rintro ⟨f, h1, h2, h3⟩
      exact ⟨f, p, h1, h2, by rw [hseed]; exact e2, h3⟩
  unfold calcFix
  rw [(parse_prefix l (by omega) (by have := hp.2.2.1; omega) (by have := hp.2.2.2.2; omega) f1 f2 p1 p2 rest).2]
  dsimp only
  rw [hn, show minpoly mps (ops n) 0 0 _ = some (sf, p) from e1]
  dsimp only
  rw [i1.mexp, show Period.hasFactorOfDegree (p.natDegree + 1) p l.mexp = some (b, irr) from e4]
  cases b with
  | false =>
    refine .inl ⟨rfl, ?_⟩
    rw [hL]
    rintro ⟨f, h1, h2, h3⟩
    exact e5 rfl f h1 h2 h3
  | true =>
    obtain ⟨k1, k2, k3, k4⟩ := e6 rfl
    have k4' : ∃ x ∈ M (n * 104 + 128) (unit n), x ≠ 0 ∧ aeval (T n ⟨sf.param, 0, 2⟩) irr x = 0 := by
      rw [i2]; exact k4
    obtain ⟨r, r1, r2, r3, r4, r5⟩ := getLCMPolyD_correct hm hR (by decide) (s := sf) ⟨i1, i2⟩ i3 (lcm := p) e3
    obtain ⟨c, rfl⟩ := k3.trans ((r5 r).1 (dvd_refl r)).1
    have hf0 := k1.ne_zero
    have hc0 : c ≠ 0 := right_ne_zero_of_mul r2
    have hk2 : irr.natDegree = l.mexp := k2
    have hcop : IsCoprime irr c := by
      rw [k1.coprime_iff_not_dvd]
      intro hd
      have d1 := natDegree_le_of_dvd hd hc0
      rw [natDegree_mul hf0 hc0] at r3
      have d2 : (rops n l.mexp).bitSize = n * 104 + 128 := rfl
      omega
    obtain ⟨fx, hfx⟩ := calcFixpoint_total (n := n) hX sf hcop (coprime_X_add_one k1 (by omega))
    have hfp := fix_good hX h1 hbig i1 k1 k2 k4' hfx
    dsimp only
    rw [r1]
    dsimp only
    rw [if_neg (by rw [(EuclideanDomain.mod_eq_zero).2 (dvd_mul_right irr c), Period.deg, if_pos rfl]; decide), mul_div_cancel_left₀ c hf0, hfx]
    refine .inr ⟨_, rfl, hL.2 ⟨irr, k1, k2, k3⟩, i1.mexp, i2', irr, k1, k2, ?_, ?_⟩
    · exact (large_root (mexp := l.mexp) hn0 (setFix_inv i1 fx).par irr).1 k4'
    · show FixPoint n sf.param irr (mk64 (u64 fx 0) (u64 fx 1))
      rw [mk64_u64]
      exact hfp

/-- **C73.**  `calc_parity` on a text that begins with admissible parameters and a fixed point for them: it reports an error
exactly when the seed has no large component, and otherwise prints the same parameters and fixed point with a parity vector
for which certified objects have a period that is a multiple of `2^mexp - 1`. -/
theorem calcParity_correct (hm : MinPolySeqSpec mps) (hK : KernelSpec kernel) {l : Fields}
    (hprime : (2 ^ l.mexp - 1).Prime) (h1 : 336 ≤ l.mexp) (h3 : l.mexp < 2 ^ 30) (hn : (l.mexp - 128) / 104 + 1 = n)
    {fuel : ℕ} (hfuel : n * 104 + 128 < fuel) (sh : W128) (hp : ParOK n l.param) (hfix : GoodFix n l.mexp l)
    (p1 p2 : BitVec 64) (w : W128) (rest : List Char) :
    (calcParity mps kernel fuel sh p1 p2 w (getString l ++ rest) = .fails ∧ ¬ HasLarge n l.mexp (seed w l.gen)) ∨
    ∃ l', calcParity mps kernel fuel sh p1 p2 w (getString l ++ rest) = .printed l' ∧ HasLarge n l.mexp (seed w l.gen) ∧
      l'.param = l.param ∧ l'.fix1 = l.fix1 ∧ l'.fix2 = l.fix2 ∧ GoodFields n l.mexp l' := by
  have hg := gen_inv (l := { l with parity1 := p1, parity2 := p2 }) h1 hn rfl hp
  have hbig : n * 104 + 128 < 2 * l.mexp := by omega
  have hn0 : 0 < n := by omega
  obtain ⟨hs, hsp, hsM⟩ := seeded_inv hg w
  have hR := redGen2 hs l.fix1 l.fix2 p1 p2
  obtain ⟨p, sf, b, irr, e1, e2, ⟨⟨i1, i2⟩, i4⟩, i3, e3, e4, e5, e6⟩ := factor_step hm hR (by decide)
    (by show 1 ≤ l.mexp; omega) hbig ⟨⟨hs, rfl⟩, rfl⟩ hsM
  have i2' : sf.param = l.param := i2.trans hsp
  rw [Prod.mk.injEq, Prod.mk.injEq] at i4
  obtain ⟨j1, j2, -⟩ := i4
  have hL : HasLarge n l.mexp (seed w l.gen) ↔ ∃ f : (ZMod 2)[X], Irreducible f ∧ f.natDegree = l.mexp ∧ f ∣ p := by
    have hseed : Search.bitAt (ops n) (seed w l.gen) 0 = Search.bitAt (rops n l.mexp).toGenOps (seed w
        { l with parity1 := p1, parity2 := p2 }.gen) 0 :=
      bitAt_seed h1 hn hp w _ _ _ _ _ _ _ _
    constructor
    · rintro ⟨f, p', h1, h2, h3, h4⟩
      rw [hseed] at h3
      rw [h3.unique e2] at h4
      exact ⟨f, h1, h2, h4⟩
    · rintro ⟨f, h1, h2, h3⟩
      exact ⟨f, p, h1, h2, by rw [hseed]; exact e2, h3⟩
  unfold calcParity
  rw [(parse_prefix l (by omega) (by have := hp.2.2.1; omega) (by have := hp.2.2.2.2; omega) 0 0 p1 p2 rest).1]
  dsimp only
  rw [hn, show minpoly mps (ops n) 0 0 _ = some (sf, p) from e1]
  dsimp only
  rw [i1.mexp, show Period.hasFactorOfDegree (p.natDegree + 1) p l.mexp = some (b, irr) from e4]
  cases b with
  | false =>
    refine .inl ⟨rfl, ?_⟩
    rw [hL]
    rintro ⟨f, h1, h2, h3⟩
    exact e5 rfl f h1 h2 h3
  | true =>
    obtain ⟨k1, k2, k3, k4⟩ := e6 rfl
    have k4' : ∃ x ∈ M (n * 104 + 128) (unit n), x ≠ 0 ∧ aeval (T n ⟨sf.param, 0, 2⟩) irr x = 0 := by
      rw [i2]; exact k4
    obtain ⟨f, f1, f2, f3, f4⟩ := hfix
    have hfi : irr = f := large_unique h1 hn hp f1 f2 f3 k1 k2
      (by rw [← i2']; exact (large_root (mexp := l.mexp) hn0 i1.par irr).1 k4')
    subst hfi
    obtain ⟨v, hv⟩ := searchParity_returns (redGen1 i1) wordsOK128 hK (obs i1.pos_pos i1.pos i1.sl1_pos) k1 k2
      k4' (by show n * 104 + 128 - l.mexp < 128; omega) (fuel := fuel) hfuel sh ⟨i1, rfl⟩
    dsimp only
    rw [hv]
    have hfl : fieldsOf ((rops n l.mexp).setParity v sf) = ⟨l.mexp, sf.param, sf.fix1, sf.fix2, u64 v 0, u64 v 1⟩ := by
      show (⟨sf.mexp, sf.param, sf.fix1, sf.fix2, u64 v 0, u64 v 1⟩ : Fields) = _
      rw [i1.mexp]
    refine .inr ⟨_, rfl, hL.2 ⟨irr, k1, k2, k3⟩, i2', j1, j2, ?_⟩
    rw [hfl]
    refine parity_good hK hprime hn hbig i1 k1 k2 k4' ?_ hv
    rw [i2', j1, j2]
    exact f4

/-- **C73.**  The two tools one after the other: from admissible parameters to a complete set with a certified period. -/
theorem tools_pipeline (hm : MinPolySeqSpec mps) (hK : KernelSpec kernel) (hX : XgcdSpec xgcd) (hmexp : mexp ∈ allowedMexp)
    {l : Fields} (hl : l.mexp = mexp) (hn : (mexp - 128) / 104 + 1 = n) (hp : ParOK n l.param)
    {fuel : ℕ} (hfuel : n * 104 + 128 < fuel) (sh : W128) (f1 f2 p1 p2 q1 q2 : BitVec 64) (w w' : W128)
    (rest rest' : List Char) {l1 l2 : Fields} (h1 : calcFix mps xgcd f1 f2 p1 p2 w (getString l ++ rest) = .printed l1)
    (h2 : calcParity mps kernel fuel sh q1 q2 w' (getString l1 ++ rest') = .printed l2) :
    l2.param = l.param ∧ GoodFields n mexp l2 := by
  obtain ⟨a1, a3, a4, a5⟩ := allowed mexp hmexp
  subst hl
  rcases calcFix_correct hm hX a1 a3 hn hp f1 f2 p1 p2 w rest with ⟨e, -⟩ | ⟨l', e, -, e1, e2, e3⟩
  · rw [e] at h1; cases h1
  rw [e] at h1
  cases h1
  rw [← e1] at a1 a3 a4 a5 hn e3
  rcases calcParity_correct hm hK (Mexp.table_prime _ a4 a5) a1 a3 hn hfuel sh (by rw [e2]; exact hp) e3 q1 q2 w' rest' with
    ⟨e, -⟩ | ⟨l'', e, -, e4, -, -, e5⟩
  · rw [e] at h2; cases h2
  rw [e] at h2
  cases h2
  exact ⟨e4.trans e2, e1 ▸ e5⟩

/-- **C73.**  On a line that dSFMTdc printed and with seed 1, both tools print: `calc_fixpoint` a fixed point, `calc_parity`
a parity vector that is right for the printed fixed point. -/
theorem tools_line (hm : MinPolySeqSpec mps) (hK : KernelSpec kernel) (hX : XgcdSpec xgcd) (hmexp : mexp ∈ allowedMexp)
    (hn : (mexp - 128) / 104 + 1 = n) {fuel : ℕ} (hfuel : n * 104 + 128 < fuel) (sh : W128) (f1 f2 p1 p2 : BitVec 64)
    {l : Line} (hl : GoodLine n mexp l) :
    (∃ l', calcFix mps xgcd f1 f2 p1 p2 (mk32 1 0 0 0) l.text = .printed l' ∧ l'.param = l.param ∧ GoodFix n mexp l') ∧
    ∃ l', calcParity mps kernel fuel sh p1 p2 (mk32 1 0 0 0) l.text = .printed l' ∧ l'.param = l.param ∧
      l'.fix1 = l.fix1 ∧ l'.fix2 = l.fix2 ∧ GoodFields n mexp l' := by
  obtain ⟨a1, a3, a4, a5⟩ := allowed mexp hmexp
  have hone := hl.one
  obtain ⟨hme, hp, hf, -⟩ := hl.toGoodFields
  subst hme
  unfold Line.text
  constructor
  · rcases calcFix_correct hm hX a1 a3 hn hp f1 f2 p1 p2 (mk32 1 0 0 0) (decInt l.delta52) with ⟨-, e⟩ | ⟨l', e, -, -, e2, e3⟩
    · exact absurd hone e
    · exact ⟨l', e, e2, e3⟩
  · rcases calcParity_correct hm hK (Mexp.table_prime _ a4 a5) a1 a3 hn hfuel sh hp hf p1 p2 (mk32 1 0 0 0)
      (decInt l.delta52) with ⟨-, e⟩ | ⟨l', e, -, e2, e3, e4, e5⟩
    · exact absurd hone e
    · exact ⟨l', e, e2, e3, e4, e5⟩

-- The hypotheses can be met: the published parameters of dSFMT19937 are in range.
example : 19937 ∈ allowedMexp ∧ (19937 - 128) / 104 + 1 = 191 ∧
    ParOK 191 ⟨117, 19, 0x000ffafffffffb3f, 0x000ffdfffc90fffd⟩ := by
  refine ⟨by decide, by decide, ⟨?_, ?_⟩, ?_⟩ <;> decide

end MTT.DSFMT
