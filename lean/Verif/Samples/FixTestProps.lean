import Verif.Samples.FixTest
import Verif.Samples.DSFMTToolsProps
import Verif.Samples.ParityTestProps
import Verif.Samples.LineLayout

/-!
# C102: `calc_fixpoint` of dSFMTdc with and without `-c`
-/

namespace MTT.DSFMT

open Polynomial PIS Search W128 Parity Anni SIMD Text

variable {n mexp : ℕ} {mps : MPS} {xgcd : XgcdFn}

theorem annihilate_core {g : St} (hg : Inv n g) (p : (ZMod 2)[X]) : Inv n (Lin.annihilate (ops n) p g) ∧
    (Lin.annihilate (ops n) p g).param = g.param ∧
    core n (Lin.annihilate (ops n) p g) = aeval (T1 n g.param) p (core n g) := by
  obtain ⟨⟨t1, t2⟩, t3⟩ := Lin.annihilate_correct (linGen (n := n) (cfg g)) p (g := g) ⟨hg, rfl⟩
  refine ⟨t1, congrArg Cfg.p t2, ?_⟩
  have := congrArg Prod.fst t3
  rw [aeval_fst] at this
  exact this

/-- The affine constant of the recursion: what it adds if every word carries the bits of 1.0. -/
def constant (n : ℕ) (p : Par) : (Fin n → Wd 128) × Wd 128 := T1 n p (ones n) + ones n

/-- The state whose vanishing `chk_fix2` tests, for the coefficients that NTL chooses. -/
noncomputable def defect (xgcd : XgcdFn) (n : ℕ) (p : Par) (f q : (ZMod 2)[X]) : (Fin n → Wd 128) × Wd 128 :=
  aeval (T1 n p) ((xgcd f q).2.2 * ((xgcd f (X + 1)).2.1 + X * (xgcd f q).2.1 * (xgcd f (X + 1)).2.2))
    (aeval (T1 n p) (f * q) (constant n p))

theorem xgcd_one (hX : XgcdSpec xgcd) {p r : (ZMod 2)[X]} (h : IsCoprime p r) : (xgcd p r).1 = 1 := by
  have hu : IsUnit (xgcd p r).1 := h.isUnit_of_dvd' (hX.dvd p r).1 (hX.dvd p r).2
  rwa [MTT.isUnit_iff_one] at hu

theorem deg_one : ¬ Period.deg (1 : (ZMod 2)[X]) ≠ 0 := by
  rw [not_not]
  unfold Period.deg
  rw [if_neg one_ne_zero, natDegree_one]; rfl

/-- **C102.**  `chk_fix1` never reports `failure d != 1` or `modoranai` and does not throw; if it returns true, the word is the
one that `calc_fixpoint` computes, and it returns true exactly if the defect vanishes. -/
theorem chkFix1_correct (hX : XgcdSpec xgcd) {g : St} (hg : Inv n g) {f q : (ZMod 2)[X]} (h1 : IsCoprime f q)
    (h2 : IsCoprime f (X + 1)) : ∃ v, calcFixpoint xgcd n g f q = some v ∧
    ((chkFix1 xgcd n g f q = .good v ∧ defect xgcd n g.param f q = 0) ∨
      (chkFix1 xgcd n g f q = .bad "chk_fix2 error\n".toList ∧ defect xgcd n g.param f q ≠ 0)) := by
  have e1 := hX.eq f q
  have e2 := hX.eq f (X + 1)
  rw [xgcd_one hX h1] at e1
  rw [xgcd_one hX h2] at e2
  unfold calcFixpoint chkFix1 chkFix2 defect
  dsimp only
  rw [xgcd_one hX h1, xgcd_one hX h2, if_neg deg_one, if_neg deg_one, if_neg deg_one, if_neg deg_one]
  generalize (xgcd f q).2.1 = a at *
  generalize (xgcd f q).2.2 = b at *
  generalize (xgcd f (X + 1)).2.1 = a' at *
  generalize (xgcd f (X + 1)).2.2 = b' at *
  obtain ⟨s1, s2, s3, -⟩ := setConst_spec hg
  have s2' : (setConst g).param = g.param := congrArg Cfg.p s2
  obtain ⟨t1, t2, t3⟩ := annihilate_core s1 (b * q)
  obtain ⟨u1, u2, u3⟩ := annihilate_core s1 (a * f)
  obtain ⟨v1, v2, v3⟩ := annihilate_core t1 b'
  rw [t2, s2'] at v3
  rw [t2, s2'] at v2
  rw [s2'] at t3 u3
  rw [t3] at v3
  refine ⟨_, rfl, ?_⟩
  have hc : core n (setConst g) = constant n g.param := s3
  rw [hc] at t3 u3 v3
  generalize constant n g.param = c at *
  generalize hA : Lin.annihilate (ops n) (b * q) (setConst g) = A at *
  generalize hB : Lin.annihilate (ops n) (a * f) (setConst g) = B at *
  generalize hZ : Lin.annihilate (ops n) b' A = Z at *
  have hmul : ∀ (p r : (ZMod 2)[X]) x, aeval (T1 n g.param) p (aeval (T1 n g.param) r x) = aeval (T1 n g.param) (p * r) x := by
    intro p r x; rw [map_mul, Module.End.mul_apply]
  have hback : equals (add B A) (setConst g) = true := by
    rw [equals_iff (add_inv u1).1, add_core u1, u3, t3, hc, ← LinearMap.add_apply, ← map_add, ← e1, map_one]
    rfl
  obtain ⟨⟨w1, w2⟩, w3, -⟩ := generate_spec v1
  have w3' : core n (generate Z).1 = T1 n g.param (core n Z) := by
    have := congrArg Prod.fst w3
    rw [← v2]
    exact this
  obtain ⟨x1, x2, x3⟩ := annihilate_core w1 (b * q)
  have w2' : (generate Z).1.param = g.param := (congrArg Cfg.p w2).trans v2
  rw [w2', w3', v3] at x3
  have htest : equals (add (Lin.annihilate (ops n) (b * q) (generate Z).1) A) Z = true ↔
      aeval (T1 n g.param) (b * (a' + X * a * b')) (aeval (T1 n g.param) (f * q) c) = 0 := by
    rw [equals_iff (add_inv x1).1, add_core x1, x3, t3, v3]
    have hT : ∀ x, T1 n g.param x = aeval (T1 n g.param) (X : (ZMod 2)[X]) x := fun x => by rw [aeval_X]
    have hz : ∀ x y : (Fin n → Wd 128) × Wd 128, x = y ↔ x + y = 0 := by
      intro x y
      constructor
      · rintro rfl; exact add_self' _
      · intro h
        have := congrArg (· + y) h
        simpa [add_assoc, add_self'] using this
    rw [hz, hT, hmul, hmul, hmul, hmul, ← LinearMap.add_apply, ← map_add, ← LinearMap.add_apply, ← map_add]
    have h2' : (2 : (ZMod 2)[X]) = 0 := by
      rw [← C_ofNat]
      exact (congrArg C (by decide)).trans C_0
    have key : b * q * X * b' * (b * q) + b * q + b' * (b * q) = b * (a' + X * a * b') * (f * q) := by
      linear_combination (b * q * X * b') * e1 + (b * q) * e2 + (b * q * b' + b * q * X * b' * b * q) * h2'
    rw [key, hmul]
  rw [hback]
  cases ht : equals (add (Lin.annihilate (ops n) (b * q) (generate Z).1) A) Z with
  | true => exact .inl ⟨rfl, htest.1 ht⟩
  | false =>
    refine .inr ⟨rfl, fun h => ?_⟩
    rw [htest.2 h] at ht
    cases ht

/-- What `-c` writes before the line: the degrees of the common multiple and of the cofactor. -/
def degText (mexp k : ℕ) : List Char :=
  "deg lcm poly = ".toList ++ dec (mexp + k) ++ "\ndeg small poly = ".toList ++ dec k ++ ['\n']

theorem deg_natDegree {p : (ZMod 2)[X]} (hp : p ≠ 0) : decInt (Period.deg p) = dec p.natDegree := by
  unfold Period.deg
  rw [if_neg hp]
  unfold decInt
  rw [if_neg (by omega), Int.natAbs_natCast]

/-- **C102.**  `calc_fixpoint` on a text that begins with admissible parameters, with and without `-c`.  If the seed has no
large component, this is reported.  Otherwise there are the irreducible factor `f` of degree mexp and a cofactor `q` with which
the following holds: without `-c` the line is printed, with a fixed point; with `-c` the same line is printed between the
degrees and the two words of the fixed point, provided that the defect vanishes; if it does not, the program reports
`chk_fix2 error` and `chk_fix1 error` and prints no line.  The defect vanishes if `f q` annihilates the affine constant. -/
theorem calcFixMain_correct (hm : MinPolySeqSpec mps) (hX : XgcdSpec xgcd) {l : Fields} (h1 : 336 ≤ l.mexp)
    (h3 : l.mexp < 2 ^ 30) (hn : (l.mexp - 128) / 104 + 1 = n) (hp : ParOK n l.param) (f1 f2 p1 p2 : BitVec 64) (w : W128)
    (rest : List Char) :
    (¬ HasLarge n l.mexp (seed w l.gen) ∧ ∃ d, ∀ check, calcFixMain mps xgcd f1 f2 p1 p2 w check (getString l ++ rest) =
      some (headText check l.mexp (n * 104 + 128) ++ noFactorText l.mexp d)) ∨
    (HasLarge n l.mexp (seed w l.gen) ∧ ∃ (l' : Fields) (f q : (ZMod 2)[X]), l'.mexp = l.mexp ∧ l'.param = l.param ∧
      GoodFix n l.mexp l' ∧ Irreducible f ∧ f.natDegree = l.mexp ∧ Large n l.param f ≠ ⊥ ∧ IsCoprime f q ∧
      calcFixMain mps xgcd f1 f2 p1 p2 w false (getString l ++ rest) = some (getString l' ++ ['\n']) ∧
      (aeval (T1 n l.param) (f * q) (constant n l.param) = 0 → defect xgcd n l.param f q = 0) ∧
      (defect xgcd n l.param f q = 0 → ∃ d1 d2, HexN 16 l'.fix1.toNat d1 ∧ HexN 16 l'.fix2.toNat d2 ∧
        calcFixMain mps xgcd f1 f2 p1 p2 w true (getString l ++ rest) =
          some (headText true l.mexp (n * 104 + 128) ++ degText l.mexp q.natDegree ++ getString l' ++ "\nfix1 = ".toList ++ d1 ++
            "\nfix2 = ".toList ++ d2 ++ ['\n'])) ∧
      (defect xgcd n l.param f q ≠ 0 → calcFixMain mps xgcd f1 f2 p1 p2 w true (getString l ++ rest) =
        some (headText true l.mexp (n * 104 + 128) ++ degText l.mexp q.natDegree ++
          "chk_fix2 error\nchk_fix1 error\n".toList))) := by
  have hg := gen_inv (l := { l with fix1 := f1, fix2 := f2, parity1 := p1, parity2 := p2 }) h1 hn rfl hp
  have hbig : n * 104 + 128 < 2 * l.mexp := by omega
  have hn0 : 0 < n := by omega
  obtain ⟨hs, hsp, hsM⟩ := seeded_inv hg w
  have hR := redGen1 hs
  obtain ⟨p, sf, b, irr, e1, e2, ⟨i1, i2⟩, i3, e3, e4, e5, e6⟩ := factor_step hm hR (by decide)
    (by show 1 ≤ l.mexp; omega) hbig ⟨hs, rfl⟩ hsM
  have i2' : sf.param = l.param := i2.trans hsp
  have hL : HasLarge n l.mexp (seed w l.gen) ↔ ∃ f : (ZMod 2)[X], Irreducible f ∧ f.natDegree = l.mexp ∧ f ∣ p := by
    have hseed : Search.bitAt (ops n) (seed w l.gen) 0 = Search.bitAt (rops n l.mexp).toGenOps (seed w
        { l with fix1 := f1, fix2 := f2, parity1 := p1, parity2 := p2 }.gen) 0 :=
      bitAt_seed h1 hn hp w _ _ _ _ _ _ _ _
    constructor
    · rintro ⟨f, p', h1, h2, h3, h4⟩
      rw [hseed] at h3
      rw [h3.unique e2] at h4
      exact ⟨f, h1, h2, h4⟩
    · rintro ⟨f, h1, h2, h3⟩
      exact ⟨f, p, h1, h2, by rw [hseed]; exact e2, h3⟩
  unfold calcFixMain
  rw [(parse_prefix l (by omega) (by have := hp.2.2.1; omega) (by have := hp.2.2.2.2; omega) f1 f2 p1 p2 rest).2]
  dsimp only
  rw [hn, show minpoly mps (ops n) 0 0 _ = some (sf, p) from e1]
  dsimp only
  rw [i1.mexp, show Period.hasFactorOfDegree (p.natDegree + 1) p l.mexp = some (b, irr) from e4]
  cases b with
  | false =>
    refine .inl ⟨?_, Period.deg irr, fun check => ?_⟩
    · rw [hL]
      rintro ⟨f, h1, h2, h3⟩
      exact e5 rfl f h1 h2 h3
    · unfold headText noFactorText
      simp only [List.append_assoc]
  | true =>
    obtain ⟨k1, k2, k3, k4⟩ := e6 rfl
    have k4' : ∃ x ∈ M (n * 104 + 128) (unit n), x ≠ 0 ∧ aeval (T n ⟨sf.param, 0, 2⟩) irr x = 0 := by
      rw [i2]; exact k4
    obtain ⟨r, r1, r2, r3, r4, r5⟩ := getLCMPolyD_correct hm hR (by decide) (s := sf) ⟨i1, i2⟩ i3 (lcm := p) e3
    obtain ⟨c, rfl⟩ := k3.trans ((r5 r).1 (dvd_refl r)).1
    have hf0 := k1.ne_zero
    have hc0 : c ≠ 0 := right_ne_zero_of_mul r2
    have hk2 : irr.natDegree = l.mexp := k2
    have hcop : IsCoprime irr c := by
      rw [k1.coprime_iff_not_dvd]
      intro hd
      have d1 := natDegree_le_of_dvd hd hc0
      rw [natDegree_mul hf0 hc0] at r3
      have d2 : (rops n l.mexp).bitSize = n * 104 + 128 := rfl
      omega
    obtain ⟨fx, hfx, hchk⟩ := chkFix1_correct (n := n) hX i1.toInv hcop (coprime_X_add_one k1 (by omega))
    have hfp := fix_good hX h1 hbig i1 k1 k2 k4' hfx
    dsimp only
    rw [r1]
    dsimp only
    have hrem : ¬ 0 ≤ Period.deg (irr * c % irr) := by
      rw [(EuclideanDomain.mod_eq_zero).2 (dvd_mul_right irr c), Period.deg, if_pos rfl]; decide
    have x1 : "\ndeg small poly = ".toList = ['\n'] ++ "deg small poly = ".toList := by decide
    have x2 : "\nfix1 = ".toList = ['\n'] ++ "fix1 = ".toList := by decide
    have x3 : "chk_fix2 error\nchk_fix1 error\n".toList = "chk_fix2 error\n".toList ++ "chk_fix1 error\n".toList := by decide
    rw [mul_div_cancel_left₀ c hf0, hfx]
    simp only [if_neg hrem]
    have hdl : decInt (Period.deg (irr * c)) = dec (l.mexp + c.natDegree) := by
      rw [deg_natDegree r2, natDegree_mul hf0 hc0, hk2]
    have hlarge := (large_root (mexp := l.mexp) hn0 (setFix_inv i1 fx).par irr).1 k4'
    rw [i2'] at hchk
    refine .inr ⟨hL.2 ⟨irr, k1, k2, k3⟩, fieldsOf (setFixPoint fx sf), irr, c, i1.mexp, i2', ⟨irr, k1, k2, hlarge, ?_⟩, k1, k2,
      by rw [← i2']; exact hlarge, hcop, ?_, fun h => ?_, fun h => ?_, fun h => ?_⟩
    · show FixPoint n sf.param irr (mk64 (u64 fx 0) (u64 fx 1))
      rw [mk64_u64]
      exact hfp
    · simp only [Bool.false_eq_true, if_false, List.nil_append]
    · unfold defect
      rw [h, map_zero]
    · rcases hchk with ⟨c1, -⟩ | ⟨-, c2⟩
      · refine ⟨_, _, hex16 _, hex16 _, ?_⟩
        rw [c1, hdl, deg_natDegree hc0]
        unfold headText degText
        simp only [if_true, List.append_assoc, x1, x2]
        rfl
      · exact absurd h c2
    · rcases hchk with ⟨-, c2⟩ | ⟨c1, -⟩
      · exact absurd c2 h
      · rw [c1, hdl, deg_natDegree hc0]
        unfold headText degText
        simp only [if_true, List.append_assoc, x1, x3]

/-- **C102.**  On a line that dSFMTdc printed and with the seed word 1, `calc_fixpoint` prints a line with a fixed point, and
`calc_fixpoint -c` prints the same line or says that its check failed. -/
theorem calcFixMain_line (hm : MinPolySeqSpec mps) (hX : XgcdSpec xgcd) (hmexp : mexp ∈ allowedMexp)
    (hn : (mexp - 128) / 104 + 1 = n) (f1 f2 p1 p2 : BitVec 64) {l : Line} (hl : GoodLine n mexp l) :
    ∃ l' : Fields, l'.mexp = mexp ∧ l'.param = l.param ∧ GoodFix n mexp l' ∧
      calcFixMain mps xgcd f1 f2 p1 p2 (mk32 1 0 0 0) false l.text = some (getString l' ++ ['\n']) ∧
      ∃ a b, calcFixMain mps xgcd f1 f2 p1 p2 (mk32 1 0 0 0) true l.text = some (a ++ b) ∧
        (b = "chk_fix1 error\n".toList ∨ ∃ c, b = getString l' ++ ['\n'] ++ c) := by
  obtain ⟨a1, a3, a4, a5⟩ := allowed mexp hmexp
  have hone := hl.one
  obtain ⟨hme, hp, hf, -⟩ := hl.toGoodFields
  subst hme
  unfold Line.text
  rcases calcFixMain_correct hm hX a1 a3 hn hp f1 f2 p1 p2 (mk32 1 0 0 0) (decInt l.delta52) with ⟨e, -⟩ |
    ⟨-, l', f, q, e1, e2, e3, -, -, -, -, e4, -, e5, e6⟩
  · exact absurd hone e
  · refine ⟨l', e1, e2, e3, e4, ?_⟩
    by_cases hd : defect xgcd n l.param f q = 0
    · obtain ⟨d1, d2, -, -, e7⟩ := e5 hd
      refine ⟨headText true l.mexp (n * 104 + 128) ++ degText l.mexp q.natDegree, _, e7.trans ?_, .inr ⟨"fix1 = ".toList ++ d1 ++ "\nfix2 = ".toList ++ d2 ++ ['\n'], rfl⟩⟩
      have x2 : "\nfix1 = ".toList = ['\n'] ++ "fix1 = ".toList := by decide
      simp only [x2, List.append_assoc]
    · refine ⟨headText true l.mexp (n * 104 + 128) ++ degText l.mexp q.natDegree ++ "chk_fix2 error\n".toList, _,
        (e6 hd).trans ?_, .inl rfl⟩
      have x3 : "chk_fix2 error\nchk_fix1 error\n".toList = "chk_fix2 error\n".toList ++ "chk_fix1 error\n".toList := by decide
      simp only [x3, List.append_assoc]

-- The hypotheses can be met: the published parameters of dSFMT19937 are in range; NTL's function exists; the defect of coprime
-- factors vanishes for a transition that the product annihilates.
example : 19937 ∈ allowedMexp ∧ (19937 - 128) / 104 + 1 = 191 ∧ 336 ≤ 19937 ∧ 19937 < 2 ^ 30 ∧
    ParOK 191 ⟨117, 19, 0x000ffafffffffb3f, 0x000ffdfffc90fffd⟩ := by
  refine ⟨by decide, by decide, by decide, by decide, ⟨?_, ?_⟩, ?_⟩ <;> decide

-- The text of the degrees, for the sizes of dSFMT521.
example : degText 521 103 = "deg lcm poly = 624\ndeg small poly = 103\n".toList := by decide +kernel

end MTT.DSFMT
