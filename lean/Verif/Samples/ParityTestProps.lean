import Verif.Samples.ParityTestLemmas
import Verif.Samples.SFMTToolsProps
import Verif.Samples.DSFMTToolsProps

/-!
# C101: `calc_parity` with and without `-c`
-/

namespace MTT.ParityTest

open Polynomial PIS Search W128 Text Parity Anni

/-- The last line of the self-test: `good k` says that the seed `k` has a large component. -/
def Verdict (good : ℕ → Prop) (t : List Char) : Prop :=
  ((∀ k, 1 ≤ k → k ≤ 100 → good k) ∧ t = "test successed 100 / 100\n".toList) ∨
  ∃ j, j < 100 ∧ (∀ k, 1 ≤ k → k ≤ j → good k) ∧ ¬ good (j + 1) ∧ t = "test failed at count ".toList ++ dec j ++ ['\n']

theorem testParity0_verdict {σ S : Type} [AddCommGroup S] [Module (ZMod 2) S] {R : ROps σ 128} {C : PT σ} {Inv : σ → Prop}
    {den : σ → S} {T : S →ₗ[ZMod 2] S} {O : S →ₗ[ZMod 2] V} {e : ℕ → S} {P : S →ₗ[ZMod 2] V} {f : (ZMod 2)[X]}
    {D : W128 → S} {Zero : σ → Prop} {mps : MPS} (hm : MinPolySeqSpec mps) (h : PTOK R C Inv den T O e P f D Zero)
    (hf : Sit R Inv den e f) {good : ℕ → Prop}
    (hgood : ∀ k, good k ↔ D (mk64 (BitVec.ofNat 64 k) 0) ∉ Q R.bitSize e T f) (v : Bool) {s : σ} (hs : Inv s) :
    ∃ t r, (v = false → t = []) ∧ Verdict good r ∧ testParity0 mps C v f s = some (t ++ r) := by
  obtain ⟨t, a1, a2, a3⟩ := testParity0_ok hm h hf v hs
  by_cases hall : ∀ j, j < 100 → good (j + 1)
  · refine ⟨t, _, a1, .inl ⟨fun k h1 h2 => ?_, rfl⟩, a2 fun j hj => (hgood _).1 (hall j hj)⟩
    have := hall (k - 1) (by omega)
    rwa [Nat.sub_add_cancel h1] at this
  · push Not at hall
    classical
    have hex : ∃ j, j < 100 ∧ ¬ good (j + 1) := hall
    obtain ⟨b1, b2⟩ := Nat.find_spec hex
    have hmin : ∀ j, j < Nat.find hex → good (j + 1) := fun j hj => by
      by_contra hc
      exact Nat.find_min hex hj ⟨by omega, hc⟩
    refine ⟨t, _, a1, .inr ⟨Nat.find hex, b1, fun k h1 h2 => ?_, b2, rfl⟩, ?_⟩
    · have := hmin (k - 1) (by omega)
      rwa [Nat.sub_add_cancel h1] at this
    · rw [a3 _ b1 (fun j hj => (hgood _).1 (hmin j hj)) (by by_contra hc; exact b2 ((hgood _).2 hc))]
      simp only [List.append_assoc]

theorem Verdict.ne_zero {good : ℕ → Prop} {t : List Char} (h : Verdict good t) (h1 : good 1) :
    t ≠ "test failed at count 0\n".toList := by
  rcases h with ⟨-, rfl⟩ | ⟨j, hj, -, h2, rfl⟩
  · decide
  · have hj0 : j ≠ 0 := fun h0 => h2 (by rw [h0]; exact h1)
    have key : ∀ j < 100, j ≠ 0 → "test failed at count ".toList ++ dec j ++ ['\n'] ≠ "test failed at count 0\n".toList := by
      decide +kernel
    exact key j hj hj0

-- Both verdicts occur: the second with a predicate that fails at seed 3.
example : Verdict (fun _ => True) "test successed 100 / 100\n".toList := .inl ⟨fun _ _ _ => trivial, rfl⟩

example : Verdict (fun k => k ≠ 3) "test failed at count 2\n".toList :=
  .inr ⟨2, by decide, fun k _ h => by omega, by decide, by decide +kernel⟩

end MTT.ParityTest

namespace MTT.SFMT

open Polynomial PIS Search W128 Parity Anni SIMD Text ParityTest

variable {n mexp : ℕ} {mps : MPS} {kernel : KernelFn}

theorem annLoop_index (p : (ZMod 2)[X]) : ∀ (k i : ℕ) (s t : St), (Lin.annLoop (ops n) p k i s t).index = s.index
  | 0, _, _, _ => rfl
  | k + 1, i, s, t => by
    rw [Lin.annLoop, annLoop_index p k]
    split
    · rfl
    · rfl

theorem stateAt_index {s : St} (hs : s.size = n) (hi : s.index < n) :
    ∀ k, (stateAt (ops n) s k).index = (s.index + k) % n ∧ (stateAt (ops n) s k).size = n
  | 0 => ⟨(Nat.mod_eq_of_lt hi).symm, hs⟩
  | k + 1 => by
    obtain ⟨h1, h2⟩ := stateAt_index hs hi k
    refine ⟨?_, h2⟩
    show ((stateAt (ops n) s k).index + 1) % (stateAt (ops n) s k).size % (stateAt (ops n) s k).size = _
    rw [h1, h2, Nat.mod_mod, Nat.mod_add_mod, Nat.add_assoc]

/-- The words of the sequence made by seed `v`, for objects that differ in the parity vector only. -/
theorem seeded1 {g : St} (hg : Inv1 n mexp g) (w : W128) : Inv1 n mexp (seed w g) ∧ (seed w g).param = g.param :=
  ⟨⟨(seed_inv hg.toInv w).1, hg.start, hg.weight, hg.rev, hg.mexp⟩, rfl⟩

/-- A seed has a large component exactly if its state is outside the small part. -/
theorem seedLarge_iff (hm : MinPolySeqSpec mps) {g : St} (hn : mexp / 128 + 1 = n) (h1 : 256 ≤ mexp) (hg : Inv1 n mexp g) {f p : (ZMod 2)[X]}
    (hf : Irreducible f) (hdeg : f.natDegree = mexp) {w : W128} (hp : IsSeqMinpoly p (Search.bitAt (ops n) (seed w g) 0))
    (hfp : f ∣ p) (v : W128) :
    HasLarge mexp (seed v g) ↔ den n (seed v g) ∉ Q (n * 128) (unit n) (T n ⟨g.param, 0, 4, false⟩) f := by
  subst hn
  obtain ⟨a1, a2⟩ := seeded1 hg w
  obtain ⟨b1, b2⟩ := seeded1 hg v
  have hR := redGen1 hg
  have hbig : (mexp / 128 + 1) * 128 < 2 * mexp := by omega
  have key : ∀ {q : (ZMod 2)[X]}, IsSeqMinpoly q (Search.bitAt (ops (mexp / 128 + 1)) (seed v g) 0) → _ := fun {q} hq =>
    dvd_iff hR (by decide) hf hdeg (by show 1 ≤ mexp; omega) hbig ⟨a1, a2⟩ (den_full a1.weight) hp hfp ⟨b1, b2⟩
      (den_full b1.weight) hq
  constructor
  · rintro ⟨f', q, c1, c2, c3, c4⟩
    have hr := exists_root hR (by decide) ⟨a1, a2⟩ (den_full a1.weight) (by omega) hp hfp
    have hr' := exists_root hR (by decide) ⟨b1, b2⟩ (den_full b1.weight) (by omega) c3 c4
    have := root_unique hR hbig hf hdeg hr c1 c2 hr'
    subst this
    exact (key c3).1 c4
  · intro h
    have hfin := M_finite ((mexp / 128 + 1) * 128) (unit (mexp / 128 + 1))
    obtain ⟨q, -, e2⟩ := minpoly_dim hm (restrict hR.toLinGen (M ((mexp / 128 + 1) * 128)
      (unit (mexp / 128 + 1))) hR.closed) (s := seed v g) ⟨⟨b1, b2⟩, den_full b1.weight⟩ (show 0 < 128 by decide)
      (finrank_M hR).le
    exact ⟨f, q, hf, hdeg, e2, (key e2).2 h⟩

/-- The class in the self-test, with a parity vector that `searchParity` made. -/
theorem ptest_ok (hn : mexp / 128 + 1 = n) {g : St} (hg : Inv1 n mexp g) {f : (ZMod 2)[X]} {v : W128} (hv : v ≠ 0)
    (horth : ∀ s, Inv1 n mexp s ∧ s.param = g.param →
      den n s ∈ Q (n * 128) (unit n) (T n ⟨g.param, 0, 4, false⟩) f → dot (getParityValue s) v = 0) :
    PTOK (rops n mexp) (ptest n mexp)
      (fun t => (Inv1 n mexp t ∧ t.param = g.param) ∧ (t.parity1, t.parity2, t.parity3, t.parity4) = (u v 0, u v 1, u v 2, u v 3))
      (den n) (T n ⟨g.param, 0, 4, false⟩) (O n ⟨g.param, 0, 4, false⟩) (unit n) (P n) f (fun w => den n (seed w g))
      (fun s => s.index = 0) := by
  have hpar : ∀ t : St, (t.parity1, t.parity2, t.parity3, t.parity4) = (u v 0, u v 1, u v 2, u v 3) → parity t = v := by
    intro t ht
    rw [Prod.mk.injEq, Prod.mk.injEq, Prod.mk.injEq] at ht
    unfold parity
    rw [ht.1, ht.2.1, ht.2.2.1, ht.2.2.2]
    exact mk32_eta v
  have hcert : ∀ t : St, parity t = v → ∃ x, (periodCertification t).1 = { t with state := x } := by
    intro t ht
    obtain ⟨c1, c2, -, -⟩ := periodCertification_correct t (by rw [ht]; exact hv)
    rcases two_cases (dot (t.state 0) (parity t)) with h | h
    · obtain ⟨b, -, -, e⟩ := c2 h
      exact ⟨_, by rw [e]⟩
    · exact ⟨t.state, by rw [c1 h]⟩
  have hinv : ∀ t, ((Inv1 n mexp t ∧ t.param = g.param) ∧ (t.parity1, t.parity2, t.parity3, t.parity4) =
      (u v 0, u v 1, u v 2, u v 3)) → ((Inv1 n mexp (periodCertification t).1 ∧ (periodCertification t).1.param = g.param) ∧
      ((periodCertification t).1.parity1, (periodCertification t).1.parity2, (periodCertification t).1.parity3,
        (periodCertification t).1.parity4) = (u v 0, u v 1, u v 2, u v 3)) := by
    rintro t ⟨⟨t1, t2⟩, t3⟩
    obtain ⟨x, e⟩ := hcert t (hpar t t3)
    rw [e]
    exact ⟨⟨⟨⟨t1.three, t1.size, t1.index, t1.pos_pos, t1.pos, t1.ok⟩, t1.start, t1.weight, t1.rev, t1.mexp⟩, t2⟩, t3⟩
  refine ⟨?_, rfl, rfl, ?_, ?_, ?_, ?_, ?_, rfl⟩
  · exact Anni.RedGen.field (redGen1 hg) (fun t => (t.parity1, t.parity2, t.parity3, t.parity4)) (fun _ => rfl)
      (fun _ _ => rfl) (fun _ _ => rfl) (fun _ => rfl) (fun _ _ => rfl) (u v 0, u v 1, u v 2, u v 3)
  · rintro w s ⟨⟨s1, s2⟩, s3⟩
    obtain ⟨a1, a2⟩ := seeded1 s1 w
    refine ⟨⟨⟨a1, a2.trans s2⟩, s3⟩, den_full a1.weight, ?_⟩
    exact seed_den_eq s1.toInv hg.toInv (s1.weight.trans hg.weight.symm) w
  · intro s hs _
    have := hinv s hs
    exact ⟨this, den_full this.1.1.weight⟩
  · rintro s ⟨-, s3⟩
    exact (periodCertification_correct s (by rw [hpar s s3]; exact hv)).2.2.2
  · rintro s ⟨s1, s3⟩ hz hQ
    have hp := hpar s s3
    obtain ⟨c1, c2, c3, -⟩ := periodCertification_correct s (by rw [hp]; exact hv)
    have hi := hinv s ⟨s1, s3⟩
    have h0 := horth s s1 hQ
    unfold getParityValue at h0
    rw [show s.index = 0 from hz] at h0
    obtain ⟨b, -, -, e⟩ := c2 (by rw [hp]; exact h0)
    refine ⟨by show (periodCertification s).2 ≠ 1; rw [e]; exact Nat.zero_ne_one, fun hQ' => ?_⟩
    have h1 := horth _ hi.1 hQ'
    unfold getParityValue at h1
    rw [show (periodCertification s).1.index = 0 by rw [e]; exact hz] at h1
    rw [hp, show dot ((periodCertification s).1.state 0) v = 0 from h1] at c3
    exact zero_ne_one c3
  · rintro w s ⟨⟨s1, -⟩, -⟩
    have hz : (Lin.annihilate (ops n) f (seed w s)).index = 0 := annLoop_index _ _ _ _ _
    have hsz : (Lin.annihilate (ops n) f (seed w s)).size = n :=
      (Lin.annihilate_correct (redGen1 s1).toLinGen f (g := seed w s) (seeded1 s1 w)).1.1.size
    have hn0 : 0 < n := by omega
    have := (stateAt_index hsz (by rw [hz]; exact hn0) (2 * (n * 128))).1
    rw [hz] at this
    refine Eq.trans this ?_
    rw [show 0 + 2 * (n * 128) = n * 256 by omega]
    exact Nat.mul_mod_right n 256

theorem setParity_inv1 {g : St} (hg : Inv1 n mexp g) (v : W128) : Inv1 n mexp (setParityValue v g) :=
  ⟨⟨hg.three, hg.size, hg.index, hg.pos_pos, hg.pos, hg.ok⟩, hg.start, hg.weight, hg.rev, hg.mexp⟩

/-- The self-test after `searchParity`. -/
theorem selfTest (hm : MinPolySeqSpec mps) (hn : mexp / 128 + 1 = n) (h1 : 256 ≤ mexp) {g : St} (hg : Inv1 n mexp g)
    {f p : (ZMod 2)[X]} (hf : Irreducible f) (hdeg : f.natDegree = mexp) {w : W128}
    (hp : IsSeqMinpoly p (Search.bitAt (ops n) (seed w g) 0)) (hfp : f ∣ p) {v : W128} (hv : v ≠ 0)
    (horth : ∀ s, Inv1 n mexp s ∧ s.param = g.param →
      den n s ∈ Q (n * 128) (unit n) (T n ⟨g.param, 0, 4, false⟩) f → dot (getParityValue s) v = 0) (verbose : Bool) :
    ∃ t r, (verbose = false → t = []) ∧ Verdict (fun k => HasLarge mexp (seed (mk64 (BitVec.ofNat 64 k) 0) g)) r ∧
      testParity0 mps (ptest n mexp) verbose f (setParityValue v g) = some (t ++ r) := by
  have hok := ptest_ok hn hg hv horth
  have hi := setParity_inv1 hg v
  obtain ⟨a1, a2⟩ := seeded1 hi w
  have hseq : Search.bitAt (ops n) (seed w (setParityValue v g)) 0 = Search.bitAt (ops n) (seed w g) 0 := by
    obtain ⟨b1, b2⟩ := seeded1 hg w
    refine Eq.trans (bitAt_eq (redGen1 hg).toLinGen ⟨a1, a2⟩ (show 0 < 128 by decide)) (Eq.trans ?_
      (bitAt_eq (redGen1 hg).toLinGen ⟨b1, b2⟩ (show 0 < 128 by decide)).symm)
    rw [seed_den_eq hi.toInv hg.toInv rfl w]
  have hsit : Sit (rops n mexp) (fun t => (Inv1 n mexp t ∧ t.param = g.param) ∧
      (t.parity1, t.parity2, t.parity3, t.parity4) = (u v 0, u v 1, u v 2, u v 3)) (den n) (unit n) f :=
    ⟨hf, hdeg, by show 1 ≤ mexp; omega, by show n * 128 < 2 * mexp; omega,
      seed w (setParityValue v g), p, ⟨⟨a1, a2⟩, rfl⟩, den_full a1.weight, by
        show IsSeqMinpoly p (Search.bitAt (ops n) (seed w (setParityValue v g)) 0)
        rw [hseq]; exact hp, hfp⟩
  exact testParity0_verdict hm hok hsit (fun k => seedLarge_iff hm hn h1 hg hf hdeg hp hfp _) verbose ⟨⟨hi, rfl⟩, rfl⟩

/-- What `main` prints if the seed has no large component. -/
def noFactorText (mexp : ℕ) (d : ℤ) : List Char :=
  "error does not have factor of degree ".toList ++ dec mexp ++ "\ndegree = ".toList ++ decInt d ++ ['\n']

/-- The line that `main` prints first with `-c`. -/
def headText (check : Bool) (mexp maxdegree : ℕ) : List Char :=
  if check then "mexp = ".toList ++ dec mexp ++ ", maxdegree = ".toList ++ dec maxdegree ++ ['\n'] else []

/-- **C101.**  `calc_parity` of sfmtdc on a text that begins with admissible parameters, with all options: it prints an error
exactly if the seed of `main` has no large component (and returns 0 all the same); otherwise it prints the parameters with a
right parity vector, and with `-c` after that the result of the self-test, which fails exactly if one of the seeds 1 to 100 has
no large component. -/
theorem calcParityMain_correct (hm : MinPolySeqSpec mps) (hK : KernelSpec kernel) {l : Fields}
    (hprime : (2 ^ l.mexp - 1).Prime) (h1 : 256 ≤ l.mexp) (h2 : l.mexp % 128 ≠ 0) (h3 : l.mexp < 2 ^ 30) {fuel : ℕ}
    (hfuel : (l.mexp / 128 + 1) * 128 < fuel) (sh w : W128) (check verbose : Bool)
    (hp : ParOK l.param ∧ 1 ≤ l.param.pos1 ∧ l.param.pos1 < l.mexp / 128 + 1) (rest : List Char) :
    (¬ HasLarge l.mexp (seed w l.gen) ∧ ∃ d, calcParityMain mps kernel fuel sh w check verbose (getString l ++ rest) =
      some (headText check l.mexp ((l.mexp / 128 + 1) * 128) ++ noFactorText l.mexp d, 0)) ∨
    (HasLarge l.mexp (seed w l.gen) ∧ ∃ l', l'.param = l.param ∧ GoodFields l.mexp l' ∧
      (check = false → calcParityMain mps kernel fuel sh w check verbose (getString l ++ rest) =
        some (getString l' ++ ['\n'], 0)) ∧
      (check = true → ∃ t r, (verbose = false → t = []) ∧
        Verdict (fun k => HasLarge l.mexp (seed (mk64 (BitVec.ofNat 64 k) 0) l.gen)) r ∧
        calcParityMain mps kernel fuel sh w check verbose (getString l ++ rest) =
          some (headText true l.mexp ((l.mexp / 128 + 1) * 128) ++ getString l' ++ ['\n'] ++ t ++ r, 0))) := by
  have hg := gen_inv h1 rfl hp
  have hbig : (l.mexp / 128 + 1) * 128 < 2 * l.mexp := by omega
  obtain ⟨hs, hsp⟩ := seeded1 hg w
  have hR := redGen1 hg
  obtain ⟨p, sf, b, irr, e1, e2, ⟨i1, i2⟩, -, -, e4, e5, e6⟩ := factor_step hm hR (by decide)
    (by show 1 ≤ l.mexp; omega) hbig ⟨hs, hsp⟩ (den_full hs.weight)
  have i2' : sf.param = l.param := i2
  unfold calcParityMain
  rw [parse_ok h3 hp rest]
  dsimp only
  rw [show minpoly mps (ops (l.mexp / 128 + 1)) 0 0 (seed w l.gen) = some (sf, p) from e1]
  dsimp only
  rw [i1.mexp, show Period.hasFactorOfDegree (p.natDegree + 1) p l.mexp = some (b, irr) from e4]
  cases b with
  | false =>
    refine .inl ⟨?_, Period.deg irr, ?_⟩
    · rintro ⟨f, p', f1, f2, f3, f4⟩
      rw [f3.unique e2] at f4
      exact e5 rfl f f1 f2 f4
    · unfold headText noFactorText
      simp only [List.append_assoc]
  | true =>
    obtain ⟨k1, k2, k3, k4⟩ := e6 rfl
    have k4' : ∃ x ∈ M ((l.mexp / 128 + 1) * 128) (unit (l.mexp / 128 + 1)), x ≠ 0 ∧
        aeval (T (l.mexp / 128 + 1) ⟨sf.param, 0, 4, false⟩) irr x = 0 := by
      rw [i2']; exact k4
    obtain ⟨v, hv⟩ := searchParity_returns (redGen1 i1) wordsOK128 hK
      (obsP i1.three i1.pos_pos i1.pos i1.ok) k1 k2 k4'
      (by show (l.mexp / 128 + 1) * 128 - l.mexp < 128; omega) (fuel := fuel) hfuel sh ⟨i1, rfl⟩
    obtain ⟨v0, -, horth⟩ := searchParity_orthogonal (redGen1 i1) wordsOK128 hK k1 k2 k4' ⟨i1, rfl⟩ hv
    rw [i2'] at horth
    have hgood := parity_good hK hprime h1 hbig i1 k1 k2 k4' hv
    have hfl : fieldsOf ((rops (l.mexp / 128 + 1) l.mexp).setParity v sf) =
        ⟨l.mexp, sf.param, u v 0, u v 1, u v 2, u v 3⟩ := by
      show (⟨sf.mexp, sf.param, u v 0, u v 1, u v 2, u v 3⟩ : Fields) = _
      rw [i1.mexp]
    refine .inr ⟨⟨irr, p, k1, k2, e2, k3⟩, ⟨l.mexp, sf.param, u v 0, u v 1, u v 2, u v 3⟩, i2', hgood, ?_, ?_⟩
    · rintro rfl
      dsimp only
      rw [hv]
      dsimp only
      rw [hfl]
      simp only [Bool.false_eq_true, if_false, List.nil_append]
    · rintro rfl
      have hgv : getParityValue ((rops (l.mexp / 128 + 1) l.mexp).setParity v sf) = v := by
        show (Function.update sf.state sf.index v) sf.index = v
        rw [Function.update_self]
      obtain ⟨t, r, t1, t2, t3⟩ := selfTest hm rfl h1 hg k1 k2 e2 k3 v0 horth verbose
      refine ⟨t, r, t1, t2, ?_⟩
      dsimp only
      rw [hv]
      dsimp only
      rw [if_pos rfl, hgv, t3, hfl]
      unfold headText
      simp only [Option.map_some, List.append_assoc]

/-- **C101.**  On a line that sfmtdc printed and with the seed word 1 there is no error, and the self-test gets past the first
seed. -/
theorem calcParityMain_line (hm : MinPolySeqSpec mps) (hK : KernelSpec kernel) (hmexp : mexp ∈ allowedMexp) {fuel : ℕ}
    (hfuel : (mexp / 128 + 1) * 128 < fuel) (sh : W128) (verbose : Bool) {l : Line} (hl : GoodLine mexp l) :
    ∃ l' t r, l'.param = l.param ∧ GoodFields mexp l' ∧ (verbose = false → t = []) ∧
      Verdict (fun k => HasLarge mexp (seed (mk64 (BitVec.ofNat 64 k) 0) l.gen)) r ∧
      r ≠ "test failed at count 0\n".toList ∧
      calcParityMain mps kernel fuel sh (mk32 1 0 0 0) true verbose l.text =
        some (headText true mexp ((mexp / 128 + 1) * 128) ++ getString l' ++ ['\n'] ++ t ++ r, 0) := by
  obtain ⟨h1, h2, h3, h4, h5⟩ := allowed mexp hmexp
  have hone := hl.one
  obtain ⟨hme, hp, -⟩ := hl.toGoodFields
  subst hme
  unfold Line.text
  rw [List.append_assoc, List.append_assoc, List.append_assoc, List.append_assoc]
  rcases calcParityMain_correct hm hK (Mexp.table_prime _ h4 h5) h1 h2 h3 hfuel sh (mk32 1 0 0 0) true verbose hp
    (decInt l.delta32 ++ ([','] ++ (decInt l.delta64 ++ ([','] ++ decInt l.delta128)))) with
    ⟨e, -⟩ | ⟨-, l', e1, e2, -, e3⟩
  · exact absurd hone e
  · obtain ⟨t, r, t1, t2, t3⟩ := e3 rfl
    refine ⟨l', t, r, e1, e2, t1, t2, ?_, t3⟩
    exact t2.ne_zero (by rw [show mk64 (BitVec.ofNat 64 1) 0 = mk32 1 0 0 0 by decide]; exact hone)

-- The hypotheses can be met: the published parameters of SFMT19937 are in range, and 19937 is an allowed exponent.
example : (2 ^ line19937.mexp - 1).Prime ∧ 256 ≤ line19937.mexp ∧ line19937.mexp % 128 ≠ 0 ∧ line19937.mexp < 2 ^ 30 ∧
    ParOK line19937.param ∧ 1 ≤ line19937.param.pos1 ∧ line19937.param.pos1 < line19937.mexp / 128 + 1 := by
  have hm : line19937.mexp ∈ allowedMexp := by decide
  obtain ⟨h1, h2, h3, h4, h5⟩ := allowed _ hm
  exact ⟨Mexp.table_prime _ h4 h5, h1, h2, h3, ⟨by decide, by decide, by decide, by decide, by decide, by decide⟩, by decide,
    by decide⟩

end MTT.SFMT

namespace MTT.DSFMT

open Polynomial PIS Search W128 Parity Anni SIMD Text ParityTest

variable {n mexp : ℕ} {mps : MPS} {kernel : KernelFn}

/-- A seed has a large component exactly if its state is outside the small part. -/
theorem seedLarge_iff (hm : MinPolySeqSpec mps) {g : St} (hbig : n * 104 + 128 < 2 * mexp) (h1 : 1 ≤ mexp) (hg : Inv1 n mexp g)
    {f p : (ZMod 2)[X]} (hf : Irreducible f) (hdeg : f.natDegree = mexp) {w : W128}
    (hp : IsSeqMinpoly p (Search.bitAt (ops n) (seed w g) 0)) (hfp : f ∣ p) (v : W128) :
    HasLarge n mexp (seed v g) ↔ den n (seed v g) ∉ Q (n * 104 + 128) (unit n) (T n ⟨g.param, 0, 2⟩) f := by
  obtain ⟨a1, a2, a3⟩ := seeded_inv hg w
  obtain ⟨b1, b2, b3⟩ := seeded_inv hg v
  have hR := redGen1 hg
  have key : ∀ {q : (ZMod 2)[X]}, IsSeqMinpoly q (Search.bitAt (ops n) (seed v g) 0) → _ := fun {q} hq =>
    dvd_iff hR (by decide) hf hdeg h1 hbig ⟨a1, a2⟩ a3 hp hfp ⟨b1, b2⟩ b3 hq
  constructor
  · rintro ⟨f', q, c1, c2, c3, c4⟩
    have hr := exists_root hR (by decide) ⟨a1, a2⟩ a3 (by omega) hp hfp
    have hr' := exists_root hR (by decide) ⟨b1, b2⟩ b3 (by omega) c3 c4
    have := root_unique hR hbig hf hdeg hr c1 c2 hr'
    subst this
    exact (key c3).1 c4
  · intro h
    have hfin := M_finite (n * 104 + 128) (unit n)
    obtain ⟨q, -, e2⟩ := minpoly_dim hm (restrict hR.toLinGen (M (n * 104 + 128) (unit n)) hR.closed) (s := seed v g)
      ⟨⟨b1, b2⟩, b3⟩ (show 0 < 128 by decide) (finrank_M hR).le
    exact ⟨f, q, hf, hdeg, e2, (key e2).2 h⟩

/-- The class in the self-test, with a parity vector that `searchParity` made. -/
theorem ptest_ok {g : St} (hg : Inv1 n mexp g) {f : (ZMod 2)[X]} {v : W128} (hv : v ≠ 0)
    (horth : ∀ s, Inv1 n mexp s ∧ s.param = g.param →
      den n s ∈ Q (n * 104 + 128) (unit n) (T n ⟨g.param, 0, 2⟩) f → dot (getParityValue s) v = 0) :
    PTOK (rops n mexp) (ptest n mexp)
      (fun t => (Inv1 n mexp t ∧ t.param = g.param) ∧ (t.fix1, t.fix2, t.parity1, t.parity2) = (g.fix1, g.fix2, u64 v 0, u64 v 1))
      (den n) (T n ⟨g.param, 0, 2⟩) (O n ⟨g.param, 0, 2⟩) (unit n) (P n) f (fun w => den n (seed w g))
      (fun _ => True) := by
  have hn0 : 0 < n := by have := hg.two; omega
  have hpar : ∀ t : St, (t.fix1, t.fix2, t.parity1, t.parity2) = (g.fix1, g.fix2, u64 v 0, u64 v 1) → parity t = v := by
    intro t ht
    rw [Prod.mk.injEq, Prod.mk.injEq, Prod.mk.injEq] at ht
    unfold parity
    rw [ht.2.2.1, ht.2.2.2]
    exact mk64_u64 v
  have hcert : ∀ t : St, parity t = v → ∃ x, (periodCertification true t).1 = { t with lung := x } := by
    intro t ht
    obtain ⟨c1, c2, -, -⟩ := periodCertification_correct true t (by rw [ht]; exact hv)
    rcases two_cases (dot (certified true t) (parity t)) with h | h
    · obtain ⟨b, -, -, e⟩ := c2 h
      exact ⟨_, by rw [e]⟩
    · exact ⟨t.lung, by rw [c1 h]⟩
  have hinv : ∀ t, ((Inv1 n mexp t ∧ t.param = g.param) ∧ (t.fix1, t.fix2, t.parity1, t.parity2) =
      (g.fix1, g.fix2, u64 v 0, u64 v 1)) → den n t ∈ M (n * 104 + 128) (unit n) →
      ((Inv1 n mexp (periodCertification true t).1 ∧ (periodCertification true t).1.param = g.param) ∧
      ((periodCertification true t).1.fix1, (periodCertification true t).1.fix2, (periodCertification true t).1.parity1,
        (periodCertification true t).1.parity2) = (g.fix1, g.fix2, u64 v 0, u64 v 1)) ∧
      den n (periodCertification true t).1 ∈ M (n * 104 + 128) (unit n) := by
    rintro t ⟨⟨t1, t2⟩, t3⟩ tM
    obtain ⟨x, e⟩ := hcert t (hpar t t3)
    rw [e]
    refine ⟨⟨⟨⟨⟨t1.two, t1.size, t1.index, t1.pos_pos, t1.pos, t1.sl1⟩, t1.msk, t1.sl1_pos, t1.start, t1.weight, t1.pfx,
      t1.mexp, t1.fixed⟩, t2⟩, t3⟩, ?_⟩
    rw [M_full hn0, mem_full] at tM
    exact den_full hn0 t1.weight (fun j => tM.1 j)
  refine ⟨?_, rfl, rfl, ?_, ?_, ?_, ?_, ?_, rfl⟩
  · exact redGen2 hg _ _ _ _
  · rintro w s ⟨⟨s1, s2⟩, s3⟩
    obtain ⟨a1, a2, a3⟩ := seeded_inv s1 w
    refine ⟨⟨⟨a1, a2.trans s2⟩, s3⟩, a3, ?_⟩
    exact seed_den_eq s1.toInv hg.toInv (s1.weight.trans hg.weight.symm) (s1.pfx.trans hg.pfx.symm) w
  · intro s hs hsM
    exact hinv s hs hsM
  · rintro s ⟨-, s3⟩
    exact (periodCertification_correct true s (by rw [hpar s s3]; exact hv)).2.2.2
  · rintro s ⟨s1, s3⟩ - hQ
    have hp := hpar s s3
    obtain ⟨c1, c2, c3, -⟩ := periodCertification_correct true s (by rw [hp]; exact hv)
    have hi := hinv s ⟨s1, s3⟩ (Q_le (redGen1 hg) f hQ)
    have h0 : dot (certified true s) v = 0 := horth s s1 hQ
    obtain ⟨b, -, -, e⟩ := c2 (by rw [hp]; exact h0)
    refine ⟨by show (periodCertification true s).2 ≠ 1; rw [e]; exact Nat.zero_ne_one, fun hQ' => ?_⟩
    have h1 : dot (certified true (periodCertification true s).1) v = 0 := horth _ hi.1.1 hQ'
    rw [hp, h1] at c3
    exact zero_ne_one c3
  · intro w s _
    trivial

theorem setParity_inv1 {g : St} (hg : Inv1 n mexp g) (v : W128) : Inv1 n mexp (setParityValue v g) :=
  ⟨⟨hg.two, hg.size, hg.index, hg.pos_pos, hg.pos, hg.sl1⟩, hg.msk, hg.sl1_pos, hg.start, hg.weight, hg.pfx, hg.mexp,
    hg.fixed⟩

/-- The self-test after `searchParity`. -/
theorem selfTest (hm : MinPolySeqSpec mps) (hbig : n * 104 + 128 < 2 * mexp) (h1 : 1 ≤ mexp) {g : St} (hg : Inv1 n mexp g)
    {f p : (ZMod 2)[X]} (hf : Irreducible f) (hdeg : f.natDegree = mexp) {w : W128}
    (hp : IsSeqMinpoly p (Search.bitAt (ops n) (seed w g) 0)) (hfp : f ∣ p) {v : W128} (hv : v ≠ 0)
    (horth : ∀ s, Inv1 n mexp s ∧ s.param = g.param →
      den n s ∈ Q (n * 104 + 128) (unit n) (T n ⟨g.param, 0, 2⟩) f → dot (getParityValue s) v = 0) (verbose : Bool) :
    ∃ t r, (verbose = false → t = []) ∧ Verdict (fun k => HasLarge n mexp (seed (mk64 (BitVec.ofNat 64 k) 0) g)) r ∧
      testParity0 mps (ptest n mexp) verbose f (setParityValue v g) = some (t ++ r) := by
  have hok := ptest_ok hg hv horth
  have hi := setParity_inv1 hg v
  obtain ⟨a1, a2, a3⟩ := seeded_inv hi w
  have hseq : Search.bitAt (ops n) (seed w (setParityValue v g)) 0 = Search.bitAt (ops n) (seed w g) 0 := by
    obtain ⟨b1, b2, -⟩ := seeded_inv hg w
    refine Eq.trans (bitAt_eq (redGen1 hg).toLinGen ⟨a1, a2⟩ (show 0 < 128 by decide)) (Eq.trans ?_
      (bitAt_eq (redGen1 hg).toLinGen ⟨b1, b2⟩ (show 0 < 128 by decide)).symm)
    rw [seed_den_eq hi.toInv hg.toInv rfl rfl w]
  have hsit : Sit (rops n mexp) (fun t => (Inv1 n mexp t ∧ t.param = g.param) ∧
      (t.fix1, t.fix2, t.parity1, t.parity2) = (g.fix1, g.fix2, u64 v 0, u64 v 1)) (den n) (unit n) f :=
    ⟨hf, hdeg, h1, hbig, seed w (setParityValue v g), p, ⟨⟨a1, a2⟩, rfl⟩, a3, by
        show IsSeqMinpoly p (Search.bitAt (ops n) (seed w (setParityValue v g)) 0)
        rw [hseq]; exact hp, hfp⟩
  exact testParity0_verdict hm hok hsit (fun k => seedLarge_iff hm hbig h1 hg hf hdeg hp hfp _) verbose ⟨⟨hi, rfl⟩, rfl⟩

/-- What `main` prints if the seed has no large component. -/
def noFactorText (mexp : ℕ) (d : ℤ) : List Char :=
  "error does not have factor of degree ".toList ++ dec mexp ++ "\ndegree = ".toList ++ decInt d ++ ['\n']

/-- The line that `main` prints first with `-c`. -/
def headText (check : Bool) (mexp maxdegree : ℕ) : List Char :=
  if check then "mexp = ".toList ++ dec mexp ++ ", maxdegree = ".toList ++ dec maxdegree ++ ['\n'] else []

/-- **C101.**  `calc_parity` of dSFMTdc, as `MTT.SFMT.calcParityMain_correct`; the fixed point is kept, and an error gives the
status −1. -/
theorem calcParityMain_correct (hm : MinPolySeqSpec mps) (hK : KernelSpec kernel) {l : Fields}
    (hprime : (2 ^ l.mexp - 1).Prime) (h1 : 336 ≤ l.mexp) (h3 : l.mexp < 2 ^ 30) (hn : (l.mexp - 128) / 104 + 1 = n)
    {fuel : ℕ} (hfuel : n * 104 + 128 < fuel) (sh : W128) (hp : ParOK n l.param) (hfix : GoodFix n l.mexp l)
    (p1 p2 : BitVec 64) (w : W128) (check verbose : Bool) (rest : List Char) :
    (¬ HasLarge n l.mexp (seed w l.gen) ∧ ∃ d, calcParityMain mps kernel fuel sh p1 p2 w check verbose (getString l ++ rest) =
      some (headText check l.mexp (n * 104 + 128) ++ noFactorText l.mexp d, -1)) ∨
    (HasLarge n l.mexp (seed w l.gen) ∧ ∃ l', l'.param = l.param ∧ l'.fix1 = l.fix1 ∧ l'.fix2 = l.fix2 ∧
      GoodFields n l.mexp l' ∧
      (check = false → calcParityMain mps kernel fuel sh p1 p2 w check verbose (getString l ++ rest) =
        some (getString l' ++ ['\n'], 0)) ∧
      (check = true → ∃ t r, (verbose = false → t = []) ∧
        Verdict (fun k => HasLarge n l.mexp (seed (mk64 (BitVec.ofNat 64 k) 0) l.gen)) r ∧
        calcParityMain mps kernel fuel sh p1 p2 w check verbose (getString l ++ rest) =
          some (headText true l.mexp (n * 104 + 128) ++ getString l' ++ ['\n'] ++ t ++ r, 0))) := by
  have hg := gen_inv (l := { l with parity1 := p1, parity2 := p2 }) h1 hn rfl hp
  have hbig : n * 104 + 128 < 2 * l.mexp := by omega
  have hn0 : 0 < n := by omega
  have hmexp : 1 ≤ l.mexp := by omega
  obtain ⟨hs, hsp, hsM⟩ := seeded_inv hg w
  have hR := redGen2 hg l.fix1 l.fix2 p1 p2
  obtain ⟨p, sf, b, irr, e1, e2, ⟨⟨i1, i2⟩, i4⟩, -, -, e4, e5, e6⟩ := factor_step hm hR (by decide)
    hmexp hbig ⟨⟨hs, hsp⟩, rfl⟩ hsM
  have i2' : sf.param = l.param := i2
  rw [Prod.mk.injEq, Prod.mk.injEq] at i4
  obtain ⟨j1, j2, -⟩ := i4
  have hL : ∀ v, HasLarge n l.mexp (seed v { l with parity1 := p1, parity2 := p2 }.gen) ↔
      HasLarge n l.mexp (seed v l.gen) := by
    intro v
    have hb : Search.bitAt (ops n) (seed v l.gen) 0 = Search.bitAt (ops n) (seed v
        { l with parity1 := p1, parity2 := p2 }.gen) 0 :=
      bitAt_seed h1 hn hp v l.fix1 l.fix2 l.parity1 l.parity2 l.fix1 l.fix2 p1 p2
    unfold HasLarge
    rw [hb]
  unfold calcParityMain
  rw [(parse_prefix l (by omega) (by have := hp.2.2.1; omega) (by have := hp.2.2.2.2; omega) 0 0 p1 p2 rest).1]
  dsimp only
  rw [hn, show minpoly mps (ops n) 0 0 _ = some (sf, p) from e1]
  dsimp only
  rw [i1.mexp, show Period.hasFactorOfDegree (p.natDegree + 1) p l.mexp = some (b, irr) from e4, ← hL]
  cases b with
  | false =>
    refine .inl ⟨?_, Period.deg irr, ?_⟩
    · rintro ⟨f, p', f1, f2, f3, f4⟩
      rw [f3.unique e2] at f4
      exact e5 rfl f f1 f2 f4
    · unfold headText noFactorText
      simp only [List.append_assoc]
  | true =>
    obtain ⟨k1, k2, k3, k4⟩ := e6 rfl
    have k4' : ∃ x ∈ M (n * 104 + 128) (unit n), x ≠ 0 ∧ aeval (T n ⟨sf.param, 0, 2⟩) irr x = 0 := by
      rw [i2']; exact k4
    obtain ⟨f, f1, f2, f3, f4⟩ := hfix
    have hfi : irr = f := large_unique h1 hn hp f1 f2 f3 k1 k2
      (by rw [← i2']; exact (large_root (mexp := l.mexp) hn0 i1.par irr).1 k4')
    subst hfi
    obtain ⟨v, hv⟩ := searchParity_returns (redGen1 i1) wordsOK128 hK (obs i1.pos_pos i1.pos i1.sl1_pos) k1 k2
      k4' (by show n * 104 + 128 - l.mexp < 128; omega) (fuel := fuel) hfuel sh ⟨i1, rfl⟩
    obtain ⟨v0, -, horth⟩ := searchParity_orthogonal (redGen1 i1) wordsOK128 hK k1 k2 k4' ⟨i1, rfl⟩ hv
    rw [i2'] at horth
    have hfl : fieldsOf ((rops n l.mexp).setParity v sf) = ⟨l.mexp, sf.param, sf.fix1, sf.fix2, u64 v 0, u64 v 1⟩ := by
      show (⟨sf.mexp, sf.param, sf.fix1, sf.fix2, u64 v 0, u64 v 1⟩ : Fields) = _
      rw [i1.mexp]
    refine .inr ⟨⟨irr, p, k1, k2, e2, k3⟩, ⟨l.mexp, sf.param, sf.fix1, sf.fix2, u64 v 0, u64 v 1⟩, i2', j1, j2,
      parity_good hK hprime hn hbig i1 k1 k2 k4' (by rw [i2', j1, j2]; exact f4) hv, ?_, ?_⟩
    · rintro rfl
      dsimp only
      rw [hv]
      dsimp only
      rw [hfl]
      simp only [Bool.false_eq_true, if_false, List.nil_append]
    · rintro rfl
      have hgv : getParityValue ((rops n l.mexp).setParity v sf) = v := rfl
      obtain ⟨t, r, t1, t2, t3⟩ := selfTest hm hbig hmexp hg k1 k2 e2 k3 v0 horth verbose
      refine ⟨t, r, t1, ?_, ?_⟩
      · simpa only [hL] using t2
      dsimp only
      rw [hv]
      dsimp only
      rw [if_pos rfl, hgv, t3, hfl]
      unfold headText
      simp only [Option.map_some, List.append_assoc]

/-- **C101.**  On a line that dSFMTdc printed and with the seed word 1 there is no error, and the self-test gets past the first
seed. -/
theorem calcParityMain_line (hm : MinPolySeqSpec mps) (hK : KernelSpec kernel) (hmexp : mexp ∈ allowedMexp)
    (hn : (mexp - 128) / 104 + 1 = n) {fuel : ℕ} (hfuel : n * 104 + 128 < fuel) (sh : W128) (p1 p2 : BitVec 64)
    (verbose : Bool) {l : Line} (hl : GoodLine n mexp l) :
    ∃ l' t r, l'.param = l.param ∧ l'.fix1 = l.fix1 ∧ l'.fix2 = l.fix2 ∧ GoodFields n mexp l' ∧ (verbose = false → t = []) ∧
      Verdict (fun k => HasLarge n mexp (seed (mk64 (BitVec.ofNat 64 k) 0) l.gen)) r ∧
      r ≠ "test failed at count 0\n".toList ∧
      calcParityMain mps kernel fuel sh p1 p2 (mk32 1 0 0 0) true verbose l.text =
        some (headText true mexp (n * 104 + 128) ++ getString l' ++ ['\n'] ++ t ++ r, 0) := by
  obtain ⟨a1, a3, a4, a5⟩ := allowed mexp hmexp
  have hone := hl.one
  obtain ⟨hme, hp, hf, -⟩ := hl.toGoodFields
  subst hme
  unfold Line.text
  rcases calcParityMain_correct hm hK (Mexp.table_prime _ a4 a5) a1 a3 hn hfuel sh hp hf p1 p2 (mk32 1 0 0 0) true verbose
    (decInt l.delta52) with ⟨e, -⟩ | ⟨-, l', e1, e2, e3, e4, -, e5⟩
  · exact absurd hone e
  · obtain ⟨t, r, t1, t2, t3⟩ := e5 rfl
    refine ⟨l', t, r, e1, e2, e3, e4, t1, t2, ?_, t3⟩
    exact t2.ne_zero (by rw [show mk64 (BitVec.ofNat 64 1) 0 = mk32 1 0 0 0 by decide]; exact hone)

end MTT.DSFMT
