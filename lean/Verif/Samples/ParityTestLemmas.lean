import Verif.Samples.ParityTest
import Verif.Anni.See
import Verif.Lin.Props

/-!
# C101: what the self-test does for a class of reducible generators
-/

namespace MTT.ParityTest

open Polynomial PIS Search W128 Text Parity Anni

variable {σ S : Type} [AddCommGroup S] [Module (ZMod 2) S]

/-- What the test needs of the class: `D v` is the state after `seed v`, `Zero` a property of the states at which the second
certification is made. -/
structure PTOK (R : ROps σ 128) (C : PT σ) (Inv : σ → Prop) (den : σ → S) (T : S →ₗ[ZMod 2] S) (O : S →ₗ[ZMod 2] V)
    (e : ℕ → S) (P : S →ₗ[ZMod 2] V) (f : (ZMod 2)[X]) (D : W128 → S) (Zero : σ → Prop) : Prop where
  red : RedGen R Inv den T O e P
  ops : C.ops = R.toGenOps
  mexp : C.mexp = R.mexp
  seed : ∀ w s, Inv s → Inv (C.seed w s) ∧ den (C.seed w s) ∈ M R.bitSize e ∧ den (C.seed w s) = D w
  cert : ∀ s, Inv s → den s ∈ M R.bitSize e → Inv (C.cert s).1 ∧ den (C.cert s).1 ∈ M R.bitSize e
  two : ∀ s, Inv s → C.cert (C.cert s).1 = ((C.cert s).1, 1)
  zero : ∀ s, Inv s → Zero s → den s ∈ Q R.bitSize e T f → (C.cert s).2 ≠ 1 ∧ den (C.cert s).1 ∉ Q R.bitSize e T f
  reach : ∀ w s, Inv s → Zero (stateAt R.toGenOps (Lin.annihilate R.toGenOps f (C.seed w s)) (2 * R.bitSize))
  bad : C.bad 1 = false

variable {R : ROps σ 128} {C : PT σ} {Inv : σ → Prop} {den : σ → S} {T : S →ₗ[ZMod 2] S} {O : S →ₗ[ZMod 2] V}
  {e : ℕ → S} {P : S →ₗ[ZMod 2] V} {f : (ZMod 2)[X]} {D : W128 → S} {Zero : σ → Prop} {mps : MPS}

/-- The situation of `main`: `f` is an irreducible factor of degree `mexp` of the minimal polynomial of the lowest bit of some
state. -/
structure Sit (R : ROps σ 128) (Inv : σ → Prop) (den : σ → S) (e : ℕ → S) (f : (ZMod 2)[X]) : Prop where
  irr : Irreducible f
  deg : f.natDegree = R.mexp
  pos : 1 ≤ R.mexp
  big : R.bitSize < 2 * R.mexp
  seen : ∃ s0 p0, Inv s0 ∧ den s0 ∈ M R.bitSize e ∧ IsSeqMinpoly p0 (bitAt R.toGenOps s0 0) ∧ f ∣ p0

theorem say_false (t : List Char) : say false t = [] := rfl

/-- `minpoly`: the new state, and whether the polynomial has the factor `f`. -/
theorem minpoly_step (hm : MinPolySeqSpec mps) (h : PTOK R C Inv den T O e P f D Zero) (hf : Sit R Inv den e f) {s : σ}
    (hs : Inv s) (hsM : den s ∈ M R.bitSize e) :
    ∃ p, Search.minpoly mps C.ops 0 0 s = some (stateAt R.toGenOps s (2 * R.bitSize), p) ∧
      Inv (stateAt R.toGenOps s (2 * R.bitSize)) ∧ den (stateAt R.toGenOps s (2 * R.bitSize)) ∈ M R.bitSize e ∧
      p ≠ 0 ∧ (f ∣ p ↔ den s ∉ Q R.bitSize e T f) ∧ (den s ∈ Q R.bitSize e T f → p.natDegree < R.mexp ∧
        den (stateAt R.toGenOps s (2 * R.bitSize)) ∈ Q R.bitSize e T f) := by
  have hR := h.red
  have hfin := M_finite R.bitSize e
  have hr := restrict hR.toLinGen (M R.bitSize e) hR.closed
  obtain ⟨p, e1, e2⟩ := minpoly_dim hm hr (s := s) ⟨hs, hsM⟩ (show 0 < 128 by decide) (finrank_M hR).le
  simp only [Nat.cast_zero] at e1
  obtain ⟨s0, p0, a1, a2, a3, a4⟩ := hf.seen
  obtain ⟨b1, b2⟩ := (stateAt_spec hr (g := s) ⟨hs, hsM⟩ (2 * R.bitSize)).1
  refine ⟨p, by rw [h.ops]; exact e1, b1, b2, e2.1, ?_, fun hQ => ⟨?_, ?_⟩⟩
  · exact dvd_iff hR (by decide) hf.irr hf.deg hf.pos hf.big a1 a2 a3 a4 hs hsM e2
  · exact small_degree hR (by decide) hf.irr hf.deg hf.big
      (exists_root hR (by decide) a1 a2 (by rw [hf.deg]; exact hf.pos) a3 a4) hs hQ e2
  · rw [(stateAt_spec hR.toLinGen hs (2 * R.bitSize)).2]
    generalize 2 * R.bitSize = k
    induction k with
    | zero => exact hQ
    | succ k ih => rw [pow_succ', Module.End.mul_apply]; exact Q_closed hR f ih

/-- The last part of a turn: everything is as expected. -/
theorem turn3_ok (hm : MinPolySeqSpec mps) (h : PTOK R C Inv den T O e P f D Zero) (hf : Sit R Inv den e f) (v : Bool)
    (t : List Char) {s : σ} (hs : Inv s) (hz : Zero s) (hsQ : den s ∈ Q R.bitSize e T f) :
    ∃ t' s', turn3 mps C v t s = some (t ++ t', .go s') ∧ Inv s' ∧ (v = false → t' = []) := by
  obtain ⟨c1, c2⟩ := h.zero s hs hz hsQ
  obtain ⟨d1, d2⟩ := h.cert s hs (Q_le h.red f hsQ)
  obtain ⟨p, e1, e2, e3, e4, e5, -⟩ := minpoly_step hm h hf d1 d2
  have hdeg : ¬ Period.deg p < C.mexp := by
    rw [Period.deg_of_ne e4, h.mexp, ← hf.deg]
    have := natDegree_le_of_dvd (e5.2 c2) e4
    omega
  unfold turn3
  dsimp only
  rw [if_neg c1, h.two s hs]
  dsimp only
  rw [if_neg (by decide), e1]
  dsimp only
  rw [if_neg hdeg, decide_eq_false hdeg, Bool.or_false]
  obtain ⟨g1, g2⟩ := h.cert _ e2 e3
  by_cases hr : (C.cert (stateAt R.toGenOps (C.cert s).1 (2 * R.bitSize))).2 = 1
  · rw [if_pos hr]
    refine ⟨_, _, by rw [List.append_assoc, List.append_assoc], g1, fun hv => ?_⟩
    subst hv
    rfl
  · rw [if_neg hr, h.two _ e2]
    dsimp only
    rw [if_neg (by decide)]
    refine ⟨_, _, by rw [List.append_assoc, List.append_assoc], g1, fun hv => ?_⟩
    subst hv
    rfl

/-- From the second seed on: everything is as expected. -/
theorem turn2_ok (hm : MinPolySeqSpec mps) (h : PTOK R C Inv den T O e P f D Zero) (hf : Sit R Inv den e f) (v : Bool) (i : ℕ)
    (t : List Char) {s : σ} (hs : Inv s) :
    ∃ t' s', turn2 mps C v f i t s = some (t ++ t', .go s') ∧ Inv s' ∧ (v = false → t' = []) := by
  obtain ⟨a1, a2, -⟩ := h.seed (mk64 (BitVec.ofNat 64 (i + 3)) 0) s hs
  obtain ⟨b1, b2⟩ := Lin.annihilate_correct h.red.toLinGen f a1
  have hQ : den (Lin.annihilate R.toGenOps f (C.seed (mk64 (BitVec.ofNat 64 (i + 3)) 0) s)) ∈ Q R.bitSize e T f := by
    rw [b2]
    exact ⟨_, a2, rfl⟩
  obtain ⟨p, e1, e2, e3, e4, -, e6⟩ := minpoly_step hm h hf b1 (Q_le h.red f hQ)
  obtain ⟨e6, e7⟩ := e6 hQ
  have hdeg : ¬ (C.mexp : ℤ) ≤ Period.deg p := by
    rw [Period.deg_of_ne e4, h.mexp]
    omega
  unfold turn2
  dsimp only
  rw [h.ops] at e1 ⊢
  rw [e1]
  dsimp only
  rw [if_neg hdeg, decide_eq_false hdeg, Bool.or_false]
  obtain ⟨t', s', g1, g2, g3⟩ := turn3_ok hm h hf v (t ++ say v "==zero\n".toList ++
    say v ("mpoly = ".toList ++ decInt (Period.deg p) ++ ['\n'])) e2 (h.reach _ s hs) e7
  refine ⟨_, s', by rw [g1, List.append_assoc, List.append_assoc], g2, fun hv => ?_⟩
  rw [g3 hv, hv]
  rfl

/-- A turn: the test goes on exactly if the seed `i + 1` is outside the small part. -/
theorem turn_ok (hm : MinPolySeqSpec mps) (h : PTOK R C Inv den T O e P f D Zero) (hf : Sit R Inv den e f) (v : Bool) (i : ℕ)
    {s : σ} (hs : Inv s) : ∃ t, (v = false → t = []) ∧
      (D (mk64 (BitVec.ofNat 64 (i + 1)) 0) ∉ Q R.bitSize e T f → ∃ s', turn mps C v f i s = some (t, .go s') ∧ Inv s') ∧
      (D (mk64 (BitVec.ofNat 64 (i + 1)) 0) ∈ Q R.bitSize e T f → turn mps C v f i s = some (t, .brk true)) := by
  obtain ⟨a1, a2, a3⟩ := h.seed (mk64 (BitVec.ofNat 64 (i + 1)) 0) s hs
  obtain ⟨p, e1, e2, e3, e4, e5, -⟩ := minpoly_step hm h hf a1 a2
  rw [a3] at e5
  unfold turn
  dsimp only
  rw [e1]
  dsimp only
  by_cases hQ : D (mk64 (BitVec.ofNat 64 (i + 1)) 0) ∈ Q R.bitSize e T f
  · have hnd : ¬ f ∣ p := fun hd => e5.1 hd hQ
    have hrem : p % f ≠ 0 := fun h0 => hnd (EuclideanDomain.mod_eq_zero.1 h0)
    have hdr : Period.deg (p % f) ≠ -1 := by rw [Period.deg_of_ne hrem]; omega
    rw [if_pos hdr]
    refine ⟨_, fun hv => ?_, fun hn => absurd hQ hn, fun _ => rfl⟩
    subst hv
    rfl
  · have hd := e5.2 hQ
    have hrem : p % f = 0 := EuclideanDomain.mod_eq_zero.2 hd
    have hdr : ¬ Period.deg (p % f) ≠ -1 := by rw [hrem, Period.deg, if_pos rfl]; simp
    have hdeg : ¬ Period.deg p < C.mexp := by
      rw [Period.deg_of_ne e4, h.mexp, ← hf.deg]
      have := natDegree_le_of_dvd hd e4
      omega
    rw [if_neg hdr, if_neg hdeg]
    obtain ⟨g1, -⟩ := h.cert _ e2 e3
    by_cases hr : (C.cert (stateAt R.toGenOps (C.seed (mk64 (BitVec.ofNat 64 (i + 1)) 0) s) (2 * R.bitSize))).2 = 1
    · rw [if_pos hr]
      obtain ⟨t', s', k1, k2, k3⟩ := turn2_ok hm h hf v i (say v ("------\n==shoki (".toList ++ dec i ++ ")\n".toList) ++
        say v "period certification OK\n".toList) g1
      refine ⟨_, fun hv => ?_, fun _ => ⟨s', k1, k2⟩, fun hn => absurd hn hQ⟩
      rw [k3 hv, hv]
      rfl
    · rw [if_neg hr, h.two _ e2]
      dsimp only
      rw [h.bad, if_neg (by decide)]
      obtain ⟨t', s', k1, k2, k3⟩ := turn2_ok hm h hf v i (say v ("------\n==shoki (".toList ++ dec i ++ ")\n".toList) ++
        say v ("period certification NG -> OK".toList ++ C.mark ++ ['\n'])) g1
      refine ⟨_, fun hv => ?_, fun _ => ⟨s', k1, k2⟩, fun hn => absurd hn hQ⟩
      rw [k3 hv, hv]
      rfl

theorem loop_ok (hm : MinPolySeqSpec mps) (h : PTOK R C Inv den T O e P f D Zero) (hf : Sit R Inv den e f) (v : Bool)
    (point : ℕ) : ∀ (k i result : ℕ) (s : σ), Inv s → ∃ t, (v = false → t = []) ∧
      ((∀ j, j < k → D (mk64 (BitVec.ofNat 64 (i + j + 1)) 0) ∉ Q R.bitSize e T f) →
        loop mps C v f k i result point s = some (t, some (result + k, point))) ∧
      (∀ j, j < k → (∀ j' < j, D (mk64 (BitVec.ofNat 64 (i + j' + 1)) 0) ∉ Q R.bitSize e T f) →
        D (mk64 (BitVec.ofNat 64 (i + j + 1)) 0) ∈ Q R.bitSize e T f →
        loop mps C v f k i result point s = some (t, some (0, i + j)))
  | 0, _, _, _, _ => ⟨[], fun _ => rfl, fun _ => rfl, fun j hj => by omega⟩
  | k + 1, i, result, s, hs => by
    obtain ⟨t, a1, a2, a3⟩ := turn_ok hm h hf v i hs
    rw [loop]
    by_cases hQ : D (mk64 (BitVec.ofNat 64 (i + 1)) 0) ∈ Q R.bitSize e T f
    · rw [a3 hQ]
      refine ⟨t, a1, fun hall => absurd hQ (by simpa using hall 0 (by omega)), fun j hj hbef hin => ?_⟩
      have : j = 0 := by
        by_contra hj0
        exact hbef 0 (by omega) (by simpa using hQ)
      subst this
      rfl
    · obtain ⟨s', b1, b2⟩ := a2 hQ
      obtain ⟨t', c1, c2, c3⟩ := loop_ok hm h hf v point k (i + 1) (result + 1) s' b2
      rw [b1]
      dsimp only
      refine ⟨t ++ t', fun hv => by rw [a1 hv, c1 hv]; rfl, fun hall => ?_, fun j hj hbef hin => ?_⟩
      · rw [c2 (fun j hj => by
          have := hall (j + 1) (by omega)
          rwa [show i + (j + 1) + 1 = i + 1 + j + 1 by omega] at this)]
        show some (t ++ t', some (result + 1 + k, point)) = some (t ++ t', some (result + (k + 1), point))
        rw [show result + 1 + k = result + (k + 1) by omega]
      · obtain ⟨m, rfl⟩ : ∃ m, j = m + 1 := ⟨j - 1, by
          have : j ≠ 0 := fun h0 => hQ (by simpa [h0] using hin)
          omega⟩
        rw [c3 m (by omega) (fun j' hj' => by
          have := hbef (j' + 1) (by omega)
          rwa [show i + (j' + 1) + 1 = i + 1 + j' + 1 by omega] at this)
          (by rwa [show i + (m + 1) + 1 = i + 1 + m + 1 by omega] at hin)]
        show some (t ++ t', some (0, i + 1 + m)) = some (t ++ t', some (0, i + (m + 1)))
        rw [show i + 1 + m = i + (m + 1) by omega]

/-- **C101.**  The test on a class of reducible generators: it succeeds exactly if none of the seeds 1 to 100 is in the small
part, and otherwise fails at the first such seed. -/
theorem testParity0_ok (hm : MinPolySeqSpec mps) (h : PTOK R C Inv den T O e P f D Zero) (hf : Sit R Inv den e f) (v : Bool)
    {s : σ} (hs : Inv s) : ∃ t, (v = false → t = []) ∧
      ((∀ j, j < 100 → D (mk64 (BitVec.ofNat 64 (j + 1)) 0) ∉ Q R.bitSize e T f) →
        testParity0 mps C v f s = some (t ++ "test successed 100 / 100\n".toList)) ∧
      (∀ j, j < 100 → (∀ j' < j, D (mk64 (BitVec.ofNat 64 (j' + 1)) 0) ∉ Q R.bitSize e T f) →
        D (mk64 (BitVec.ofNat 64 (j + 1)) 0) ∈ Q R.bitSize e T f →
        testParity0 mps C v f s = some (t ++ "test failed at count ".toList ++ dec j ++ ['\n'])) := by
  obtain ⟨t, a1, a2, a3⟩ := loop_ok hm h hf v 0 100 0 0 s hs
  refine ⟨say v "start parity zero\n".toList ++ t, fun hv => by rw [a1 hv, hv]; rfl, fun hall => ?_, fun j hj hbef hin => ?_⟩
  · unfold testParity0
    rw [a2 (by simpa using hall)]
    dsimp only
    rw [if_pos (by decide), show dec (0 + 100) = "100".toList by decide +kernel]
    rfl
  · unfold testParity0
    rw [a3 j hj (by simpa using hbef) (by simpa using hin)]
    dsimp only
    rw [if_neg (by decide), zero_add]
    simp only [List.append_assoc]

end MTT.ParityTest
