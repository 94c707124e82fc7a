import Verif.Anni.Search
import Verif.Samples.PeriodTools

/-!
# `anni` and `min_max_poly` on objects in another weight mode

The objects of the search classes compute the same in every weight mode except that some bits of the output are those of the
previous output.  `Sim` says this of a change of mode `φ`; the lemmas say that `anni` commutes with `φ` and that the minimal
polynomials of the output bits are the same.
-/

namespace MTT.Anni

open Polynomial PIS Search Parity

variable {σ S : Type} {w : ℕ} [AddCommGroup S] [Module (ZMod 2) S]
  {R : ROps σ w} {Inv : σ → Prop} {den : σ → S} {T : S →ₗ[ZMod 2] S} {O : S →ₗ[ZMod 2] V} {e : ℕ → S}
  {P : S →ₗ[ZMod 2] V} {mps : MPS}

/-- The change of mode `φ`: the state is the same, the bits `kept` of the output are those of the previous output. -/
structure Sim (R : ROps σ w) (Inv : σ → Prop) (φ : σ → σ) (prev : σ → BitVec w) (kept : ℕ → Bool) : Prop where
  gen : ∀ s, (R.generate (φ s)).1 = φ (R.generate s).1
  add : ∀ a b, R.add (φ a) (φ b) = φ (R.add a b)
  zero : ∀ s, R.setZero (φ s) = φ (R.setZero s)
  one : ∀ k s, R.setOneBit k (φ s) = φ (R.setOneBit k s)
  parity : ∀ s, R.getParity (φ s) = R.getParity s
  prev_gen : ∀ s, Inv s → prev (R.generate s).1 = (R.generate s).2
  out : ∀ s pos, Inv s → pos < w → ((R.generate (φ s)).2).getLsbD pos =
    if kept pos then (prev s).getLsbD pos else ((R.generate s).2).getLsbD pos
  low : kept 0 = false

section Sim

variable {φ : σ → σ} {prev : σ → BitVec w} {kept : ℕ → Bool}

theorem Sim.stateAt (hφ : Sim R Inv φ prev kept) (s : σ) (k : ℕ) :
    stateAt R.toGenOps (φ s) k = φ (stateAt R.toGenOps s k) := by
  induction k with
  | zero => rfl
  | succ k ih =>
    show (R.generate (PIS.stateAt R.toGenOps (φ s) k)).1 = φ (R.generate (PIS.stateAt R.toGenOps s k)).1
    rw [ih, hφ.gen]

theorem Sim.bitAt_new (hφ : Sim R Inv φ prev kept) (h : LinGen R.toGenOps Inv den T O) {s : σ} (hs : Inv s) {pos : ℕ}
    (hp : pos < w) (hk : kept pos = false) : bitAt R.toGenOps (φ s) pos = bitAt R.toGenOps s pos := by
  funext i
  unfold bitAt outAt
  rw [hφ.stateAt, hφ.out _ _ (stateAt_spec h hs i).1 hp, hk]
  rfl

theorem Sim.bitAt_old (hφ : Sim R Inv φ prev kept) (h : LinGen R.toGenOps Inv den T O) {s : σ} (hs : Inv s) {pos : ℕ}
    (hp : pos < w) (hk : kept pos = true) (m : ℕ) :
    bitAt R.toGenOps (φ (PIS.stateAt R.toGenOps s (m + 1))) pos = bitAt R.toGenOps (PIS.stateAt R.toGenOps s m) pos := by
  funext i
  unfold bitAt outAt
  rw [hφ.stateAt, ← stateAt_add, hφ.out _ _ (stateAt_spec h hs _).1 hp, hk, if_pos rfl, ← stateAt_add,
    show m + 1 + i = (m + i) + 1 by omega]
  rw [show PIS.stateAt R.toGenOps s (m + i + 1) = (R.generate (PIS.stateAt R.toGenOps s (m + i))).1 from rfl,
    hφ.prev_gen _ (stateAt_spec h hs _).1]

end Sim

/-- What `minpoly` computes. -/
theorem minpoly_eq (mps : MPS) (G : GenOps σ w) {pos : ℕ} (hp : pos < w) (s : σ) :
    Search.minpoly mps G pos 0 s = some (stateAt G s (2 * G.bitSize),
      mps (2 * G.bitSize) (fun i => bitAt G s pos i) G.bitSize) := by
  unfold Search.minpoly
  dsimp only
  rw [if_pos le_rfl, collect_spec G hp]
  show some (_, mps _ _ _) = some (_, mps _ _ _)
  congr 3
  funext i
  rw [List.getD_eq_getElem?_getD, List.getElem?_map, List.getElem?_range i.2]
  rfl

section Loops

variable {φ : σ → σ} {prev : σ → BitVec w} {kept : ℕ → Bool}

/-- The minimal polynomial of a bit in the other mode, for an object that has been advanced (or a bit that is not kept). -/
theorem Sim.minpoly (hφ : Sim R Inv φ prev kept) (hm : MinPolySeqSpec mps) (h : RedGen R Inv den T O e P) {s : σ}
    (hs : Inv s) (hsM : den s ∈ M R.bitSize e) {pos : ℕ} (hp : pos < w) {m : ℕ} (hk : kept pos = false ∨ 1 ≤ m) :
    ∃ p, Search.minpoly mps R.toGenOps pos 0 (φ (PIS.stateAt R.toGenOps s m)) =
        some (φ (PIS.stateAt R.toGenOps s (m + 2 * R.bitSize)), p) ∧ IsSeqMinpoly p (bitAt R.toGenOps s pos) := by
  have := M_finite R.bitSize e
  have hfin : Finite (M R.bitSize e) := Module.finite_of_finite (ZMod 2)
  have hr := restrict h.toLinGen (M R.bitSize e) h.closed
  have key : ∃ m', bitAt R.toGenOps (φ (PIS.stateAt R.toGenOps s m)) pos =
      bitAt R.toGenOps (PIS.stateAt R.toGenOps s m') pos := by
    cases hkp : kept pos with
    | false => exact ⟨m, hφ.bitAt_new h.toLinGen (stateAt_spec h.toLinGen hs m).1 hp hkp⟩
    | true =>
      obtain ⟨m', rfl⟩ : ∃ m', m = m' + 1 := ⟨m - 1, by
        rcases hk with h | h
        · rw [h] at hkp; cases hkp
        · omega⟩
      exact ⟨m', hφ.bitAt_old h.toLinGen hs hp hkp m'⟩
  obtain ⟨m', hm'⟩ := key
  obtain ⟨p, e1, e2⟩ := minpoly_dim hm hr (s := PIS.stateAt R.toGenOps s m') (stateAt_spec hr (g := s) ⟨hs, hsM⟩ m').1 hp
    (finrank_M h).le
  rw [minpoly_eq mps R.toGenOps hp] at e1
  injection e1 with e1
  injection e1 with _ e1
  refine ⟨p, ?_, e2.1, (ann_stateAt hr (inj_restrict h) (s := s) ⟨hs, hsM⟩ hp m' p).1 e2.2.1, fun q hq =>
    e2.2.2 q ((ann_stateAt hr (inj_restrict h) (s := s) ⟨hs, hsM⟩ hp m' q).2 hq)⟩
  rw [minpoly_eq mps R.toGenOps hp, hφ.stateAt, ← stateAt_add, hm', e1]

/-- The lowest bit. -/
theorem Sim.minpoly0 (hφ : Sim R Inv φ prev kept) (h : LinGen R.toGenOps Inv den T O) (hw : 0 < w) {s : σ} (hs : Inv s) :
    Search.minpoly mps R.toGenOps 0 0 (φ s) = (Search.minpoly mps R.toGenOps 0 0 s).map fun r => (φ r.1, r.2) := by
  have e1 := minpoly_eq mps R.toGenOps hw (φ s)
  have e2 := minpoly_eq mps R.toGenOps hw s
  simp only [Nat.cast_zero] at e1 e2
  rw [e1, e2, hφ.stateAt, hφ.bitAt_new h hs hw hφ.low]
  rfl

theorem minpoly0_inv (h : LinGen R.toGenOps Inv den T O) (hw : 0 < w) {s s' : σ} {p : (ZMod 2)[X]} (hs : Inv s)
    (hp : Search.minpoly mps R.toGenOps 0 0 s = some (s', p)) : Inv s' := by
  have e2 := minpoly_eq mps R.toGenOps hw s
  simp only [Nat.cast_zero] at e2
  rw [e2] at hp
  injection hp with hp
  injection hp with hp
  rw [← hp]
  exact (stateAt_spec h hs _).1

theorem Sim.annihilate (hφ : Sim R Inv φ prev kept) (q : (ZMod 2)[X]) (s : σ) :
    Lin.annihilate R.toGenOps q (φ s) = φ (Lin.annihilate R.toGenOps q s) := by
  have key : ∀ k i a b, Lin.annLoop R.toGenOps q k i (φ a) (φ b) = φ (Lin.annLoop R.toGenOps q k i a b) := by
    intro k
    induction k with
    | zero => intro i a b; rfl
    | succ k ih =>
      intro i a b
      rw [Lin.annLoop, Lin.annLoop, hφ.gen]
      split
      · rw [hφ.add, ih]
      · rw [ih]
  unfold Lin.annihilate
  rw [hφ.zero, key]

/-- A loop of `getLCMPoly` gives the same polynomial. -/
theorem Sim.lcmLoop (hφ : Sim R Inv φ prev kept) (h : RedGen R Inv den T O e P)
    {mp : σ → Option (σ × (ZMod 2)[X])} (h1 : ∀ s, Inv s → mp (φ s) = (mp s).map fun r => (φ r.1, r.2))
    (h2 : ∀ s s' p, Inv s → mp s = some (s', p) → Inv s') :
    ∀ (k i : ℕ) (s : σ) (lcm : (ZMod 2)[X]), i + k = R.bitSize → Inv s → lcmLoop R mp k i (φ s) lcm = lcmLoop R mp k i s lcm := by
  intro k
  induction k with
  | zero => intros; rfl
  | succ k ih =>
    intro i s lcm hik hs
    have ho := h.one_inv i s (by omega) hs
    rw [Anni.lcmLoop, Anni.lcmLoop, hφ.one, h1 _ ho]
    cases hmp : mp (R.setOneBit i s) with
    | none => rfl
    | some r =>
      obtain ⟨s', p⟩ := r
      simp only [Option.map_some]
      cases lcmInto lcm p with
      | none => rfl
      | some l =>
        dsimp only
        split
        · rfl
        · exact ih _ _ _ (by omega) (h2 _ _ _ ho hmp)

theorem Sim.finish (hφ : Sim R Inv φ prev kept) (h : RedGen R Inv den T O e P) (hw : 0 < w) (irr q : (ZMod 2)[X]) {s : σ}
    (hs : Inv s) : finish mps R irr q (φ s) = (finish mps R irr q s).map fun r => (φ r.1, r.2) := by
  unfold Anni.finish
  split
  · rfl
  · dsimp only
    rw [hφ.annihilate, hφ.minpoly0 h.toLinGen hw (Lin.annihilate_correct h.toLinGen _ hs).1]
    cases Search.minpoly mps R.toGenOps 0 0 (Lin.annihilate R.toGenOps (q / irr) s) <;> rfl

/-- The object that `finish` leaves has been advanced. -/
theorem finish_adv (h : RedGen R Inv den T O e P) (hw : 0 < w) {irr q : (ZMod 2)[X]} {s s' : σ} {b : Bool}
    (hs : Inv s) (hsM : den s ∈ M R.bitSize e) (hf : finish mps R irr q s = some (s', b)) :
    ∃ u, Inv u ∧ den u ∈ M R.bitSize e ∧ s' = PIS.stateAt R.toGenOps u (2 * R.bitSize) := by
  unfold Anni.finish at hf
  split at hf
  · cases hf
  · dsimp only at hf
    obtain ⟨a1, a2⟩ := Lin.annihilate_correct h.toLinGen (q / irr) hs
    have e2 := minpoly_eq mps R.toGenOps hw (Lin.annihilate R.toGenOps (q / irr) s)
    simp only [Nat.cast_zero] at e2
    rw [e2] at hf
    injection hf with hf
    injection hf with hf
    exact ⟨_, a1, by rw [a2]; exact aeval_M h _ hsM, hf.symm⟩

theorem Sim.charPoly (hφ : Sim R Inv φ prev kept) (hm : MinPolySeqSpec mps) (h : RedGen R Inv den T O e P) {s : σ}
    (hs : Inv s) (hsM : den s ∈ M R.bitSize e) (k : ℕ) :
    ∀ (i m : ℕ) (lcm : (ZMod 2)[X]), i + k = w → 1 ≤ m →
      charPolyLoop mps R.toGenOps k i (φ (PIS.stateAt R.toGenOps s m)) lcm =
        (charPolyLoop mps R.toGenOps k i (PIS.stateAt R.toGenOps s m) lcm).map fun r => (φ r.1, r.2) := by
  have hid : Sim R Inv id prev (fun _ => false) :=
    ⟨fun _ => rfl, fun _ _ => rfl, fun _ => rfl, fun _ _ => rfl, fun _ => rfl, hφ.prev_gen, fun _ _ _ _ => rfl, rfl⟩
  induction k with
  | zero => intros; rfl
  | succ k ih =>
    intro i m lcm hi hm1
    obtain ⟨p, e1, e2⟩ := hφ.minpoly hm h hs hsM (pos := i) (by omega) (m := m) (.inr hm1)
    obtain ⟨p', e3, e4⟩ := hid.minpoly hm h hs hsM (pos := i) (by omega) (m := m) (.inr hm1)
    rw [e2.unique e4] at e1
    simp only [id_eq] at e3
    rw [charPolyLoop, charPolyLoop]
    split
    · rfl
    · rw [e1, e3]
      dsimp only
      cases Util.LCM (fun v => if v = 0 then lcm else p') 0 0 1 with
      | none => rfl
      | some v => exact ih _ _ _ (by omega) (by omega)

theorem charPoly_adv {G : GenOps σ w} {s : σ} (k : ℕ) :
    ∀ (i m : ℕ) (lcm : (ZMod 2)[X]) (s' : σ) (p : (ZMod 2)[X]), i + k = w →
      charPolyLoop mps G k i (PIS.stateAt G s m) lcm = some (s', p) → ∃ m', s' = PIS.stateAt G s m' := by
  induction k with
  | zero =>
    intro i m lcm s' p _ h
    rw [charPolyLoop] at h
    injection h with h
    injection h with h
    exact ⟨m, h.symm⟩
  | succ k ih =>
    intro i m lcm s' p hi h
    rw [charPolyLoop] at h
    split at h
    · injection h with h
      injection h with h
      exact ⟨m, h.symm⟩
    · rw [minpoly_eq mps G (by omega), ← stateAt_add] at h
      dsimp only at h
      split at h
      · cases h
      · exact ih _ _ _ _ _ (by omega) h

/-- `anni` of sfmtdc commutes with the change of mode. -/
theorem Sim.anniS (hφ : Sim R Inv φ prev kept) (hm : MinPolySeqSpec mps) (h : RedGen R Inv den T O e P) (hw : 0 < w)
    (hb : 1 ≤ R.bitSize) {s : σ} (hs : Inv s) (hsM : den s ∈ M R.bitSize e) :
    anniS mps R (φ s) = (anniS mps R s).map fun r => (φ r.1, r.2) := by
  have e2 := minpoly_eq mps R.toGenOps hw s
  simp only [Nat.cast_zero] at e2
  unfold Anni.anniS
  rw [hφ.minpoly0 h.toLinGen hw hs, e2]
  simp only [Option.map_some]
  generalize mps (2 * R.bitSize) (fun i => bitAt R.toGenOps s 0 i) R.bitSize = poly
  rcases Period.hasFactorOfDegree (poly.natDegree + 1) poly R.mexp with _ | ⟨_ | _, irr⟩
  · rfl
  · rfl
  · dsimp only
    unfold calcCharPoly
    rw [hφ.charPoly hm h hs hsM w 0 (2 * R.bitSize) poly (by omega) (by omega)]
    cases hc : charPolyLoop mps R.toGenOps w 0 (PIS.stateAt R.toGenOps s (2 * R.bitSize)) poly with
    | none => rfl
    | some r =>
      obtain ⟨s', p⟩ := r
      obtain ⟨m', rfl⟩ := charPoly_adv w 0 _ _ _ _ (by omega) hc
      have hs' := (stateAt_spec h.toLinGen hs m').1
      simp only [Option.map_some]
      split
      · unfold getLCMPolyS
        rw [hφ.lcmLoop h (fun s hs => hφ.minpoly0 h.toLinGen hw hs) (fun s s' p hs hp => minpoly0_inv h.toLinGen hw hs hp)
          _ _ _ _ (by omega) hs']
        split
        · rfl
        · exact hφ.finish h hw _ _ hs'
      · exact hφ.finish h hw _ _ hs'

/-- The object that a successful `anni` of sfmtdc leaves has been advanced. -/
theorem anniS_adv (h : RedGen R Inv den T O e P) (hw : 0 < w) {s s' : σ} (hs : Inv s) (hsM : den s ∈ M R.bitSize e)
    (ha : anniS mps R s = some (s', true)) :
    ∃ u, Inv u ∧ den u ∈ M R.bitSize e ∧ s' = PIS.stateAt R.toGenOps u (2 * R.bitSize) := by
  have e2 := minpoly_eq mps R.toGenOps hw s
  simp only [Nat.cast_zero] at e2
  unfold Anni.anniS at ha
  rw [e2] at ha
  dsimp only at ha
  generalize mps (2 * R.bitSize) (fun i => bitAt R.toGenOps s 0 i) R.bitSize = poly at ha
  generalize Period.hasFactorOfDegree (poly.natDegree + 1) poly R.mexp = hfac at ha
  rcases hfac with _ | ⟨_ | _, irr⟩
  · cases ha
  · injection ha with ha; injection ha with _ ha; cases ha
  · dsimp only at ha
    unfold calcCharPoly at ha
    cases hc : charPolyLoop mps R.toGenOps w 0 (PIS.stateAt R.toGenOps s (2 * R.bitSize)) poly with
    | none => rw [hc] at ha; cases ha
    | some r =>
      obtain ⟨t, p⟩ := r
      rw [hc] at ha
      obtain ⟨m', rfl⟩ := charPoly_adv w 0 _ _ _ _ (by omega) hc
      have hr := restrict h.toLinGen (M R.bitSize e) h.closed
      have hs' := (stateAt_spec hr (g := s) ⟨hs, hsM⟩ m').1
      dsimp only at ha
      split at ha
      · split at ha
        · cases ha
        · exact finish_adv h hw hs'.1 hs'.2 ha
      · exact finish_adv h hw hs'.1 hs'.2 ha

theorem Sim.lung (hφ : Sim R Inv φ prev kept) (pos : ℤ) (s : σ) :
    minPolyLung mps R pos (φ s) = (minPolyLung mps R pos s).map fun r => (φ r.1, r.2) := by
  have key : ∀ n s, collectP R pos n (φ s) = (collectP R pos n s).map fun r => (φ r.1, r.2) := by
    intro n
    induction n with
    | zero => intro s; rfl
    | succ n ih =>
      intro s
      rw [collectP, collectP]
      rw [hφ.gen, hφ.parity]
      cases Util.getBitOfPos (R.getParity (R.generate s).1) pos with
      | none => rfl
      | some b =>
        dsimp only
        rw [ih]
        cases collectP R pos n (R.generate s).1 <;> rfl
  unfold minPolyLung
  rw [key]
  cases collectP R pos (2 * R.bitSize) s <;> rfl

theorem lung_inv (h : LinGen R.toGenOps Inv den T O) {pos : ℤ} {s s' : σ} {p : (ZMod 2)[X]} (hs : Inv s)
    (hp : minPolyLung mps R pos s = some (s', p)) : Inv s' := by
  have key : ∀ n s s' l, Inv s → collectP R pos n s = some (s', l) → Inv s' := by
    intro n
    induction n with
    | zero =>
      intro s s' l hs h
      rw [collectP] at h
      injection h with h
      injection h with h
      rwa [← h]
    | succ n ih =>
      intro s s' l hs hc
      rw [collectP] at hc
      split at hc
      · cases hc
      · cases hq : collectP R pos n (R.generate s).1 with
        | none => rw [hq] at hc; cases hc
        | some q =>
          rw [hq] at hc
          injection hc with hc
          injection hc with hc
          rw [← hc]
          exact ih _ _ q.2 (h.gen_inv s hs) hq
  unfold minPolyLung at hp
  cases hq : collectP R pos (2 * R.bitSize) s with
  | none => rw [hq] at hp; cases hp
  | some q =>
    rw [hq] at hp
    injection hp with hp
    injection hp with hp
    rw [← hp]
    exact key _ _ _ q.2 hs hq

theorem Sim.lungLCM (hφ : Sim R Inv φ prev kept) (k : ℕ) :
    ∀ (i : ℕ) (s : σ) (lcm : (ZMod 2)[X]), lungLCM mps R k i (φ s) lcm =
      (lungLCM mps R k i s lcm).map fun r => (φ r.1, r.2) := by
  induction k with
  | zero => intros; rfl
  | succ k ih =>
    intro i s lcm
    rw [Anni.lungLCM, Anni.lungLCM, hφ.lung]
    cases minPolyLung mps R i s with
    | none => rfl
    | some r =>
      simp only [Option.map_some]
      cases lcmInto lcm r.2 with
      | none => rfl
      | some l => exact ih _ _ _

theorem lungLCM_inv (h : LinGen R.toGenOps Inv den T O) (k : ℕ) :
    ∀ (i : ℕ) (s s' : σ) (lcm p : (ZMod 2)[X]), Inv s → lungLCM mps R k i s lcm = some (s', p) → Inv s' := by
  induction k with
  | zero =>
    intro i s s' lcm p hs hl
    rw [lungLCM] at hl
    injection hl with hl
    injection hl with hl
    rwa [← hl]
  | succ k ih =>
    intro i s s' lcm p hs hl
    rw [lungLCM] at hl
    cases hq : minPolyLung mps R i s with
    | none => rw [hq] at hl; cases hl
    | some r =>
      rw [hq] at hl
      dsimp only at hl
      split at hl
      · cases hl
      · exact ih _ _ _ _ _ (lung_inv h hs hq) hl

/-- `anni` of dSFMTdc commutes with the change of mode. -/
theorem Sim.anniD (hφ : Sim R Inv φ prev kept) (h : RedGen R Inv den T O e P) (hw : 0 < w)
    {s : σ} (hs : Inv s) : anniD mps R (φ s) = (anniD mps R s).map fun r => (φ r.1, r.2) := by
  have e2 := minpoly_eq mps R.toGenOps hw s
  have e3 := minpoly_eq mps R.toGenOps hw (PIS.stateAt R.toGenOps s (2 * R.bitSize))
  have hs1 := (stateAt_spec h.toLinGen hs (2 * R.bitSize)).1
  simp only [Nat.cast_zero] at e2 e3
  unfold Anni.anniD
  rw [hφ.minpoly0 h.toLinGen hw hs, e2]
  simp only [Option.map_some]
  rw [hφ.minpoly0 h.toLinGen hw hs1, e3]
  generalize mps (2 * R.bitSize) (fun i => bitAt R.toGenOps s 0 i) R.bitSize = poly
  rcases Period.hasFactorOfDegree (poly.natDegree + 1) poly R.mexp with _ | ⟨_ | _, irr⟩
  · rfl
  · rfl
  · simp only [Option.map_some]
    have hs2 := (stateAt_spec h.toLinGen hs1 (2 * R.bitSize)).1
    split
    · have : getLCMPolyD mps R (mps (2 * R.bitSize) (fun i => bitAt R.toGenOps
          (PIS.stateAt R.toGenOps s (2 * R.bitSize)) 0 i) R.bitSize)
          (φ (PIS.stateAt R.toGenOps (PIS.stateAt R.toGenOps s (2 * R.bitSize)) (2 * R.bitSize))) =
          getLCMPolyD mps R (mps (2 * R.bitSize) (fun i => bitAt R.toGenOps
          (PIS.stateAt R.toGenOps s (2 * R.bitSize)) 0 i) R.bitSize)
          (PIS.stateAt R.toGenOps (PIS.stateAt R.toGenOps s (2 * R.bitSize)) (2 * R.bitSize)) := by
        unfold getLCMPolyD
        rw [hφ.lungLCM]
        split
        · next hl =>
          cases hq : Anni.lungLCM mps R w 0 (PIS.stateAt R.toGenOps (PIS.stateAt R.toGenOps s (2 * R.bitSize))
              (2 * R.bitSize)) (mps (2 * R.bitSize) (fun i => bitAt R.toGenOps
              (PIS.stateAt R.toGenOps s (2 * R.bitSize)) 0 i) R.bitSize) with
          | none => rfl
          | some r => rw [hq] at hl; cases hl
        · next g l hl =>
          cases hq : Anni.lungLCM mps R w 0 (PIS.stateAt R.toGenOps (PIS.stateAt R.toGenOps s (2 * R.bitSize))
              (2 * R.bitSize)) (mps (2 * R.bitSize) (fun i => bitAt R.toGenOps
              (PIS.stateAt R.toGenOps s (2 * R.bitSize)) 0 i) R.bitSize) with
          | none => rw [hq] at hl; cases hl
          | some r =>
            rw [hq] at hl
            injection hl with hl
            injection hl with h1 h2
            rw [← h1, ← h2]
            exact hφ.lcmLoop h (fun s _ => hφ.lung _ _) (fun s s' p hs hp => lung_inv h.toLinGen hs hp) _ _ _ _ (by omega)
              (lungLCM_inv h.toLinGen _ _ _ _ _ r.2 hs2 hq)
      rw [this]
      split
      · rfl
      · exact hφ.finish h hw _ _ hs2
    · exact hφ.finish h hw _ _ hs2

/-- The object that a successful `anni` of dSFMTdc leaves has been advanced. -/
theorem anniD_adv (h : RedGen R Inv den T O e P) (hw : 0 < w) {s s' : σ} (hs : Inv s) (hsM : den s ∈ M R.bitSize e)
    (ha : anniD mps R s = some (s', true)) :
    ∃ u, Inv u ∧ den u ∈ M R.bitSize e ∧ s' = PIS.stateAt R.toGenOps u (2 * R.bitSize) := by
  have e2 := minpoly_eq mps R.toGenOps hw s
  have e3 := minpoly_eq mps R.toGenOps hw (PIS.stateAt R.toGenOps s (2 * R.bitSize))
  simp only [Nat.cast_zero] at e2 e3
  have hr := restrict h.toLinGen (M R.bitSize e) h.closed
  have hs2 := (stateAt_spec hr (stateAt_spec hr (g := s) ⟨hs, hsM⟩ (2 * R.bitSize)).1 (2 * R.bitSize)).1
  unfold Anni.anniD at ha
  rw [e2] at ha
  dsimp only at ha
  generalize mps (2 * R.bitSize) (fun i => bitAt R.toGenOps s 0 i) R.bitSize = poly at ha
  generalize Period.hasFactorOfDegree (poly.natDegree + 1) poly R.mexp = hfac at ha
  rcases hfac with _ | ⟨_ | _, irr⟩
  · cases ha
  · injection ha with ha; injection ha with _ ha; cases ha
  · dsimp only at ha
    rw [e3] at ha
    dsimp only at ha
    split at ha
    · split at ha
      · cases ha
      · exact finish_adv h hw hs2.1 hs2.2 ha
    · exact finish_adv h hw hs2.1 hs2.2 ha

end Loops

/-! ### `min_max_poly` -/

/-- What `min_max_poly` reports on polynomials `q i`, for the bits `is` in this order: `min` and `max` are the least and the
largest degree, `maxWeight` is the number of terms of the first polynomial of largest degree. -/
structure MinMax (is : List ℕ) (q : ℕ → (ZMod 2)[X]) (min max : ℤ) (maxWeight : ℕ) : Prop where
  le : ∀ i ∈ is, min ≤ (q i).natDegree
  attained : ∃ i ∈ is, min = (q i).natDegree
  first : ∃ as i bs, is = as ++ i :: bs ∧ max = (q i).natDegree ∧ maxWeight = (q i).support.card ∧
    (∀ j ∈ as, ((q j).natDegree : ℤ) < max) ∧ ∀ j ∈ bs, ((q j).natDegree : ℤ) ≤ max

theorem MinMax.ge {is : List ℕ} {q : ℕ → (ZMod 2)[X]} {min max : ℤ} {mw : ℕ} (h : MinMax is q min max mw) :
    ∀ i ∈ is, ((q i).natDegree : ℤ) ≤ max := by
  obtain ⟨as, i, bs, e1, e2, -, e3, e4⟩ := h.first
  intro j hj
  rw [e1, List.mem_append, List.mem_cons] at hj
  rcases hj with h | rfl | h
  · exact (e3 j h).le
  · exact e2.ge
  · exact e4 j h

/-- `min_max_poly` on an object whose bits have the minimal polynomials `q i`. -/
theorem minMaxPoly_spec {G : GenOps σ w} {is : List ℕ} {q : ℕ → (ZMod 2)[X]} {st : ℕ → σ}
    (hq : ∀ i ∈ is, q i ≠ 0 ∧ (q i).natDegree < 2 ^ 31 - 1) (hne : is ≠ [])
    (hstep : ∀ i ∈ is, ∀ m, Search.minpoly mps G i 0 (st m) = some (st (m + 2 * G.bitSize), q i)) (m : ℕ) :
    ∃ m' min max mw, minMaxPoly mps G is (st m) = some (st m', min, max, mw) ∧ MinMax is q min max mw := by
  have key : ∀ (is : List ℕ) (m : ℕ) (mn mx : ℤ) (mw : ℕ), (∀ i ∈ is, q i ≠ 0) →
      (∀ i ∈ is, ∀ m, Search.minpoly mps G i 0 (st m) = some (st (m + 2 * G.bitSize), q i)) →
      ∃ m' min max mw', minMaxLoop mps G is (st m) mn mx mw = some (st m', min, max, mw') ∧
        min ≤ mn ∧ (∀ i ∈ is, min ≤ (q i).natDegree) ∧ (min = mn ∨ ∃ i ∈ is, min = (q i).natDegree) ∧
        ((max = mx ∧ mw' = mw ∧ ∀ i ∈ is, ((q i).natDegree : ℤ) ≤ mx) ∨
          (mx < max ∧ ∃ as i bs, is = as ++ i :: bs ∧ max = (q i).natDegree ∧ mw' = (q i).support.card ∧
            (∀ j ∈ as, ((q j).natDegree : ℤ) < max) ∧ ∀ j ∈ bs, ((q j).natDegree : ℤ) ≤ max)) := by
    intro is
    induction is with
    | nil =>
      intro m mn mx mw _ _
      exact ⟨m, mn, mx, mw, rfl, le_rfl, by simp, .inl rfl, .inl ⟨rfl, rfl, by simp⟩⟩
    | cons i is ih =>
      intro m mn mx mw h0 hst
      have hi0 := h0 i (by simp)
      rw [minMaxLoop, hst i (by simp) m]
      dsimp only
      rw [Period.deg_of_ne hi0]
      obtain ⟨m', min, max, mw', e1, e2, e3, e4, e5⟩ := ih (m + 2 * G.bitSize)
        (if ((q i).natDegree : ℤ) < mn then ((q i).natDegree : ℤ) else mn)
        (if ((q i).natDegree : ℤ) > mx then ((q i).natDegree : ℤ) else mx)
        (if ((q i).natDegree : ℤ) > mx then (q i).support.card else mw)
        (fun j hj => h0 j (List.mem_cons_of_mem _ hj)) (fun j hj => hst j (List.mem_cons_of_mem _ hj))
      refine ⟨m', min, max, mw', e1, ?_, ?_, ?_, ?_⟩
      · split at e2 <;> omega
      · intro j hj
        rcases List.mem_cons.1 hj with rfl | hj
        · split at e2 <;> omega
        · exact e3 j hj
      · rcases e4 with e4 | ⟨j, hj, e4⟩
        · by_cases hd : ((q i).natDegree : ℤ) < mn
          · rw [if_pos hd] at e4
            exact .inr ⟨i, by simp, e4⟩
          · rw [if_neg hd] at e4
            exact .inl e4
        · exact .inr ⟨j, List.mem_cons_of_mem _ hj, e4⟩
      · by_cases hd : ((q i).natDegree : ℤ) > mx
        · rw [if_pos hd, if_pos hd] at e5
          refine .inr ?_
          rcases e5 with ⟨f1, f2, f3⟩ | ⟨f1, as, j, bs, f2, f3, f4, f5, f6⟩
          · exact ⟨by omega, [], i, is, rfl, f1, f2, by simp, fun j hj => by rw [f1]; exact f3 j hj⟩
          · refine ⟨by omega, i :: as, j, bs, by rw [f2]; rfl, f3, f4, fun j hj => ?_, f6⟩
            rcases List.mem_cons.1 hj with rfl | hj
            · exact f1
            · exact f5 j hj
        · rw [if_neg hd, if_neg hd] at e5
          rcases e5 with ⟨f1, f2, f3⟩ | ⟨f1, as, j, bs, f2, f3, f4, f5, f6⟩
          · refine .inl ⟨f1, f2, fun j hj => ?_⟩
            rcases List.mem_cons.1 hj with rfl | hj
            · omega
            · exact f3 j hj
          · refine .inr ⟨f1, i :: as, j, bs, by rw [f2]; rfl, f3, f4, fun j hj => ?_, f6⟩
            rcases List.mem_cons.1 hj with rfl | hj
            · omega
            · exact f5 j hj
  obtain ⟨m', min, max, mw, e1, e2, e3, e4, e5⟩ := key is m (2 ^ 31 - 1) (-10) 0 (fun i hi => (hq i hi).1) hstep
  obtain ⟨i, hi⟩ := List.exists_mem_of_ne_nil is hne
  refine ⟨m', min, max, mw, e1, e3, ?_, ?_⟩
  · rcases e4 with e4 | e4
    · have h1 := e3 i hi
      have h2 := (hq i hi).2
      omega
    · exact e4
  · rcases e5 with ⟨-, -, e5⟩ | ⟨-, e5⟩
    · have := e5 i hi
      omega
    · exact e5

/-! ### One mode -/

/-- Bit `pos` of the output is not constantly 0 in the component of `f`. -/
def SeenAt (w bitSize : ℕ) (e : ℕ → S) (T : S →ₗ[ZMod 2] S) (O : S →ₗ[ZMod 2] V) (f : (ZMod 2)[X]) (pos : ℕ) : Prop :=
  ∃ x ∈ M bitSize e, aeval T f x = 0 ∧ ∃ k, O ((T ^ k) x) (w - 1 - pos) ≠ 0

/-- The minimal polynomial of bit 0 from the object `s` has an irreducible factor of degree `mexp`. -/
def HasFactor (R : ROps σ w) (s : σ) : Prop :=
  ∃ f p : (ZMod 2)[X], Irreducible f ∧ f.natDegree = R.mexp ∧ IsSeqMinpoly p (bitAt R.toGenOps s 0) ∧ f ∣ p

/-- In a state isolated by `anni` the minimal polynomial of a bit has degree `mexp` or 0. -/
theorem isolated_bit (h : RedGen R Inv den T O e P) (hbig : R.bitSize < 2 * R.mexp) {f : (ZMod 2)[X]} (hf : Irreducible f)
    (hfd : f.natDegree = R.mexp) {s : σ} (hi : Isolated R Inv den T e s f) {pos : ℕ} (hp : pos < w) {p : (ZMod 2)[X]}
    (hq : IsSeqMinpoly p (bitAt R.toGenOps s pos)) :
    (SeenAt w R.bitSize e T O f pos → p.natDegree = R.mexp) ∧ (¬ SeenAt w R.bitSize e T O f pos → p.natDegree = 0) := by
  obtain ⟨i1, i2, i3⟩ := hi
  rw [bitAt_eq h.toLinGen i1 hp] at hq
  have hfa : aeval T f (den s) = 0 := (i3.2 f).2 (dvd_refl f)
  have hdvd : p ∣ f := hq.2.2 f (ann_outSeq _ _ hfa)
  constructor
  · rintro ⟨x, x1, x2, k, x3⟩
    have hx : x ∈ cyc T (den s) := (cyc_eq_root h hbig hf hfd i2 i3 x).2 ⟨x1, x2⟩
    by_contra hne
    have hpu : IsUnit p := by
      obtain ⟨c, hc⟩ := hdvd
      rcases hf.isUnit_or_isUnit hc with h' | h'
      · exact h'
      · exfalso
        apply hne
        rw [← hfd, hc, natDegree_mul hq.1 h'.ne_zero, natDegree_eq_zero_of_isUnit h', Nat.add_zero]
    have hzero : ∀ i, coord w pos O ((T ^ i) (den s)) = 0 := by
      obtain ⟨c, hc⟩ := hpu.dvd (a := (1 : (ZMod 2)[X]))
      have h1 : Ann 1 (outSeq T (coord w pos O) (den s)) := by
        rw [hc, ann_iff, mul_comm, map_mul, Module.End.mul_apply, ann_iff.1 hq.2.1, map_zero]
      intro i
      have h2 := congrFun (ann_iff.1 h1) i
      rw [map_one, Module.End.one_apply] at h2
      exact h2
    have hker : cyc T (den s) ≤ LinearMap.ker ((coord w pos O).comp (T ^ k)) := by
      refine Submodule.span_le.2 ?_
      rintro _ ⟨j, rfl⟩
      show coord w pos O ((T ^ k) ((T ^ j) (den s))) = 0
      rw [← Module.End.mul_apply, ← pow_add]
      exact hzero _
    exact x3 (hker hx)
  · intro hns
    have hzero : outSeq T (coord w pos O) (den s) = 0 := by
      funext i
      by_contra h0
      exact hns ⟨den s, i2, hfa, i, h0⟩
    have : p ∣ 1 := hq.2.2 1 (by rw [hzero]; exact ann_iff.2 (map_zero _))
    exact natDegree_eq_zero_of_isUnit (isUnit_of_dvd_one this)

/-- A factor of the minimal polynomial of bit 0 is seen in bit 0. -/
theorem seen_of_factor (h : RedGen R Inv den T O e P) (hw : 0 < w) (hbig : R.bitSize < 2 * R.mexp) {s : σ} (hs : Inv s)
    (hsM : den s ∈ M R.bitSize e) {f p : (ZMod 2)[X]} (hf : Irreducible f) (hfd : f.natDegree = R.mexp) (hp : IsSeqMinpoly p (bitAt R.toGenOps s 0)) (hfp : f ∣ p) :
    SeenAt w R.bitSize e T O f 0 := by
  have := M_finite R.bitSize e
  obtain ⟨c, rfl⟩ := hfp
  have hc0 : c ≠ 0 := right_ne_zero_of_mul hp.1
  rw [bitAt_eq h.toLinGen hs hw] at hp
  -- the minimal polynomial of the state is a multiple of `f c`
  obtain ⟨χ, hχ, hχd, hχa⟩ : ∃ χ : (ZMod 2)[X], χ ≠ 0 ∧ χ.natDegree ≤ R.bitSize ∧ aeval T χ (den s) = 0 := by
    refine ⟨(T.restrict h.closed).charpoly, (LinearMap.charpoly_monic _).ne_zero,
      (LinearMap.charpoly_natDegree _).le.trans (finrank_M h).le, ?_⟩
    rw [← denL_val hsM, ← aeval_restrict h.closed, LinearMap.aeval_self_charpoly]; rfl
  obtain ⟨μ, hμ⟩ := exists_vecMinpoly hχ hχa
  obtain ⟨d, hd⟩ := hp.2.2 μ (ann_outSeq _ _ ((hμ.2 μ).2 (dvd_refl _)))
  have hd0 : d ≠ 0 := by
    rintro rfl
    exact hμ.1 (by rw [hd, mul_zero])
  refine ⟨aeval T (c * d) (den s), aeval_M h _ hsM, ?_, ?_⟩
  · rw [← Module.End.mul_apply, ← map_mul, ← mul_assoc, ← hd]
    exact (hμ.2 μ).2 (dvd_refl _)
  · by_contra hno
    push Not at hno
    have hA : Ann (c * d) (outSeq T (coord w 0 O) (den s)) := by
      rw [ann_iff, aeval_outSeq]
      funext i
      exact hno i
    obtain ⟨a, ha⟩ := hp.2.2 _ hA
    have h1 : d = f * a := mul_left_cancel₀ hc0 (by rw [ha]; ring)
    have ha0 : a ≠ 0 := by
      rintro rfl
      exact hd0 (by rw [h1, mul_zero])
    have h2 := (natDegree_le_of_dvd ((hμ.2 χ).1 hχa) hχ).trans hχd
    rw [hd, h1, natDegree_mul (mul_ne_zero hf.ne_zero hc0) (mul_ne_zero hf.ne_zero ha0), natDegree_mul hf.ne_zero hc0,
      natDegree_mul hf.ne_zero ha0] at h2
    omega

/-- The condition `HasFactor` in terms of the state: the component is there, and bit 0 sees it. -/
theorem hasFactor_iff (hm : MinPolySeqSpec mps) (h : RedGen R Inv den T O e P) (hw : 0 < w) (hbig : R.bitSize < 2 * R.mexp)
    {s : σ} (hs : Inv s) (hsM : den s ∈ M R.bitSize e) :
    HasFactor R s ↔ ∃ f : (ZMod 2)[X], Irreducible f ∧ f.natDegree = R.mexp ∧ (∀ r, aeval T r (den s) = 0 → f ∣ r) ∧
      SeenAt w R.bitSize e T O f 0 := by
  have := M_finite R.bitSize e
  constructor
  · rintro ⟨f, p, f1, f2, f3, f4⟩
    refine ⟨f, f1, f2, fun r hr => f4.trans ?_, seen_of_factor h hw hbig hs hsM f1 f2 f3 f4⟩
    rw [bitAt_eq h.toLinGen hs hw] at f3
    exact f3.2.2 r (ann_outSeq _ _ hr)
  · rintro ⟨f, f1, f2, f3, x, x1, x2, k, x3⟩
    have hr := restrict h.toLinGen (M R.bitSize e) h.closed
    obtain ⟨p, -, hp⟩ := minpoly_dim hm hr (s := s) ⟨hs, hsM⟩ hw (finrank_M h).le
    refine ⟨f, p, f1, f2, hp, ?_⟩
    rw [bitAt_eq h.toLinGen hs hw] at hp
    by_contra hnd
    obtain ⟨a, b, hab⟩ := (f1.coprime_iff_not_dvd).2 hnd
    obtain ⟨χ, hχ, hχa⟩ : ∃ χ : (ZMod 2)[X], χ ≠ 0 ∧ aeval T χ (den s) = 0 := by
      refine ⟨(T.restrict h.closed).charpoly, (LinearMap.charpoly_monic _).ne_zero, ?_⟩
      rw [← denL_val hsM, ← aeval_restrict h.closed, LinearMap.aeval_self_charpoly]; rfl
    obtain ⟨μ, hμ⟩ := exists_vecMinpoly hχ hχa
    obtain ⟨c, rfl⟩ := f3 μ ((hμ.2 μ).2 (dvd_refl _))
    have hc0 : c ≠ 0 := right_ne_zero_of_mul hμ.1
    -- the part of the state in the component
    have hy : IsVecMinpoly T (aeval T c (den s)) f := by
      refine ⟨f1.ne_zero, fun q => ?_⟩
      rw [← Module.End.mul_apply, ← map_mul, hμ.2, mul_comm f c, mul_comm q c]
      exact mul_dvd_mul_iff_left hc0
    have hx : x ∈ cyc T (aeval T c (den s)) := (cyc_eq_root h hbig f1 f2 (aeval_M h c hsM) hy x).2 ⟨x1, x2⟩
    have hA : ∀ q, Ann q (outSeq T (coord w 0 O) (den s)) → Ann q (outSeq T (coord w 0 O) (aeval T c (den s))) := by
      intro q hq
      rw [ann_iff] at hq ⊢
      rw [aeval_outSeq] at hq ⊢
      rw [← Module.End.mul_apply, ← map_mul, mul_comm, map_mul, Module.End.mul_apply, ← aeval_outSeq, hq, map_zero]
    have h1 : Ann 1 (outSeq T (coord w 0 O) (aeval T c (den s))) := by
      have e1 := ann_iff.1 (hA p hp.2.1)
      have e2 : aeval shiftOp f (outSeq T (coord w 0 O) (aeval T c (den s))) = 0 :=
        ann_iff.1 (ann_outSeq _ _ ((hy.2 f).2 (dvd_refl f)))
      rw [ann_iff, ← hab, map_add, map_mul, map_mul, LinearMap.add_apply, Module.End.mul_apply, Module.End.mul_apply, e1, e2,
        map_zero, map_zero, add_zero]
    have hzero : ∀ i, coord w 0 O ((T ^ i) (aeval T c (den s))) = 0 := by
      intro i
      have h2 := congrFun (ann_iff.1 h1) i
      rw [map_one, Module.End.one_apply] at h2
      exact h2
    have hker : cyc T (aeval T c (den s)) ≤ LinearMap.ker ((coord w 0 O).comp (T ^ k)) := by
      refine Submodule.span_le.2 ?_
      rintro _ ⟨j, rfl⟩
      show coord w 0 O ((T ^ k) ((T ^ j) (aeval T c (den s)))) = 0
      rw [← Module.End.mul_apply, ← pow_add]
      exact hzero _
    exact x3 (hker hx)

section Mode

variable {φ : σ → σ} {prev : σ → BitVec w} {kept : ℕ → Bool}

/-- Before `anni`: `min_max_poly` on an object in the usual mode. -/
theorem before_spec (hm : MinPolySeqSpec mps) (h : RedGen R Inv den T O e P) (hsmall : R.bitSize < 2 ^ 31 - 1) {s : σ}
    (hs : Inv s) (hsM : den s ∈ M R.bitSize e) {is : List ℕ} (hne : is ≠ []) (hlt : ∀ i ∈ is, i < w) :
    ∃ m min max mw q, minMaxPoly mps R.toGenOps is s = some (PIS.stateAt R.toGenOps s m, min, max, mw) ∧
      (∀ i ∈ is, IsSeqMinpoly (q i) (bitAt R.toGenOps s i)) ∧ MinMax is q min max mw := by
  have := M_finite R.bitSize e
  have hfin : Finite (M R.bitSize e) := Module.finite_of_finite (ZMod 2)
  have hr := restrict h.toLinGen (M R.bitSize e) h.closed
  have hT := inj_restrict h
  choose! q hq using fun (i : ℕ) (hi : i < w) => minpoly_dim hm hr (s := s) ⟨hs, hsM⟩ hi (finrank_M h).le
  have hdeg : ∀ i < w, (q i).natDegree ≤ R.bitSize := fun i hi => by
    have hc := LinearMap.charpoly_monic (T.restrict h.closed)
    have : q i ∣ (T.restrict h.closed).charpoly := by
      apply (hq i hi).2.2.2
      rw [bitAt_eq hr ⟨hs, hsM⟩ hi]; exact ann_charpoly _ _
    exact (natDegree_le_of_dvd this hc.ne_zero).trans ((LinearMap.charpoly_natDegree _).le.trans (finrank_M h).le)
  obtain ⟨m, min, max, mw, e1, e2⟩ := minMaxPoly_spec (mps := mps) (G := R.toGenOps) (q := q) (is := is)
    (st := fun m => PIS.stateAt R.toGenOps s m)
    (fun i hi => ⟨(hq i (hlt i hi)).2.1, lt_of_le_of_lt (hdeg i (hlt i hi)) hsmall⟩) hne (fun i hi m => by
      have hiw := hlt i hi
      obtain ⟨p, e1, e2⟩ := minpoly_dim hm hr (s := PIS.stateAt R.toGenOps s m) (stateAt_spec hr (g := s) ⟨hs, hsM⟩ m).1 hiw
        (finrank_M h).le
      rw [e1, ← stateAt_add]
      have : p = q i := IsSeqMinpoly.unique (a := bitAt R.toGenOps s i)
        ⟨e2.1, (ann_stateAt hr hT (s := s) ⟨hs, hsM⟩ hiw m p).1 e2.2.1, fun r hr' =>
          e2.2.2 r ((ann_stateAt hr hT (s := s) ⟨hs, hsM⟩ hiw m r).2 hr')⟩ (hq i hiw).2
      rw [this]) 0
  exact ⟨m, min, max, mw, q, e1, fun i hi => (hq i (hlt i hi)).2, e2⟩

/-- `min_max_poly` after a successful `anni` in a mode. -/
theorem after_spec (hφ : Sim R Inv φ prev kept) (hm : MinPolySeqSpec mps) (h : RedGen R Inv den T O e P) (hw : 0 < w)
    (hb : 1 ≤ R.bitSize) (hbig : R.bitSize < 2 * R.mexp) (hsmall : R.mexp < 2 ^ 31 - 1) {u : σ} {f : (ZMod 2)[X]}
    (hf : Irreducible f) (hfd : f.natDegree = R.mexp) (hu : Inv u) (huM : den u ∈ M R.bitSize e)
    (hi : Isolated R Inv den T e (PIS.stateAt R.toGenOps u (2 * R.bitSize)) f) (hseen : SeenAt w R.bitSize e T O f 0)
    {is : List ℕ} (h0 : 0 ∈ is) (hlt : ∀ i ∈ is, i < w) :
    ∃ s min mw, minMaxPoly mps R.toGenOps is (φ (PIS.stateAt R.toGenOps u (2 * R.bitSize))) = some (s, min, (R.mexp : ℤ), mw) ∧
      ((∀ i ∈ is, SeenAt w R.bitSize e T O f i) → min = R.mexp) ∧
      ((¬ ∀ i ∈ is, SeenAt w R.bitSize e T O f i) → min = 0) := by
  have := M_finite R.bitSize e
  have hfin : Finite (M R.bitSize e) := Module.finite_of_finite (ZMod 2)
  have hr := restrict h.toLinGen (M R.bitSize e) h.closed
  have hT := inj_restrict h
  choose! q hq using fun (i : ℕ) (hi : i < w) => minpoly_dim hm hr (s := u) ⟨hu, huM⟩ hi (finrank_M h).le
  have hdeg : ∀ i < w, (SeenAt w R.bitSize e T O f i → (q i).natDegree = R.mexp) ∧
      (¬ SeenAt w R.bitSize e T O f i → (q i).natDegree = 0) := fun i hi' =>
    isolated_bit h hbig hf hfd hi hi' ⟨(hq i hi').2.1, (ann_stateAt hr hT (s := u) ⟨hu, huM⟩ hi' _ _).2 (hq i hi').2.2.1,
      fun r hr' => (hq i hi').2.2.2 r ((ann_stateAt hr hT (s := u) ⟨hu, huM⟩ hi' _ r).1 hr')⟩
  have hle : ∀ i < w, (q i).natDegree ≤ R.mexp := fun i hi' => by
    by_cases hs : SeenAt w R.bitSize e T O f i
    · exact ((hdeg i hi').1 hs).le
    · rw [(hdeg i hi').2 hs]; omega
  obtain ⟨m', min, max, mw, e1, e2⟩ := minMaxPoly_spec (mps := mps) (G := R.toGenOps) (q := q) (is := is)
    (st := fun m => φ (PIS.stateAt R.toGenOps u (m + 1)))
    (fun i hi => ⟨(hq i (hlt i hi)).2.1, lt_of_le_of_lt (hle i (hlt i hi)) hsmall⟩) (List.ne_nil_of_mem h0) (fun i hi m => by
      have hiw := hlt i hi
      obtain ⟨p, e1, e2⟩ := hφ.minpoly hm h hu huM hiw (m := m + 1) (.inr (by omega))
      rw [e1, e2.unique (hq i hiw).2, show m + 1 + 2 * R.bitSize = m + 2 * R.bitSize + 1 by omega]) (2 * R.bitSize - 1)
  rw [show 2 * R.bitSize - 1 + 1 = 2 * R.bitSize by omega] at e1
  have hmax : max = R.mexp := by
    apply le_antisymm
    · obtain ⟨as, i, bs, f1, f2, -⟩ := e2.first
      rw [f2]
      exact_mod_cast hle i (hlt i (by rw [f1]; simp))
    · have := e2.ge 0 h0
      rwa [(hdeg 0 hw).1 hseen] at this
  rw [hmax] at e1
  refine ⟨_, min, mw, e1, fun hall => ?_, fun hnot => ?_⟩
  · obtain ⟨i, hi, e3⟩ := e2.attained
    rw [e3, (hdeg i (hlt i hi)).1 (hall i hi)]
  · push Not at hnot
    obtain ⟨i, hi, hns⟩ := hnot
    have h1 := e2.le i hi
    rw [(hdeg i (hlt i hi)).2 hns] at h1
    obtain ⟨j, -, e3⟩ := e2.attained
    omega

/-- The factors seen in bit 0 do not depend on the place in the orbit. -/
theorem hasFactor_adv (h : RedGen R Inv den T O e P) {s s' : σ} (hw : 0 < w) (hs : Inv s) (hsM : den s ∈ M R.bitSize e)
    (hs' : Inv s') (_hsM : den s' ∈ M R.bitSize e) {m : ℕ} (hd : den s' = (T ^ m) (den s)) : HasFactor R s' ↔ HasFactor R s := by
  have := M_finite R.bitSize e
  have hfin : Finite (M R.bitSize e) := Module.finite_of_finite (ZMod 2)
  have hr := restrict h.toLinGen (M R.bitSize e) h.closed
  have h1 : bitAt R.toGenOps s' 0 = bitAt R.toGenOps (PIS.stateAt R.toGenOps s m) 0 := by
    have h2 := stateAt_spec h.toLinGen hs m
    rw [bitAt_eq h.toLinGen hs' hw, bitAt_eq h.toLinGen h2.1 hw, h2.2, hd]
  have h3 : ∀ p, IsSeqMinpoly p (bitAt R.toGenOps s' 0) ↔ IsSeqMinpoly p (bitAt R.toGenOps s 0) := by
    intro p
    rw [h1]
    unfold IsSeqMinpoly
    simp only [ann_stateAt hr (inj_restrict h) (s := s) ⟨hs, hsM⟩ hw m]
  unfold HasFactor
  simp only [h3]

/-- One turn of the loop over the modes, for either function `anni`. -/
theorem mode_spec (hφ : Sim R Inv φ prev kept) (hm : MinPolySeqSpec mps) (h : RedGen R Inv den T O e P) (hw : 0 < w)
    (hb : 1 ≤ R.bitSize) (hbig : R.bitSize < 2 * R.mexp) (hsmall : R.mexp < 2 ^ 31 - 1) {anni : σ → Option (σ × Bool)}
    {s : σ} (hs : Inv s) (hsM : den s ∈ M R.bitSize e)
    (h1 : ∃ s' b p, anni s = some (s', b) ∧ IsSeqMinpoly p (bitAt R.toGenOps s 0) ∧
      (b = false → s' = PIS.stateAt R.toGenOps s (2 * R.bitSize) ∧ ∀ f, Irreducible f → f.natDegree = R.mexp → ¬ f ∣ p) ∧
      (b = true → ∃ f, Irreducible f ∧ f.natDegree = R.mexp ∧ f ∣ p ∧ Isolated R Inv den T e s' f))
    (h2 : anni (φ s) = (anni s).map fun r => (φ r.1, r.2))
    (h3 : ∀ s', anni s = some (s', true) →
      ∃ u, Inv u ∧ den u ∈ M R.bitSize e ∧ s' = PIS.stateAt R.toGenOps u (2 * R.bitSize))
    {is : List ℕ} (h0 : 0 ∈ is) (hlt : ∀ i ∈ is, i < w) :
    (HasFactor R s → ∃ sf2 s' min mw f t, anni (φ s) = some (sf2, true) ∧
      minMaxPoly mps R.toGenOps is sf2 = some (s', min, (R.mexp : ℤ), mw) ∧
      Irreducible f ∧ f.natDegree = R.mexp ∧ Isolated R Inv den T e t f ∧
      ((∀ i ∈ is, SeenAt w R.bitSize e T O f i) → min = R.mexp) ∧
      ((¬ ∀ i ∈ is, SeenAt w R.bitSize e T O f i) → min = 0)) ∧
    (¬ HasFactor R s → ∃ sf2, anni (φ s) = some (sf2, false)) := by
  obtain ⟨s', b, p, e1, e2, e3, e4⟩ := h1
  rw [h2, e1]
  cases b with
  | false =>
    refine ⟨?_, fun _ => ⟨_, rfl⟩⟩
    rintro ⟨f, p', f1, f2, f3, f4⟩
    rw [f3.unique e2] at f4
    exact absurd f4 ((e3 rfl).2 f f1 f2)
  | true =>
    obtain ⟨f, f1, f2, f3, f4⟩ := e4 rfl
    refine ⟨fun _ => ?_, fun hn => absurd ⟨f, p, f1, f2, e2, f3⟩ hn⟩
    obtain ⟨u, u1, u2, rfl⟩ := h3 s' e1
    obtain ⟨s'', min, mw, g1, g2, g3⟩ := after_spec hφ hm h hw hb hbig hsmall f1 f2 u1 u2 f4
      (seen_of_factor h hw hbig hs hsM f1 f2 e2 f3) h0 hlt
    exact ⟨_, s'', min, mw, f, _, rfl, g1, f1, f2, f4, g2, g3⟩

end Mode

open Classical in
/-- The loop over the modes. -/
theorem modeLoop_spec {G : GenOps σ w} {is : List ℕ} {anni : σ → Option (σ × Bool)} {setMode : ℤ → ℤ → σ → σ} {sf : σ}
    {good : ℤ → Prop} {lo : ℤ → ℤ} {hi : ℤ} :
    ∀ ms : List (ℤ × ℤ), (∀ m ∈ ms, (good m.1 → ∃ sf2 s' mw, anni (setMode m.1 m.2 sf) = some (sf2, true) ∧
        minMaxPoly mps G is sf2 = some (s', lo m.1, hi, mw)) ∧
      (¬ good m.1 → ∃ sf2, anni (setMode m.1 m.2 sf) = some (sf2, false))) →
    modeLoop mps G is anni setMode sf ms =
      some ((ms.takeWhile fun m => good m.1).map fun m => ⟨m.1, m.2, lo m.1, hi⟩, decide (¬ ∀ m ∈ ms, good m.1)) := by
  intro ms
  induction ms with
  | nil =>
    intro _
    rw [modeLoop]
    simp
  | cons m ms ih =>
    intro h
    rw [modeLoop]
    by_cases hg : good m.1
    · obtain ⟨sf2, s', mw, e1, e2⟩ := (h m (by simp)).1 hg
      rw [e1]
      dsimp only
      rw [e2, ih fun m' hm' => h m' (List.mem_cons_of_mem _ hm')]
      simp [hg]
    · obtain ⟨sf2, e1⟩ := (h m (by simp)).2 hg
      rw [e1]
      simp [hg]

end MTT.Anni
