import Verif.Anni.Finds

/-!
# C115: a search returns the first parameter set of its source that qualifies

The source delivers an endless sequence of numbers (the Mersenne Twister); every parameter set is made of `c`
consecutive numbers of it.  Set number `i` is `cand (from_ f (c * i))`.
-/

namespace MTT.Search

open Polynomial PIS

/-- The sequence from number `m` on. -/
def from_ {α : Type} (f : ℕ → α) (m : ℕ) : ℕ → α := fun k => f (m + k)

theorem from_zero {α : Type} (f : ℕ → α) : from_ f 0 = f := by
  funext k
  unfold from_
  rw [Nat.zero_add]

theorem from_from {α : Type} (f : ℕ → α) (m k : ℕ) : from_ (from_ f m) k = from_ f (m + k) := by
  funext j
  unfold from_
  rw [Nat.add_assoc]

variable {σ α P S : Type} {w : ℕ} [AddCommGroup S] [Module (ZMod 2) S]

/-- How a class draws parameters: `setUpParam` takes `c` numbers, makes the parameters `cand` of them and keeps what `K`
says (the fields it does not choose); so do `seed` and `generate`.  `Inv0` holds already before the first
`setUpParam`, `Inv` after it.  After `seed(1)` the outputs depend on the parameters
only. -/
structure Draws (D : SearchOps σ (ℕ → α) w) (Inv0 Inv K : σ → Prop) (par : σ → P) (c : ℕ) (cand : (ℕ → α) → P) : Prop where
  draw : ∀ s f, Inv0 s → K s → ∃ s', D.setUp s f = some (s', from_ f c) ∧ K s' ∧ par s' = cand f
  uses : ∀ f g, (∀ i < c, f i = g i) → cand f = cand g
  seed_keep : ∀ s, K s → K (D.seedOne s)
  gen_keep : ∀ s, K s → K (D.gen.generate s).1
  seed_out : ∀ s t, Inv s → Inv t → par s = par t → ∀ k, outAt D.gen (D.seedOne s) k = outAt D.gen (D.seedOne t) k

theorem keep_stateAt {D : SearchOps σ (ℕ → α) w} {Inv0 Inv K : σ → Prop} {par : σ → P} {c : ℕ}
    {cand : (ℕ → α) → P} (h : Draws D Inv0 Inv K par c cand) {s : σ} (hs : K s) (k : ℕ) : K (stateAt D.gen s k) := by
  induction k with
  | zero => exact hs
  | succ k ih => exact h.gen_keep _ ih

/-- The loop of a search, as the theorems on it describe one turn: it draws set after set and stops at the first that
`A` holds of. -/
theorem first_turns {τ : Type} (turn : τ → Res τ) (loop : ℕ → τ → Res τ) (ok : τ → (ℕ → α) → ℕ → Prop)
    (A : (ℕ → α) → Prop) (Q : (ℕ → α) → τ → Prop) (c : ℕ)
    (h0 : ∀ st, loop 0 st = .ret false st)
    (h1 : ∀ n st st', turn st = .ret true st' → loop (n + 1) st = .ret true st')
    (h2 : ∀ n st st', turn st = .ret false st' → loop (n + 1) st = loop n st')
    (ht : ∀ st f k, ok st f k → ∃ b st', turn st = .ret b st' ∧ (b = true ↔ A f) ∧ ok st' (from_ f c) (k + 1) ∧
      (b = true → Q f st')) :
    ∀ (N : ℕ) (st : τ) (f : ℕ → α) (k : ℕ), ok st f k →
      (∀ m < N, A (from_ f (c * m)) → (∀ i < m, ¬ A (from_ f (c * i))) →
        ∃ st', loop N st = .ret true st' ∧ ok st' (from_ f (c * (m + 1))) (k + m + 1) ∧ Q (from_ f (c * m)) st') ∧
      ((∀ i < N, ¬ A (from_ f (c * i))) → ∃ st', loop N st = .ret false st' ∧ ok st' (from_ f (c * N)) (k + N)) := by
  intro N
  induction N with
  | zero =>
    intro st f k hok
    refine ⟨fun m hm => absurd hm (by omega), fun _ => ⟨st, h0 st, ?_⟩⟩
    rw [Nat.mul_zero, from_zero]
    exact hok
  | succ N ih =>
    intro st f k hok
    obtain ⟨b, st1, e1, e2, e3, e4⟩ := ht st f k hok
    obtain ⟨i1, i2⟩ := ih st1 (from_ f c) (k + 1) e3
    have hs : ∀ i, from_ (from_ f c) (c * i) = from_ f (c * (i + 1)) := fun i => by
      rw [from_from, Nat.mul_succ, Nat.add_comm]
    have hz : from_ f (c * 0) = f := by rw [Nat.mul_zero, from_zero]
    constructor
    · intro m hm hA hno
      cases m with
      | zero =>
        rw [hz] at hA
        have hb := e2.2 hA
        subst hb
        refine ⟨st1, h1 N st st1 e1, ?_, ?_⟩
        · rw [show c * (0 + 1) = c by omega]
          exact e3
        · rw [hz]
          exact e4 rfl
      | succ m =>
        have hb : b = false := by
          have := hno 0 (by omega)
          rw [hz, ← e2] at this
          simpa using this
        subst hb
        obtain ⟨st', j1, j2, j3⟩ := i1 m (by omega) (by rw [hs]; exact hA) fun i hi => by
          rw [hs]
          exact hno (i + 1) (by omega)
        rw [hs] at j2 j3
        exact ⟨st', (h2 N st st1 e1).trans j1, by rw [show k + (m + 1) + 1 = k + 1 + m + 1 by omega]; exact j2, j3⟩
    · intro hno
      have hb : b = false := by
        have := hno 0 (by omega)
        rw [hz, ← e2] at this
        simpa using this
      subst hb
      obtain ⟨st', j1, j2⟩ := i2 fun i hi => by
        rw [hs]
        exact hno (i + 1) (by omega)
      rw [hs] at j2
      exact ⟨st', (h2 N st st1 e1).trans j1, by rw [show k + (N + 1) = k + 1 + N by omega]; exact j2⟩

variable [Module.Finite (ZMod 2) S] {D : SearchOps σ (ℕ → α) w} {Inv K : σ → Prop} {par : σ → P} {den : σ → S}
  {T : P → S →ₗ[ZMod 2] S} {O : P → S →ₗ[ZMod 2] V} {mps : MPS}
  {prim : ℕ → (ZMod 2)[X] → Option Bool} {c : ℕ} {cand : (ℕ → α) → P}

/-- Parameters `p` qualify: every non-zero state has the period `2^n - 1`, and after `seed(1)` some output is odd. -/
def Qualifies (D : SearchOps σ (ℕ → α) w) (Inv : σ → Prop) (par : σ → P) (den : σ → S) (p : P) : Prop :=
  MaxPeriod D Inv par den p D.gen.bitSize ∧
    ∃ s, Inv s ∧ par s = p ∧ ∃ i, (outAt D.gen (D.seedOne s) i).getLsbD 0 = true

/-- **C115.**  `start(N)`: if one of the next `N` parameter sets of the source qualifies, the call returns true and the
parameters left in the generator are those of the *first* one that does, number `m` (counted from 0); `m + 1` sets
have been counted and the next number taken from the source is number `c (m + 1)`.  If none qualifies it returns false
having counted `N` sets. -/
theorem start_first (hm : MinPolySeqSpec mps) (F : Family D Inv par den T O) (hprim : PrimOK prim D.gen.bitSize)
    (hD : Draws D Inv Inv K par c cand) (st : St σ (ℕ → α)) (hinv : Inv st.rand) (hK : K st.rand) (N : ℕ) :
    (∀ m < N, Qualifies D Inv par den (cand (from_ st.src (c * m))) →
      (∀ i < m, ¬ Qualifies D Inv par den (cand (from_ st.src (c * i)))) →
      ∃ st', start mps D prim N st = .ret true st' ∧ par st'.rand = cand (from_ st.src (c * m)) ∧
        st'.count = st.count + m + 1 ∧ st'.src = from_ st.src (c * (m + 1)) ∧ Inv st'.rand ∧ K st'.rand) ∧
    ((∀ i < N, ¬ Qualifies D Inv par den (cand (from_ st.src (c * i)))) →
      ∃ st', start mps D prim N st = .ret false st' ∧ st'.count = st.count + N ∧ st'.src = from_ st.src (c * N) ∧
        Inv st'.rand ∧ K st'.rand) := by
  have h := first_turns (tryOnce mps D prim) (start mps D prim)
    (fun st' f k => st'.src = f ∧ st'.count = k ∧ Inv st'.rand ∧ K st'.rand)
    (fun f => Qualifies D Inv par den (cand f)) (fun f st' => par st'.rand = cand f) c (fun st => rfl)
    (fun n st st' e => by simp only [start, e]) (fun n st st' e => by simp only [start, e])
    (fun st f k hok => by
      obtain ⟨rfl, rfl, k3, k4⟩ := hok
      obtain ⟨s', d1, d2, d3⟩ := hD.draw st.rand st.src k3 k4
      rcases tryOnce_correct hm F hprim st k3 with ⟨e, -⟩ | ⟨r, src, st', b, e1, e2, e3, e4, e5, e6, e7, e8, -⟩
      · rw [d1] at e
        cases e
      · rw [d1] at e1
        injection e1 with e1
        injection e1 with e1 e1'
        subst e1 e1'
        have hs' := F.setUp_inv _ _ _ _ k3 d1
        refine ⟨b, st', e2, e8.trans ?_, ⟨e4, e3, e6, ?_⟩, fun _ => e7.trans d3⟩
        · rw [d3]
          refine and_congr_right fun _ => ⟨fun h => ⟨s', hs', d3, h⟩, ?_⟩
          rintro ⟨t, t1, t2, i, t3⟩
          exact ⟨i, by rw [hD.seed_out s' t hs' t1 (d3.trans t2.symm)]; exact t3⟩
        · rw [e5]
          exact keep_stateAt hD (hD.seed_keep _ d2) _) N st st.src st.count ⟨rfl, rfl, hinv, hK⟩
  constructor
  · intro m hm' hA hno
    obtain ⟨st', j1, ⟨j2, j3, j4, j5⟩, j6⟩ := h.1 m hm' hA hno
    exact ⟨st', j1, j6, j3, j2, j4, j5⟩
  · intro hno
    obtain ⟨st', j1, j2, j3, j4, j5⟩ := h.2 hno
    exact ⟨st', j1, j3, j2, j4, j5⟩

/-- Parameters `p` have a large component: the lowest bit of the outputs after `seed(1)` satisfies a recurrence whose least
polynomial has an irreducible factor of degree `mexp`. -/
def HasLarge (D : SearchOps σ (ℕ → α) w) (Inv : σ → Prop) (par : σ → P) (mexp : ℕ) (p : P) : Prop :=
  ∃ s q g, Inv s ∧ par s = p ∧ IsSeqMinpoly q (bitAt D.gen (D.seedOne s) 0) ∧ Irreducible g ∧ g.natDegree = mexp ∧ g ∣ q

/-- **C115.**  `AlgorithmReducibleRecursionSearch::start(N)` for a class all of whose states are reachable and `mexp` more
than half of the number of state bits, as `start_first`: the first set with a large component is the one found. -/
theorem rStart_first (hm : MinPolySeqSpec mps) (F : Family D Inv par den T O) {mexp : ℕ} (hmexp : 1 ≤ mexp)
    (hbig : D.gen.bitSize < 2 * mexp) (hD : Draws D Inv Inv K par c cand) (st : RSt σ (ℕ → α)) (hinv : Inv st.rand)
    (hK : K st.rand) (N : ℕ) :
    (∀ m < N, HasLarge D Inv par mexp (cand (from_ st.src (c * m))) →
      (∀ i < m, ¬ HasLarge D Inv par mexp (cand (from_ st.src (c * i)))) →
      ∃ st', rStart mps D mexp N st = .ret true st' ∧ par st'.rand = cand (from_ st.src (c * m)) ∧
        st'.count = st.count + m + 1 ∧ st'.src = from_ st.src (c * (m + 1)) ∧ Inv st'.rand ∧ K st'.rand) ∧
    ((∀ i < N, ¬ HasLarge D Inv par mexp (cand (from_ st.src (c * i)))) →
      ∃ st', rStart mps D mexp N st = .ret false st' ∧ st'.count = st.count + N ∧ st'.src = from_ st.src (c * N) ∧
        Inv st'.rand ∧ K st'.rand) := by
  have h := first_turns (rTryOnce mps D mexp) (rStart mps D mexp)
    (fun st' f k => st'.src = f ∧ st'.count = k ∧ Inv st'.rand ∧ K st'.rand)
    (fun f => HasLarge D Inv par mexp (cand f)) (fun f st' => par st'.rand = cand f) c (fun st => rfl)
    (fun n st st' e => by simp only [rStart, e]) (fun n st st' e => by simp only [rStart, e])
    (fun st f k hok => by
      obtain ⟨rfl, rfl, k3, k4⟩ := hok
      obtain ⟨s', d1, d2, d3⟩ := hD.draw st.rand st.src k3 k4
      rcases rTryOnce_correct hm F hmexp st k3 with ⟨e, -⟩ | ⟨r, src, st', b, e1, e2, e3, e4, e5, e6, e7, e8, e9, e10⟩
      · rw [d1] at e
        cases e
      · rw [d1] at e1
        injection e1 with e1
        injection e1 with e1 e1'
        subst e1 e1'
        have hs' := F.setUp_inv _ _ _ _ k3 d1
        refine ⟨b, st', e2, ⟨fun hb => ?_, ?_⟩, ⟨e4, e3, e6, ?_⟩, fun _ => e7.trans d3⟩
        · obtain ⟨j1, j2, j3⟩ := e9 hb
          exact ⟨s', st'.poly, st'.irreducible, hs', d3, e8, j1, j2, j3⟩
        · rintro ⟨t, q, g, t1, t2, t3, t4, t5, t6⟩
          have hq : bitAt D.gen (D.seedOne t) 0 = bitAt D.gen (D.seedOne s') 0 := by
            funext i
            unfold bitAt
            rw [hD.seed_out s' t hs' t1 (d3.trans t2.symm)]
          rw [hq] at t3
          obtain rfl := e8.unique t3
          refine (e10 g t4 t5 t6 ?_).1
          obtain ⟨h1, h2, h3⟩ := charpoly_hyps (T (par s')) (den (D.seedOne s'))
          have hA : Ann (T (par s')).charpoly (bitAt D.gen (D.seedOne s') 0) := by
            rw [bitAt_eq (F.lin (par s')) ⟨F.seed_inv _ hs', F.seed_par _ hs'⟩ F.wpos]
            exact ann_outSeq _ _ h2
          have hd := F.dim
          have := natDegree_le_of_dvd (e8.2.2 _ hA) h1.ne_zero
          omega
        · rw [e5]
          exact keep_stateAt hD (hD.seed_keep _ d2) _) N st st.src st.count ⟨rfl, rfl, hinv, hK⟩
  constructor
  · intro m hm' hA hno
    obtain ⟨st', j1, ⟨j2, j3, j4, j5⟩, j6⟩ := h.1 m hm' hA hno
    exact ⟨st', j1, j6, j3, j2, j4, j5⟩
  · intro hno
    obtain ⟨st', j1, j2, j3, j4, j5⟩ := h.2 hno
    exact ⟨st', j1, j3, j2, j4, j5⟩

end MTT.Search

namespace MTT.Anni

open Polynomial PIS Search Parity

variable {σ κ S α : Type} {w : ℕ} [AddCommGroup S] [Module (ZMod 2) S]
  {R : ROps σ w} {setUp : σ → (ℕ → α) → Option (σ × (ℕ → α))} {seedOne : σ → σ} {Inv0 Inv K : σ → Prop} {par : σ → κ}
  {den : σ → S} {T : κ → S →ₗ[ZMod 2] S} {O : κ → S →ₗ[ZMod 2] V} {e : ℕ → S} {P : S →ₗ[ZMod 2] V} {mps : MPS}
  {c : ℕ} {cand : (ℕ → α) → κ}

/-- **C115.**  `rStart_first` for a class only part of whose states are reachable (`sfmt`, `dSFMT`). -/
theorem rStart_first (hm : MinPolySeqSpec mps) (F : RFamily R setUp seedOne Inv0 Inv par den T O e P)
    (hmexp : 1 ≤ R.mexp) (hbig : R.bitSize < 2 * R.mexp)
    (hD : Draws (dOps R setUp seedOne) Inv0 Inv K par c cand) (st : RSt σ (ℕ → α)) (hinv : Inv0 st.rand)
    (hK : K st.rand) (N : ℕ) :
    (∀ m < N, HasLarge (dOps R setUp seedOne) Inv par R.mexp (cand (from_ st.src (c * m))) →
      (∀ i < m, ¬ HasLarge (dOps R setUp seedOne) Inv par R.mexp (cand (from_ st.src (c * i)))) →
      ∃ st', rStart mps (dOps R setUp seedOne) R.mexp N st = .ret true st' ∧
        par st'.rand = cand (from_ st.src (c * m)) ∧ st'.count = st.count + m + 1 ∧
        st'.src = from_ st.src (c * (m + 1)) ∧ Inv0 st'.rand ∧ K st'.rand) ∧
    ((∀ i < N, ¬ HasLarge (dOps R setUp seedOne) Inv par R.mexp (cand (from_ st.src (c * i)))) →
      ∃ st', rStart mps (dOps R setUp seedOne) R.mexp N st = .ret false st' ∧ st'.count = st.count + N ∧
        st'.src = from_ st.src (c * N) ∧ Inv0 st'.rand ∧ K st'.rand) := by
  have h := first_turns (rTryOnce mps (dOps R setUp seedOne) R.mexp) (rStart mps (dOps R setUp seedOne) R.mexp)
    (fun st' f k => st'.src = f ∧ st'.count = k ∧ Inv0 st'.rand ∧ K st'.rand)
    (fun f => HasLarge (dOps R setUp seedOne) Inv par R.mexp (cand f)) (fun f st' => par st'.rand = cand f) c
    (fun st => rfl) (fun n st st' e => by simp only [rStart, e]) (fun n st st' e => by simp only [rStart, e])
    (fun st f k hok => by
      obtain ⟨rfl, rfl, k3, k4⟩ := hok
      obtain ⟨s', d1, d2, d3⟩ := hD.draw st.rand st.src k3 k4
      have d1' : setUp st.rand st.src = some (s', from_ st.src c) := d1
      rcases rTryOnce_red hm F hmexp st k3 with
        ⟨e, -⟩ | ⟨r, src, st', b, e1, e2, e3, e4, e5, e6, e7, e8, e9, e10, e11, e12⟩
      · rw [d1'] at e
        cases e
      · rw [d1'] at e1
        injection e1 with e1
        injection e1 with e1 e1'
        subst e1 e1'
        refine ⟨b, st', e2, ⟨fun hb => ?_, ?_⟩, ⟨e4, e3, F.weak _ e6, ?_⟩, fun _ => e7.trans d3⟩
        · obtain ⟨j1, j2, j3⟩ := e11 hb
          exact ⟨s', st'.poly, st'.irreducible, e5, d3, e10, j1, j2, j3⟩
        · rintro ⟨t, q, g, t1, t2, t3, t4, t5, t6⟩
          have hq : bitAt R.toGenOps (seedOne t) 0 = bitAt R.toGenOps (seedOne s') 0 := by
            funext i
            have ho : outAt R.toGenOps (seedOne s') i = outAt R.toGenOps (seedOne t) i :=
              hD.seed_out s' t e5 t1 (d3.trans t2.symm) i
            unfold Search.bitAt
            rw [ho]
          have t3' : IsSeqMinpoly q (bitAt R.toGenOps (seedOne t) 0) := t3
          rw [hq] at t3'
          obtain rfl := e10.unique t3'
          obtain ⟨p, p1, p2⟩ := exists_bitMinpoly F e5
          obtain rfl := e10.unique p1
          exact (e12 g t4 t5 t6 (by omega)).1
        · rw [e9]
          exact keep_stateAt hD (hD.seed_keep _ d2) _) N st st.src st.count ⟨rfl, rfl, hinv, hK⟩
  constructor
  · intro m hm' hA hno
    obtain ⟨st', j1, ⟨j2, j3, j4, j5⟩, j6⟩ := h.1 m hm' hA hno
    exact ⟨st', j1, j6, j3, j2, j4, j5⟩
  · intro hno
    obtain ⟨st', j1, j2, j3, j4, j5⟩ := h.2 hno
    exact ⟨st', j1, j3, j2, j4, j5⟩

end MTT.Anni
