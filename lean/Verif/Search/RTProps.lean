import Verif.Search.RTModel
import Verif.Search.Orbit

/-!
# C57: the combined search for recursion and tempering parameters
-/

namespace MTT.Search

open Polynomial PIS

variable {σ π P S : Type} {w : ℕ} [AddCommGroup S] [Module (ZMod 2) S]
  [Module.Finite (ZMod 2) S] {D : SearchOps σ π w} {Inv : σ → Prop} {par : σ → P} {den : σ → S}
  {T : P → S →ₗ[ZMod 2] S} {O : P → S →ₗ[ZMod 2] V} {mps : MPS}
  {prim : ℕ → (ZMod 2)[X] → Option Bool}

theorem maxPeriod_of_charpoly (F : Family D Inv par den T O) {p : P}
    (h : Primitive2 (T p).charpoly D.gen.bitSize) : MaxPeriod D Inv par den p D.gen.bitSize := by
  intro s hs hpar h0 k
  rw [(stateAt_spec (F.lin p) ⟨hs, hpar⟩ k).2]
  exact period_of_primitive F.pos h (charpoly_hyps (T p) (den s)).2.1 h0 k

/-- What a tempering search does to a generator as far as the recursion is concerned: nothing. -/
structure Keeps (Inv : σ → Prop) (par : σ → P) (den : σ → S) (T : P → S →ₗ[ZMod 2] S) (s t : σ) : Prop where
  inv : Inv t
  den_eq : den t = den s
  T_eq : T (par t) = T (par s)

/-- One `start` in terms of the numbers drawn. -/
theorem start_ne (F : Family D Inv par den T O) (hm : MinPolySeqSpec mps)
    (hprim : PrimOK prim D.gen.bitSize) (n : ℕ) (st : St σ π) (hinv : Inv st.rand) :
    start mps D prim n st ≠ .undef ∧
      ∀ b st', start mps D prim n st = .ret b st' → Inv st'.rand := by
  induction n generalizing st with
  | zero => exact ⟨by simp [start], fun b st' h => by simp only [start] at h; injection h with _ e; exact e ▸ hinv⟩
  | succ n ih =>
    rcases tryOnce_correct hm F hprim st hinv with ⟨h1, h2⟩ | ⟨r, src, st1, b, h1, h2, h3, h4, -, h5, h6, h7, h8⟩
    · simp only [start, h2]
      exact ⟨by simp, fun b st' h => by cases h⟩
    · cases b with
      | true =>
        simp only [start, h2]
        exact ⟨by simp, fun b st' h => by injection h with _ e; exact e ▸ h5⟩
      | false =>
        simp only [start, h2]
        exact ih st1 h5

theorem findLoop_spec (F : Family D Inv par den T O) (hm : MinPolySeqSpec mps)
    (hprim : PrimOK prim D.gen.bitSize) (tries fuel : ℕ) (st : St σ π) (hinv : Inv st.rand)
    {r : Res (St σ π)} (hr : findLoop mps D prim tries fuel st = some r) :
    r ≠ .undef ∧ ∀ b st', r = .ret b st' → b = true ∧ Inv st'.rand ∧
      MaxPeriod D Inv par den (par st'.rand) D.gen.bitSize ∧
      st'.poly = (T (par st'.rand)).charpoly ∧ Primitive2 st'.poly D.gen.bitSize := by
  induction fuel generalizing st with
  | zero => cases hr
  | succ fuel ih =>
    obtain ⟨h1, h2⟩ := start_ne F hm hprim tries st hinv
    unfold findLoop at hr
    cases hs : start mps D prim tries st with
    | undef => exact absurd hs h1
    | threw st' =>
      rw [hs] at hr
      injection hr with e
      subst e
      exact ⟨by simp, fun b st' h => by cases h⟩
    | ret b st' =>
      rw [hs] at hr
      cases b with
      | false => exact ih st' (h2 _ _ hs) hr
      | true =>
        injection hr with e
        subst e
        refine ⟨by simp, fun b st'' h => ?_⟩
        injection h with e1 e2
        subst e1 e2
        exact ⟨rfl, h2 _ _ hs, start_max_period hm F hprim tries st st' hinv hs⟩

/-- **C57.**  Whenever `search` returns (it is never undefined, and can only return `true`): with the
parameters left in the generator every non-zero state has the maximal period; the stored polynomial is the
characteristic polynomial of the transition function of the *final* generator, is primitive, and `getWeight()`
is the number of its terms; `getDelta()` is the value `get_all_equidist` gives for the final generator. -/
theorem rtSearch_correct (hm : MinPolySeqSpec mps) (F : Family D Inv par den T O)
    (hprim : PrimOK prim D.gen.bitSize) {st1 st2 : σ → Option σ} {delta : σ → Option ℤ}
    (h1 : ∀ s, Inv s → ∃ t, st1 s = some t ∧ Keeps Inv par den T s t)
    (h2 : ∀ s, Inv s → ∃ t, st2 s = some t ∧ Keeps Inv par den T s t)
    (hd : ∀ s, Inv s → ∃ d, delta s = some d) (noLsb : Bool) (fuel : ℕ) (rand : σ) (src : π)
    (hinv : Inv rand) {res : RTRes σ π}
    (hres : rtSearch mps D prim st1 st2 delta noLsb fuel rand src = some res) :
    res = .threw ∨ ∃ o, res = .found o ∧ Inv o.rand ∧
      MaxPeriod D Inv par den (par o.rand) D.gen.bitSize ∧
      o.poly = (T (par o.rand)).charpoly ∧ Primitive2 o.poly D.gen.bitSize ∧
      o.weight = ((Finset.range (D.gen.bitSize + 1)).filter fun i => o.poly.coeff i = 1).card ∧
      delta o.rand = some o.delta := by
  unfold rtSearch at hres
  cases hf : findLoop mps D prim (1000 * D.gen.bitSize) fuel ⟨rand, src, 0, 0⟩ with
  | none => rw [hf] at hres; cases hres
  | some r =>
    rw [hf] at hres
    obtain ⟨e1, e2⟩ := findLoop_spec F hm hprim _ fuel _ hinv hf
    cases r with
    | undef => exact absurd rfl e1
    | threw st =>
      injection hres with e
      exact Or.inl e.symm
    | ret b st =>
      right
      obtain ⟨-, g1, g2, g3, g4⟩ := e2 b st rfl
      dsimp only at hres
      obtain ⟨t, ht, hk⟩ : ∃ t, (if noLsb then some st.rand else st2 st.rand) = some t ∧
          Keeps Inv par den T st.rand t := by
        cases noLsb
        · obtain ⟨t, ht, hk⟩ := h2 _ g1
          exact ⟨t, by simpa using ht, hk⟩
        · exact ⟨st.rand, by simp, g1, rfl, rfl⟩
      obtain ⟨u, hu, hk'⟩ := h1 _ hk.inv
      obtain ⟨d, hdd⟩ := hd _ hk'.inv
      rw [ht] at hres
      dsimp only at hres
      rw [hu] at hres
      dsimp only at hres
      rw [hdd] at hres
      injection hres with e
      have hpoly : st.poly = (T (par u)).charpoly := by rw [hk'.T_eq, hk.T_eq]; exact g3
      refine ⟨_, e.symm, hk'.inv, maxPeriod_of_charpoly F (hpoly ▸ g4), hpoly, g4, ?_, hdd⟩
      show polyWeight st.poly = _
      unfold polyWeight
      congr 1
      ext i
      rw [mem_support_iff, Finset.mem_filter, Finset.mem_range]
      have h01 : ∀ z : ZMod 2, z ≠ 0 ↔ z = 1 := by decide
      refine ⟨fun h => ⟨?_, (h01 _).1 h⟩, fun h => (h01 _).2 h.2⟩
      have := le_natDegree_of_ne_zero h
      rw [g4.1] at this
      omega

/-! ### Details of a successful search -/

/-- Where an accepted generator comes from: parameters drawn from the source, `2n` steps after the seed. -/
structure Origin (D : SearchOps σ π w) (Inv : σ → Prop) (par : σ → P) (den : σ → S)
    (T : P → S →ₗ[ZMod 2] S) (st : St σ π) : Prop where
  inv : Inv st.rand
  from_setUp : ∃ q src r, Inv q ∧ D.setUp q src = some (r, st.src) ∧
    st.rand = stateAt D.gen (D.seedOne r) (2 * D.gen.bitSize) ∧ par st.rand = par r ∧ Inv r
  max : MaxPeriod D Inv par den (par st.rand) D.gen.bitSize
  poly : st.poly = (T (par st.rand)).charpoly
  prim : Primitive2 st.poly D.gen.bitSize

theorem start_origin (F : Family D Inv par den T O) (hm : MinPolySeqSpec mps)
    (hprim : PrimOK prim D.gen.bitSize) (n : ℕ) (st st' : St σ π) (hinv : Inv st.rand)
    (hret : start mps D prim n st = .ret true st') : Origin D Inv par den T st' := by
  obtain ⟨k1, k2, k3⟩ := start_max_period hm F hprim n st st' hinv hret
  rcases start_bookkeeping hm F hprim n st hinv with ⟨m, st1, a, g1, g2, g3, g4, g5, g6⟩ |
    ⟨b, g2, g3, g4, g5⟩ | ⟨m, b, g1, g2, g3, g4, g5, g6⟩
  · rw [g4] at hret
    have : a = st' := by injection hret
    subst this
    rcases tryOnce_correct hm F hprim st1 g6 with ⟨h1, h2⟩ |
      ⟨r, src, st2, b, h1, h2, h3, h4, h9, h5, h6, h7, h8⟩
    · rw [h2] at g3; cases g3
    · rw [h2] at g3
      injection g3 with e1 e2
      subst e1 e2
      exact ⟨h5, ⟨_, _, r, g6, h4 ▸ h1, h9, h6, F.setUp_inv _ _ _ _ g6 h1⟩, k1, k2, k3⟩
  · rw [g3] at hret; cases hret
  · rw [g4] at hret; cases hret

theorem findLoop_origin (F : Family D Inv par den T O) (hm : MinPolySeqSpec mps)
    (hprim : PrimOK prim D.gen.bitSize) (tries fuel : ℕ) (st : St σ π) (hinv : Inv st.rand)
    {b : Bool} {st' : St σ π} (hr : findLoop mps D prim tries fuel st = some (.ret b st')) :
    Origin D Inv par den T st' := by
  induction fuel generalizing st with
  | zero => cases hr
  | succ fuel ih =>
    obtain ⟨h1, h2⟩ := start_ne F hm hprim tries st hinv
    unfold findLoop at hr
    cases hs : start mps D prim tries st with
    | undef => exact absurd hs h1
    | threw st' => rw [hs] at hr; injection hr with e; cases e
    | ret b' st1 =>
      rw [hs] at hr
      cases b' with
      | false => exact ih st1 (h2 _ _ hs) hr
      | true =>
        injection hr with e
        injection e with e1 e2
        subst e2
        exact start_origin F hm hprim tries st _ hinv hs

/-- A source that never ends cannot stop the search. -/
theorem rtSearch_no_throw (F : Family D Inv par den T O) (hm : MinPolySeqSpec mps)
    (hprim : PrimOK prim D.gen.bitSize) (hsrc : ∀ s src, Inv s → D.setUp s src ≠ none)
    {st1 st2 : σ → Option σ} {delta : σ → Option ℤ} {noLsb : Bool} {fuel : ℕ} {rand : σ} {src : π}
    (hinv : Inv rand) : rtSearch mps D prim st1 st2 delta noLsb fuel rand src ≠ some .threw := by
  have key : ∀ fuel (st : St σ π), Inv st.rand → ∀ st', findLoop mps D prim (1000 * D.gen.bitSize) fuel st ≠
      some (.threw st') := by
    intro fuel
    induction fuel with
    | zero => intro st _ st' h; cases h
    | succ fuel ih =>
      intro st hst st' h
      obtain ⟨-, h2⟩ := start_ne F hm hprim (1000 * D.gen.bitSize) st hst
      unfold findLoop at h
      rcases start_bookkeeping hm F hprim (1000 * D.gen.bitSize) st hst with
        ⟨m, a, b, g1, g2, g3, g4, g5, g6⟩ | ⟨b, g2, g3, g4, g5⟩ | ⟨m, b, g1, g2, g3, g4, g5, g6⟩
      · rw [g4] at h; injection h with e; cases e
      · rw [g3] at h; exact ih b g5 st' h
      · exact hsrc _ _ g6 g3
  intro h
  unfold rtSearch at h
  cases hf : findLoop mps D prim (1000 * D.gen.bitSize) fuel ⟨rand, src, 0, 0⟩ with
  | none => rw [hf] at h; cases h
  | some r =>
    rw [hf] at h
    cases r with
    | undef => injection h with e; cases e
    | threw st => exact key _ _ hinv _ hf
    | ret b st =>
      dsimp only at h
      split at h
      · injection h with e; cases e
      · split at h
        · injection h with e; cases e
        · split at h
          · injection h with e; cases e
          · injection h with e; cases e

omit [Module.Finite (ZMod 2) S] in
/-- With the maximal period no state after a non-zero one is zero. -/
theorem stateAt_ne_zero (F : Family D Inv par den T O) {s : σ} (hs : Inv s)
    (hmax : MaxPeriod D Inv par den (par s) D.gen.bitSize) (h0 : den s ≠ 0) (k : ℕ) :
    den (stateAt D.gen s k) ≠ 0 := by
  intro h
  rw [(stateAt_spec (F.lin _) ⟨hs, rfl⟩ k).2] at h
  have hN := (hmax s hs rfl h0 ((2 ^ D.gen.bitSize - 1) * k)).2 (Dvd.intro _ rfl)
  rw [(stateAt_spec (F.lin _) ⟨hs, rfl⟩ _).2] at hN
  have h1 : 1 ≤ 2 ^ D.gen.bitSize - 1 := by
    have : 2 ^ 1 ≤ 2 ^ D.gen.bitSize := Nat.pow_le_pow_right (by omega) F.pos
    omega
  obtain ⟨j, hj⟩ : ∃ j, (2 ^ D.gen.bitSize - 1) * k = j + k := ⟨(2 ^ D.gen.bitSize - 1) * k - k, by
    have := Nat.mul_le_mul_right k h1; omega⟩
  rw [hj, pow_add, Module.End.mul_apply, h, map_zero] at hN
  exact h0 hN.symm

/-- **C57**, with the intermediate generators. -/
theorem rtSearch_parts (hm : MinPolySeqSpec mps) (F : Family D Inv par den T O)
    (hprim : PrimOK prim D.gen.bitSize) {st1 st2 : σ → Option σ} {delta : σ → Option ℤ}
    (h1 : ∀ s, Inv s → ∃ t, st1 s = some t ∧ Inv t) (h2 : ∀ s, Inv s → ∃ t, st2 s = some t ∧ Inv t)
    (hd : ∀ s, Inv s → ∃ d, delta s = some d) (noLsb : Bool) (fuel : ℕ) (rand : σ) (src : π)
    (hinv : Inv rand) {res : RTRes σ π}
    (hres : rtSearch mps D prim st1 st2 delta noLsb fuel rand src = some res) :
    res = .threw ∨ ∃ st t u d, Origin D Inv par den T st ∧
      (if noLsb then some st.rand else st2 st.rand) = some t ∧ Inv t ∧ st1 t = some u ∧ Inv u ∧
      delta u = some d ∧ res = .found ⟨u, st.src, st.poly, polyWeight st.poly, d⟩ := by
  unfold rtSearch at hres
  cases hf : findLoop mps D prim (1000 * D.gen.bitSize) fuel ⟨rand, src, 0, 0⟩ with
  | none => rw [hf] at hres; cases hres
  | some r =>
    rw [hf] at hres
    obtain ⟨e1, e2⟩ := findLoop_spec F hm hprim _ fuel _ hinv hf
    cases r with
    | undef => exact absurd rfl e1
    | threw st => injection hres with e; exact Or.inl e.symm
    | ret b st =>
      right
      have ho := findLoop_origin F hm hprim _ fuel _ hinv hf
      dsimp only at hres
      obtain ⟨t, ht, hk⟩ : ∃ t, (if noLsb then some st.rand else st2 st.rand) = some t ∧ Inv t := by
        cases noLsb
        · obtain ⟨t, ht, hk⟩ := h2 _ ho.inv
          exact ⟨t, by simpa using ht, hk⟩
        · exact ⟨st.rand, by simp, ho.inv⟩
      obtain ⟨u, hu, hk'⟩ := h1 _ hk
      obtain ⟨d, hdd⟩ := hd _ hk'
      rw [ht] at hres
      dsimp only at hres
      rw [hu] at hres
      dsimp only at hres
      rw [hdd] at hres
      injection hres with e
      exact ⟨st, t, u, d, ho, ht, hk, hu, hk', hdd, e.symm⟩

/-- The number of terms of a polynomial over GF(2). -/
theorem polyWeight_eq {p : (ZMod 2)[X]} {n : ℕ} (hp : p.natDegree = n) :
    polyWeight p = ((Finset.range (n + 1)).filter fun i => p.coeff i = 1).card := by
  unfold polyWeight
  congr 1
  ext i
  rw [mem_support_iff, Finset.mem_filter, Finset.mem_range]
  have h01 : ∀ z : ZMod 2, z ≠ 0 ↔ z = 1 := by decide
  refine ⟨fun h => ⟨?_, (h01 _).1 h⟩, fun h => (h01 _).2 h.2⟩
  have := le_natDegree_of_ne_zero h
  omega

/-- The search draws parameters before it does anything else, so that it does not depend on what `setUpParam`
overwrites. -/
theorem rtSearch_congr {st1 st2 : σ → Option σ} {delta : σ → Option ℤ} {s s' : σ}
    (h : ∀ src, D.setUp s src = D.setUp s' src) (hb : 1 ≤ D.gen.bitSize) (noLsb : Bool) (fuel : ℕ) (src : π) :
    rtSearch mps D prim st1 st2 delta noLsb fuel s src = rtSearch mps D prim st1 st2 delta noLsb fuel s' src := by
  obtain ⟨m, hm⟩ : ∃ m, 1000 * D.gen.bitSize = m + 1 := ⟨1000 * D.gen.bitSize - 1, by omega⟩
  have key : ∀ s, findLoop mps D prim (1000 * D.gen.bitSize) fuel ⟨s, src, 0, 0⟩ =
      match fuel with
      | 0 => none
      | fuel + 1 => match D.setUp s src with
        | none => some (.threw ⟨s, src, 0, 0⟩)
        | some (r, src') => findLoop mps D prim (1000 * D.gen.bitSize) (fuel + 1) ⟨s, src, 0, 0⟩ := by
    intro s
    cases fuel with
    | zero => rfl
    | succ fuel =>
      cases hs : D.setUp s src with
      | none =>
        dsimp only
        rw [findLoop, hm, start, tryOnce]
        simp only [hs]
      | some q => rfl
  cases fuel with
  | zero => unfold rtSearch; rw [findLoop, findLoop]
  | succ fuel =>
    cases hs : D.setUp s src with
    | none =>
      have e1 := key s
      have e2 := key s'
      rw [← h src, hs] at e2
      rw [hs] at e1
      unfold rtSearch
      rw [e1, e2]
    | some q =>
      have e : findLoop mps D prim (1000 * D.gen.bitSize) (fuel + 1) ⟨s, src, 0, 0⟩ =
          findLoop mps D prim (1000 * D.gen.bitSize) (fuel + 1) ⟨s', src, 0, 0⟩ := by
        have et : tryOnce mps D prim ⟨s, src, 0, 0⟩ = tryOnce mps D prim ⟨s', src, 0, 0⟩ := by
          rw [tryOnce, tryOnce]
          simp only [← h src, hs]
        rw [findLoop, findLoop, hm, start, start, et]
      unfold rtSearch
      rw [e]

end MTT.Search
