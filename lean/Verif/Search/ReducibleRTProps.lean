import Verif.Search.ReducibleRT
import Verif.Search.ReducibleProps
import Verif.Anni.Search

/-!
# C77: the combined search for reducible generators
-/

namespace MTT.Search

open Polynomial PIS Parity Anni Finset

variable {σ π κ S : Type} {w : ℕ} [AddCommGroup S] [Module (ZMod 2) S] [Module.Finite (ZMod 2) S]
  {R : ROps σ w} {setUp : σ → π → Option (σ × π)} {seedOne : σ → σ} {Inv0 Inv : σ → Prop} {par : σ → κ}
  {den : σ → S} {T : κ → S →ₗ[ZMod 2] S} {O : κ → S →ₗ[ZMod 2] V} {e : ℕ → S} {P : S →ₗ[ZMod 2] V} {mps : MPS}

/-- What a tempering search may do to a generator: it changes neither the state nor the recursion, and hides no state that
was visible (tempering is invertible). -/
structure Tempers (Inv : σ → Prop) (par : σ → κ) (den : σ → S) (T : κ → S →ₗ[ZMod 2] S) (O : κ → S →ₗ[ZMod 2] V)
    (s t : σ) : Prop where
  inv : Inv t
  den_eq : den t = den s
  T_eq : T (par t) = T (par s)
  hide : ∀ x, O (par t) x = 0 ↔ O (par s) x = 0

omit [Module.Finite (ZMod 2) S] in
theorem Tempers.refl {s : σ} (h : Inv s) : Tempers Inv par den T O s s := ⟨h, rfl, rfl, fun _ => Iff.rfl⟩

omit [Module.Finite (ZMod 2) S] in
theorem Tempers.trans {s t u : σ} (h : Tempers Inv par den T O s t) (h' : Tempers Inv par den T O t u) :
    Tempers Inv par den T O s u :=
  ⟨h'.inv, h'.den_eq.trans h.den_eq, h'.T_eq.trans h.T_eq, fun x => (h'.hide x).trans (h.hide x)⟩

omit [Module.Finite (ZMod 2) S] in
theorem obs_hide {T : S →ₗ[ZMod 2] S} {O O' : S →ₗ[ZMod 2] V} (h : ∀ x, O' x = 0 ↔ O x = 0) (x : S) :
    obs T O' x = 0 ↔ obs T O x = 0 := by
  constructor
  · intro h0; funext t; exact (h _).1 (congrFun h0 t)
  · intro h0; funext t; exact (h _).2 (congrFun h0 t)

omit [Module.Finite (ZMod 2) S] in
/-- The component does not depend on the tempering. -/
theorem component_hide {T : S →ₗ[ZMod 2] S} {O O' : S →ₗ[ZMod 2] V} (h : ∀ x, O' x = 0 ↔ O x = 0) (f : (ZMod 2)[X])
    (s : S) : Component T O' f s = Component T O f s := by
  ext x
  constructor
  · rintro ⟨h1, h2⟩; exact ⟨h1, (obs_hide h _).1 h2⟩
  · rintro ⟨h1, h2⟩; exact ⟨h1, (obs_hide h _).2 h2⟩

omit [Module.Finite (ZMod 2) S] in
theorem map_hide {T : S →ₗ[ZMod 2] S} {O O' : S →ₗ[ZMod 2] V} (h : ∀ x, O' x = 0 ↔ O x = 0) {A B : Submodule (ZMod 2) S}
    (hAB : A.map (obs T O) = B.map (obs T O)) : A.map (obs T O') = B.map (obs T O') := by
  have key : ∀ A B : Submodule (ZMod 2) S, A.map (obs T O) = B.map (obs T O) → A.map (obs T O') ≤ B.map (obs T O') := by
    rintro A B hAB _ ⟨x, hx, rfl⟩
    have h1 : obs T O x ∈ B.map (obs T O) := hAB ▸ ⟨x, hx, rfl⟩
    obtain ⟨y, hy, hxy⟩ := h1
    refine ⟨y, hy, ?_⟩
    rw [← sub_eq_zero, ← map_sub] at hxy ⊢
    exact (obs_hide h _).2 hxy
  exact le_antisymm (key _ _ hAB) (key _ _ hAB.symm)

/-- What `getDelta()` says: `kv v` are the dimensions of equidistribution of the component of `f`, seen through the final
tempering, and `delta` is the sum of the defects with respect to `bitSize()` (not to `mexp`). -/
def IsDelta (T : S →ₗ[ZMod 2] S) (O : S →ₗ[ZMod 2] V) (f : (ZMod 2)[X]) (x : S) (w bitSize : ℕ) (delta : ℤ) : Prop :=
  ∃ kv : ℕ → ℕ, (∀ v, 1 ≤ v → v ≤ w → IsGreatest {k | Equidist T O (Component T O f x) v k} (kv v)) ∧
    delta = ∑ v ∈ Icc 1 w, ((bitSize / v : ℕ) - (kv v : ℤ))

/-- **C77.**  The part after the parity search: if `f` is a factor of the minimal polynomial of the outputs of the generator as the
parity search leaves it, the generator is reduced to the component of `f`, tempered, and measured. -/
theorem afterParity_correct (hm : MinPolySeqSpec mps) (F : RFamily R setUp seedOne Inv0 Inv par den T O e P)
    (hdim : Module.finrank (ZMod 2) S ≤ R.bitSize) {calc1pos : BitVec w → Int} (hc : IsCalc1pos calc1pos)
    {st1 st2 : σ → Option σ}
    (h1 : ∀ s, Inv s → ∃ t, st1 s = some t ∧ Tempers Inv par den T O s t)
    (h2 : ∀ s, Inv s → ∃ t, st2 s = some t ∧ Tempers Inv par den T O s t) (noLsb : Bool)
    {f : (ZMod 2)[X]} (hf : Irreducible f) (hd : 2 ≤ f.natDegree) {s : σ} (hs : Inv s)
    (hfac : OutputFactor R.toGenOps s f) {eqFuel : ℕ} (hfuel : w * ((w + 1) * f.natDegree) + w + 1 ≤ eqFuel)
    (veq0 : ℕ → ℕ) :
    ∃ t d, afterParity mps R.toGenOps calc1pos st1 st2 noLsb eqFuel veq0 s f = some (.ok (t, d)) ∧ Inv t ∧
      T (par t) = T (par s) ∧ IsDelta (T (par t)) (O (par t)) f (den s) w R.bitSize d := by
  have h := (F.red s hs).toLinGen
  obtain ⟨a, e1, e2, e3, e4⟩ := reducedCopy_spec hm h ⟨hs, rfl⟩ hdim hf hd hfac
  obtain ⟨μ, hμ, hμd, hμa⟩ := exists_outMinpoly h ⟨hs, rfl⟩ hdim
  have hle : f.natDegree ≤ R.bitSize := (natDegree_le_of_dvd (hfac μ hμa) hμ.1).trans hμd
  obtain ⟨b, b1, b2⟩ : ∃ b, (if noLsb then some a else st2 a) = some b ∧ Tempers Inv par den T O a b := by
    cases noLsb
    · obtain ⟨t, ht, hk⟩ := h2 a e2.1
      exact ⟨t, by simpa using ht, hk⟩
    · exact ⟨a, by simp, Tempers.refl e2.1⟩
  obtain ⟨t, t1, t2⟩ := h1 b b2.inv
  have ht := b2.trans t2
  have hT : T (par t) = T (par s) := by rw [ht.T_eq, e2.2]
  have hO : ∀ x, O (par t) x = 0 ↔ O (par s) x = 0 := fun x => by rw [ht.hide x, e2.2]
  have ht' := (F.red t ht.inv).toLinGen
  have hz : aeval shiftV f (obs (T (par t)) (O (par t)) (den t)) = 0 := by
    rw [aeval_obs, hT, ht.den_eq, obs_hide hO]
    exact e3
  obtain ⟨r, g1, g2, -, g4⟩ := getAllEquidist_correct (LinGen.obs ht') ⟨ht.inv, rfl⟩ (monic_of_ne hf.ne_zero) hz
    (show f.natDegree ≤ 2 * R.bitSize + 1 by omega) hle hc F.wpos le_rfl hfuel veq0
  refine ⟨t, r.sum, ?_, ht.inv, hT, fun v => r.veq (v - 1), fun v hv1 hv2 => ?_, g4⟩
  · unfold afterParity
    rw [e1]
    dsimp only
    rw [b1]
    dsimp only
    rw [t1]
    dsimp only
    rw [g1]
    rfl
  · have := g2 v hv1 hv2
    rw [← map_cyc, ht.den_eq, hT, ← map_hide hO e4, ← component_hide hO] at this
    rw [hT]
    simpa only [equidist_map] using this

/-- What is known when `search` returns `true`. -/
structure RRTGood (R : ROps σ w) (seedOne : σ → σ) (Inv : σ → Prop) (par : σ → κ) (den : σ → S)
    (T : κ → S →ₗ[ZMod 2] S) (O : κ → S →ₗ[ZMod 2] V) (e : ℕ → S) (o : RRTOut σ π w) : Prop where
  inv : Inv o.rand
  irr : Irreducible o.poly
  deg : o.poly.natDegree = R.mexp
  /-- `getIrreducibleFactor()` divides the minimal polynomial of the lowest output bit after `seed(1)`, with the recursion
  parameters of the result; and `delta` belongs to the component of it, seen through the final tempering. -/
  origin : ∃ r p, Inv r ∧ T (par r) = T (par o.rand) ∧ IsSeqMinpoly p (bitAt R.toGenOps (seedOne r) 0) ∧ o.poly ∣ p ∧
    IsDelta (T (par o.rand)) (O (par o.rand)) o.poly ((T (par r) ^ (2 * R.bitSize)) (den (seedOne r))) w R.bitSize o.delta
  weight : o.weight = ((Finset.range (R.mexp + 1)).filter fun i => o.poly.coeff i = 1).card
  parity_ne : o.parity ≠ 0
  parity : ∀ s, Inv s → T (par s) = T (par o.rand) → den s ∈ Q R.bitSize e (T (par o.rand)) o.poly →
    dot (R.getParity s) o.parity = 0

theorem rFindLoop_spec (hm : MinPolySeqSpec mps) (F : RFamily R setUp seedOne Inv0 Inv par den T O e P)
    (hmexp : 1 ≤ R.mexp) (hsrc : ∀ s src, Inv0 s → setUp s src ≠ none) (tries fuel : ℕ) (st : RSt σ π)
    (hinv : Inv0 st.rand) {r : Res (RSt σ π)}
    (hr : rFindLoop mps ⟨R.toGenOps, setUp, seedOne⟩ R.mexp tries fuel st = some r) :
    ∃ st', r = .ret true st' ∧ Hit R seedOne Inv par den e st'.irreducible st'.poly st'.rand := by
  induction fuel generalizing st with
  | zero => cases hr
  | succ fuel ih =>
    obtain ⟨b, st', i1, i2, -, -, i5⟩ := rStart_red hm F hmexp hsrc tries st hinv
    have i1' : rStart mps (⟨R.toGenOps, setUp, seedOne⟩ : SearchOps σ π w) R.mexp tries st = .ret b st' := i1
    rw [rFindLoop, i1'] at hr
    cases b with
    | false => exact ih st' i2 hr
    | true => exact ⟨st', (Option.some.inj hr).symm, i5 rfl⟩

/-- A polynomial that divides the minimal polynomial of the lowest bit is a factor for every later state, too. -/
theorem later_factor {s : σ} {f p : (ZMod 2)[X]} (hf : Irreducible f) (hX : ¬ f ∣ X)
    (hp : IsSeqMinpoly p (bitAt R.toGenOps s 0)) (hw : 0 < w) (hfp : f ∣ p) (m : ℕ) :
    OutputFactor R.toGenOps (stateAt R.toGenOps s m) f := by
  intro q hq
  have h1 : Ann (q * X ^ m) (bitAt R.toGenOps s 0) := by
    rw [ann_iff, map_mul, Module.End.mul_apply, map_pow, aeval_X]
    have h2 := ann_iff.1 (hq 0 hw)
    rw [show (shiftOp ^ m) (bitAt R.toGenOps s 0) = bitAt R.toGenOps (stateAt R.toGenOps s m) 0 from ?_]
    · exact h2
    · funext i
      rw [shiftOp_pow]
      unfold bitAt outAt
      rw [Nat.add_comm i m, stateAt_add]
  rcases hf.prime.dvd_or_dvd (hfp.trans (hp.2.2 _ h1)) with h | h
  · exact h
  · exact absurd (hf.prime.dvd_of_dvd_pow h) hX

/-- **C77.**  `AlgorithmReducibleRecursionAndTempering::search`, for every family of reducible linear generators whose
`setParityValue` leaves the state alone, every source of parameters that does not end, all tempering searches that only
temper: whenever it returns, it returns `true` (nothing undefined, no exception) and leaves a generator with the properties
`RRTGood`. -/
theorem rrtSearch_correct (hm : MinPolySeqSpec mps) {kernel : KernelFn} (hK : KernelSpec kernel)
    (F : RFamily R setUp seedOne Inv0 Inv par den T O e P) (hdim : Module.finrank (ZMod 2) S ≤ R.bitSize)
    (hmexp : 2 ≤ R.mexp) {W : WordOps w} (hW : WordsOK W)
    (hsrc : ∀ s src, Inv0 s → setUp s src ≠ none) {st1 st2 : σ → Option σ}
    (h1 : ∀ s, Inv s → ∃ t, st1 s = some t ∧ Tempers Inv par den T O s t)
    (h2 : ∀ s, Inv s → ∃ t, st2 s = some t ∧ Tempers Inv par den T O s t)
    (hset : ∀ v s, Inv s → Inv (R.setParity v s) ∧ par (R.setParity v s) = par s ∧ den (R.setParity v s) = den s)
    (hbase : R.bitSize - R.mexp < w) {N : ℕ}
    (hN : ∀ s, Inv s → ∀ x ∈ M R.bitSize e, x ≠ 0 → ∃ n ≤ N, P ((T (par s) ^ n) x) ≠ 0)
    (noLsb : Bool) {fuel parFuel eqFuel : ℕ} (hp : N < parFuel)
    (hfuel : w * ((w + 1) * R.mexp) + w + 1 ≤ eqFuel) (junk : BitVec w) (veq0 : ℕ → ℕ) {rand : σ} (src : π)
    (hinv : Inv0 rand) {res : RRTRes σ π w}
    (hres : rrtSearch mps kernel R W setUp seedOne st1 st2 noLsb fuel parFuel eqFuel junk veq0 rand src = some res) :
    ∃ o, res = .found o ∧ RRTGood R seedOne Inv par den T O e o := by
  unfold rrtSearch at hres
  cases hf : rFindLoop mps ⟨R.toGenOps, setUp, seedOne⟩ R.mexp (1000 * R.bitSize) fuel ⟨rand, src, 0, 0, 0⟩ with
  | none => rw [hf] at hres; cases hres
  | some r =>
    obtain ⟨st, rfl, H⟩ := rFindLoop_spec hm F (by omega) hsrc _ _ _ hinv hf
    rw [hf] at hres
    dsimp only at hres
    have hroot := H.root F (by omega)
    have hred := F.red _ H.inv
    obtain ⟨v, hv⟩ := searchParity_bounded hred hW hK H.irr H.deg hroot hbase
      (fun x hx hx0 => hN _ H.inv x (Q_le hred _ hx) hx0) hp junk ⟨H.inv, rfl⟩
    rw [hv] at hres
    dsimp only at hres
    obtain ⟨v1, -, v3⟩ := searchParity_vector hred hW hK H.irr H.deg hroot ⟨H.inv, rfl⟩ hv
    obtain ⟨s1, s2, s3⟩ := hset v _ H.inv
    obtain ⟨q, q1, q2, q3, q4⟩ := H.steps
    obtain ⟨i1, i2, i3⟩ := F.seed_inv q q1
    have hX := not_dvd_X (show 2 ≤ st.irreducible.natDegree by rw [H.deg]; exact hmexp)
    have hfac0 := later_factor H.irr hX q3 F.wpos H.dvd (2 * R.bitSize)
    rw [← q4] at hfac0
    have hfac : OutputFactor R.toGenOps (R.setParity v st.rand) st.irreducible := by
      intro p hp
      apply hfac0
      intro pos hpos
      have h3 := hp pos hpos
      rw [bitAt_eq hred.toLinGen ⟨s1, s2⟩ hpos, s3, ← bitAt_eq hred.toLinGen ⟨H.inv, rfl⟩ hpos] at h3
      exact h3
    obtain ⟨t, d, a1, a2, a3, a4⟩ := afterParity_correct hm F hdim hW.calc1pos h1 h2 noLsb H.irr (by rw [H.deg]; exact hmexp) s1
      hfac (eqFuel := eqFuel) (by rw [H.deg]; exact hfuel) veq0
    rw [a1] at hres
    refine ⟨_, (Option.some.inj hres).symm, a2, H.irr, H.deg, ⟨q, st.poly, q1, ?_, q3, H.dvd, ?_⟩, ?_, v1, ?_⟩
    · show T (par q) = T (par t)
      rw [a3, s2, q2]
    · have hden : den (R.setParity v st.rand) = (T (par q) ^ (2 * R.bitSize)) (den (seedOne q)) := by
        rw [s3]
        conv_lhs => rw [q4]
        exact (stateAt_spec (F.red q q1).toLinGen ⟨i1, i2⟩ _).2
      rw [← hden]
      exact a4
    · show polyWeight st.irreducible = _
      unfold polyWeight
      congr 1
      ext i
      rw [mem_support_iff, Finset.mem_filter, Finset.mem_range]
      have h01 : ∀ z : ZMod 2, z ≠ 0 ↔ z = 1 := by decide
      refine ⟨fun h => ⟨?_, (h01 _).1 h⟩, fun h => (h01 _).2 h.2⟩
      have := le_natDegree_of_ne_zero h
      rw [H.deg] at this
      omega
    · intro s hs hT hQ
      dsimp only at hT hQ ⊢
      rw [a3, s2] at hT hQ
      rw [dot_bits, (F.red s hs).parity s ⟨hs, rfl⟩ (Q_le hred _ hQ)]
      exact v3 _ hQ

end MTT.Search
