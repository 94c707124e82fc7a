import Verif.Anni.Search

/-!
# The lowest output bit and the large component
-/

namespace MTT.Anni

open Polynomial PIS Search Parity

variable {σ S : Type} {w : ℕ} [AddCommGroup S] [Module (ZMod 2) S]

variable {R : ROps σ w} {Inv : σ → Prop} {den : σ → S} {T : S →ₗ[ZMod 2] S} {O : S →ₗ[ZMod 2] V} {e : ℕ → S}
  {P : S →ₗ[ZMod 2] V}

/-- The small part is what the cofactor annihilates. -/
theorem mem_Q_iff (h : RedGen R Inv den T O e P) {f q : (ZMod 2)[X]} (hcop : IsCoprime f q)
    (hann : ∀ x ∈ M R.bitSize e, aeval T (f * q) x = 0) {x : S} (hx : x ∈ M R.bitSize e) :
    x ∈ Q R.bitSize e T f ↔ aeval T q x = 0 := by
  constructor
  · rintro ⟨y, hy, rfl⟩
    rw [← Module.End.mul_apply, ← map_mul, mul_comm]
    exact hann y hy
  · intro hq
    obtain ⟨a, b, hab⟩ := hcop
    refine ⟨aeval T a x, aeval_M h a hx, ?_⟩
    rw [← Module.End.mul_apply, ← map_mul, mul_comm]
    have h4 : aeval T (a * f + b * q) x = x := by rw [hab, map_one]; rfl
    rw [map_add, LinearMap.add_apply, map_mul _ b q, Module.End.mul_apply, hq, map_zero, add_zero] at h4
    exact h4

/-- A polynomial of smaller degree does not annihilate a non-zero vector that `f` annihilates. -/
theorem aeval_ne_zero {f : (ZMod 2)[X]} (hf : Irreducible f) {y : S} (hy : aeval T f y = 0) (hy0 : y ≠ 0)
    {r : (ZMod 2)[X]} (hr : r.degree < f.natDegree) (h : aeval T r y = 0) : r = 0 := by
  by_contra hr0
  have hnd : ¬ f ∣ r := fun hd => by
    have h1 := natDegree_le_of_dvd hd hr0
    rw [degree_eq_natDegree hr0, Nat.cast_lt] at hr
    omega
  obtain ⟨a, b, hab⟩ := hf.coprime_iff_not_dvd.2 hnd
  have h1 : aeval T (a * f + b * r) y = 0 := by
    rw [map_add, map_mul, map_mul, LinearMap.add_apply, Module.End.mul_apply, Module.End.mul_apply, hy, h,
      map_zero, map_zero, add_zero]
  rw [hab, map_one, Module.End.one_apply] at h1
  exact hy0 h1

/-- If there is no room for two components, a functional that does not see one vector of the component sees none. -/
theorem unseen (h : RedGen R Inv den T O e P) {f : (ZMod 2)[X]} (hf : Irreducible f) (hbig : R.bitSize < 2 * f.natDegree)
    (c : S →ₗ[ZMod 2] ZMod 2) {y z : S} (hyM : y ∈ M R.bitSize e) (hzM : z ∈ M R.bitSize e) (hy : aeval T f y = 0)
    (hz : aeval T f z = 0) (hy0 : y ≠ 0) (hc : outSeq T c y = 0) : outSeq T c z = 0 := by
  by_contra hcz
  have := M_finite R.bitSize e
  have hz0 : z ≠ 0 := by rintro rfl; exact hcz (map_zero _)
  let D := degreeLT (ZMod 2) f.natDegree
  let φ : S → (D →ₗ[ZMod 2] S) := fun y => (LinearMap.applyₗ y) ∘ₗ (aeval T).toLinearMap ∘ₗ D.subtype
  have hφ : ∀ y (r : D), φ y r = aeval T (r : (ZMod 2)[X]) y := fun _ _ => rfl
  let Ψ : D × D →ₗ[ZMod 2] M R.bitSize e := ((φ y).coprod (φ z)).codRestrict (M R.bitSize e) (by
    rintro ⟨r, s⟩
    rw [LinearMap.coprod_apply, hφ, hφ]
    exact Submodule.add_mem _ (aeval_M h _ hyM) (aeval_M h _ hzM))
  have hΨ : ∀ r s : D, (Ψ (r, s) : S) = aeval T (r : (ZMod 2)[X]) y + aeval T (s : (ZMod 2)[X]) z := fun _ _ => by
    show ((φ y).coprod (φ z)) _ = _
    rw [LinearMap.coprod_apply, hφ, hφ]
  have hinj : Function.Injective Ψ := by
    rw [← LinearMap.ker_eq_bot, LinearMap.ker_eq_bot']
    rintro ⟨r, s⟩ h0
    have h1 : aeval T (r : (ZMod 2)[X]) y + aeval T (s : (ZMod 2)[X]) z = 0 := by rw [← hΨ, h0]; rfl
    have hs : (s : (ZMod 2)[X]) = 0 := by
      by_contra hs0
      have hnd : ¬ f ∣ (s : (ZMod 2)[X]) := fun hd => by
        have h1 := natDegree_le_of_dvd hd hs0
        have h2 := mem_degreeLT.1 s.2
        rw [degree_eq_natDegree hs0, Nat.cast_lt] at h2
        omega
      obtain ⟨a, b, hab⟩ := hf.coprime_iff_not_dvd.2 hnd
      apply hcz
      have h3 : outSeq T c (aeval T (s : (ZMod 2)[X]) z) = 0 := by
        have := congrArg (outSeq T c) h1
        rwa [map_add, map_zero, ← aeval_outSeq, hc, map_zero, zero_add] at this
      have h2 : outSeq T c (aeval T (a * f + b * (s : (ZMod 2)[X])) z) = 0 := by
        rw [map_add, map_mul, map_mul, LinearMap.add_apply, Module.End.mul_apply, Module.End.mul_apply, hz, map_zero,
          zero_add, ← aeval_outSeq, h3, map_zero]
      rw [hab, map_one, Module.End.one_apply] at h2
      exact h2
    have hr : (r : (ZMod 2)[X]) = 0 := by
      rw [hs, map_zero, LinearMap.zero_apply, add_zero] at h1
      exact aeval_ne_zero hf hy hy0 (mem_degreeLT.1 r.2) h1
    exact Prod.ext (Subtype.ext hr) (Subtype.ext hs)
  have hD : Module.finrank (ZMod 2) D = f.natDegree := by
    rw [(degreeLTEquiv (ZMod 2) f.natDegree).finrank_eq, Module.finrank_fin_fun]
  have hfin : Module.Finite (ZMod 2) D := Module.Finite.equiv (degreeLTEquiv (ZMod 2) f.natDegree).symm
  have h5 := LinearMap.finrank_le_finrank_of_injective hinj
  rw [Module.finrank_prod, hD, finrank_M h] at h5
  omega

/-- If the lowest output bit of one state shows the component of `f`, then it shows it for exactly the states outside the
small part. -/
theorem dvd_iff (h : RedGen R Inv den T O e P) (hw : 0 < w) {f : (ZMod 2)[X]} (hf : Irreducible f)
    (hdeg : f.natDegree = R.mexp) (hmexp : 1 ≤ R.mexp) (hbig : R.bitSize < 2 * R.mexp) {s0 : σ} (hs0 : Inv s0)
    (hs0M : den s0 ∈ M R.bitSize e) {p0 : (ZMod 2)[X]} (hp0 : IsSeqMinpoly p0 (bitAt R.toGenOps s0 0)) (hfp : f ∣ p0)
    {s : σ} (hs : Inv s) (hsM : den s ∈ M R.bitSize e) {p : (ZMod 2)[X]} (hp : IsSeqMinpoly p (bitAt R.toGenOps s 0)) :
    f ∣ p ↔ den s ∉ Q R.bitSize e T f := by
  obtain ⟨q, c1, -, c3⟩ := exists_cofactor h hbig hf hdeg (exists_root h hw hs0 hs0M (by omega) hp0 hfp)
  have hfq : ¬ f ∣ q := hf.coprime_iff_not_dvd.1 c1
  have hkill : ∀ x ∈ M R.bitSize e, aeval T f (aeval T q x) = 0 := fun x hx => by
    rw [← Module.End.mul_apply, ← map_mul]; exact c3 x hx
  rw [mem_Q_iff h c1 c3 hsM]
  rw [bitAt_eq h.toLinGen hs hw] at hp
  rw [bitAt_eq h.toLinGen hs0 hw] at hp0
  constructor
  · intro hd hq
    exact hfq (hd.trans (hp.2.2 q (ann_outSeq _ _ hq)))
  · intro hq
    by_contra hnd
    obtain ⟨a, b, hab⟩ := hf.coprime_iff_not_dvd.2 hnd
    have hz : outSeq T (coord w 0 O) (aeval T q (den s)) = 0 := by
      have h1 : aeval shiftOp f (outSeq T (coord w 0 O) (aeval T q (den s))) = 0 := by
        rw [aeval_outSeq, hkill _ hsM, map_zero]
      have h2 : aeval shiftOp p (outSeq T (coord w 0 O) (aeval T q (den s))) = 0 := by
        rw [← aeval_outSeq, ← Module.End.mul_apply, ← map_mul, mul_comm, map_mul, Module.End.mul_apply,
          ann_iff.1 hp.2.1, map_zero]
      have h3 : aeval shiftOp (a * f + b * p) (outSeq T (coord w 0 O) (aeval T q (den s))) = 0 := by
        rw [map_add, map_mul, map_mul, LinearMap.add_apply, Module.End.mul_apply, Module.End.mul_apply, h1, h2,
          map_zero, map_zero, add_zero]
      rw [hab, map_one, Module.End.one_apply] at h3
      exact h3
    have h4 := unseen h hf (by omega) (coord w 0 O) (aeval_M h q hsM) (aeval_M h q hs0M) (hkill _ hsM) (hkill _ hs0M) hq hz
    refine hfq (hfp.trans (hp0.2.2 q ?_))
    rw [ann_iff, aeval_outSeq]
    exact h4

/-- The minimal polynomial of a state of the small part has a degree smaller than `mexp`. -/
theorem small_degree (h : RedGen R Inv den T O e P) (hw : 0 < w) {f : (ZMod 2)[X]} (hf : Irreducible f)
    (hdeg : f.natDegree = R.mexp) (hbig : R.bitSize < 2 * R.mexp)
    (hx : ∃ x ∈ M R.bitSize e, x ≠ 0 ∧ aeval T f x = 0)
    {s : σ} (hs : Inv s) (hsQ : den s ∈ Q R.bitSize e T f) {p : (ZMod 2)[X]}
    (hp : IsSeqMinpoly p (bitAt R.toGenOps s 0)) : p.natDegree < R.mexp := by
  obtain ⟨q, c1, c2, c3⟩ := exists_cofactor h hbig hf hdeg hx
  have hq := (mem_Q_iff h c1 c3 (Q_le h f hsQ)).1 hsQ
  rw [bitAt_eq h.toLinGen hs hw] at hp
  have hd := hp.2.2 q (ann_outSeq _ _ hq)
  have hq0 : q ≠ 0 := by
    rintro rfl
    exact hf.not_isUnit (isCoprime_zero_right.1 c1)
  rw [natDegree_mul hf.ne_zero hq0] at c2
  have := natDegree_le_of_dvd hd hq0
  omega

end MTT.Anni
