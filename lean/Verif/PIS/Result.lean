import Verif.PIS.Correct
import Mathlib.LinearAlgebra.Dimension.Finite
import Mathlib.LinearAlgebra.FiniteDimensional.Basic
import Mathlib.LinearAlgebra.Dimension.Constructions
import Mathlib.Order.Bounds.Basic

/-!
# From the invariant of the PIS loop to dimensions of equidistribution (helper lemmas)
-/

namespace MTT.PIS

open Finset Polynomial

section
variable {S : Type} [AddCommGroup S] [Module (ZMod 2) S]

/-- `W` with transition `T` and output map `O` is `k`-dimensionally equidistributed with `v`-bit
accuracy: every sequence of `k` truncated output words is produced by some state in `W`.  (As the
output map is linear and `W` is a subspace, then every sequence is produced equally often; see
`MTT.PIS.uniform_of_equidist`.) -/
def Equidist (T : S →ₗ[ZMod 2] S) (O : S →ₗ[ZMod 2] V) (W : Submodule (ZMod 2) S) (v k : ℕ) : Prop :=
  ∀ a : ℕ → V, ∃ s ∈ W, ∀ t < k, ∀ i < v, O ((T ^ t) s) i = a t i

variable {T : S →ₗ[ZMod 2] S} {O : S →ₗ[ZMod 2] V}

theorem cyc_finrank {χ : (ZMod 2)[X]} (hχ : χ.Monic) {s0 : S} (h0 : aeval T χ s0 = 0) :
    cyc T s0 = Submodule.span (ZMod 2) (Set.range fun j : Fin χ.natDegree => (T ^ (j : ℕ)) s0) := by
  apply le_antisymm
  · apply Submodule.span_le.2
    rintro _ ⟨t, rfl⟩
    have h1 : (T ^ t) s0 = aeval T (X ^ t %ₘ χ) s0 := by
      have hmod := modByMonic_add_div (X ^ t : (ZMod 2)[X]) χ
      have := congrArg (fun p => aeval T p s0) hmod
      simp only [map_add, map_mul, LinearMap.add_apply, map_pow, aeval_X] at this
      rw [← this]
      rw [(Commute.all χ (X ^ t /ₘ χ)).map (aeval T) |>.eq, Module.End.mul_apply, h0, map_zero, add_zero]
    show (T ^ t) s0 ∈ _
    rw [h1]
    by_cases hd : χ.natDegree = 0
    · have h1' : χ = 1 := Polynomial.eq_one_of_monic_natDegree_zero hχ hd
      rw [h1', modByMonic_one]; simp
    · rw [aeval_eq_sum_range' (n := χ.natDegree) (natDegree_modByMonic_lt _ hχ (by
        intro h; apply hd; rw [h]; simp)), LinearMap.sum_apply]
      apply Submodule.sum_mem
      intro i hi
      rw [LinearMap.smul_apply]
      exact Submodule.smul_mem _ _ (Submodule.subset_span ⟨⟨i, mem_range.1 hi⟩, rfl⟩)
  · apply Submodule.span_le.2
    rintro _ ⟨t, rfl⟩
    exact Submodule.subset_span ⟨t, rfl⟩

/-- `k·v ≤ deg χ` whenever the generator is `k`-dimensionally equidistributed. -/
theorem equidist_bound {χ : (ZMod 2)[X]} (hχ : χ.Monic) {s0 : S} (h0 : aeval T χ s0 = 0)
    {v k : ℕ} (h : Equidist T O (cyc T s0) v k) : k * v ≤ χ.natDegree := by
  have hfin : Module.Finite (ZMod 2) (cyc T s0) := by
    rw [cyc_finrank hχ h0]
    exact Module.Finite.span_of_finite _ (Set.finite_range _)
  have hle : Module.finrank (ZMod 2) (cyc T s0) ≤ χ.natDegree := by
    rw [cyc_finrank hχ h0]
    have := finrank_range_le_card (R := ZMod 2) (fun j : Fin χ.natDegree => (T ^ (j : ℕ)) s0)
    rwa [Fintype.card_fin] at this
  let L : cyc T s0 →ₗ[ZMod 2] (Fin k × Fin v → ZMod 2) :=
    { toFun := fun s q => O ((T ^ (q.1 : ℕ)) s) q.2
      map_add' := by intro x y; funext q; simp
      map_smul' := by intro c x; funext q; simp }
  have hsurj : Function.Surjective L := by
    intro a
    obtain ⟨s, hs, hsa⟩ := h (fun t i => if ht : t < k then if hi : i < v then a (⟨t, ht⟩, ⟨i, hi⟩) else 0 else 0)
    refine ⟨⟨s, hs⟩, ?_⟩
    funext q
    have := hsa q.1 q.1.2 q.2 q.2.2
    simp only [q.1.2, q.2.2, dif_pos] at this
    exact this
  have h1 := LinearMap.finrank_le_finrank_of_surjective hsurj
  rw [Module.finrank_fintype_fun_eq_card, Fintype.card_prod, Fintype.card_fin, Fintype.card_fin] at h1
  omega
end

section
variable {σ S : Type} {w : ℕ} [AddCommGroup S] [Module (ZMod 2) S]
  {step : σ → σ × BitVec w} {addf : σ → σ → σ} {Inv : σ → Prop} {den : σ → S}
  {T : S →ₗ[ZMod 2] S} {O Om : S →ₗ[ZMod 2] V}

theorem minCount_aux (b : ℕ → Entry σ w) (n : ℕ) :
    (∀ i ≤ n, (List.range n).foldl
      (fun mn i => if mn > (b (i + 1)).count then (b (i + 1)).count else mn) (b 0).count ≤ (b i).count) ∧
    ∃ i ≤ n, (List.range n).foldl
      (fun mn i => if mn > (b (i + 1)).count then (b (i + 1)).count else mn) (b 0).count = (b i).count := by
  induction n with
  | zero =>
    refine ⟨fun i hi => ?_, 0, le_rfl, rfl⟩
    obtain rfl : i = 0 := by omega
    exact le_rfl
  | succ n ih =>
    rw [List.range_succ, List.foldl_append]
    simp only [List.foldl_cons, List.foldl_nil]
    obtain ⟨h1, i0, h2, h3⟩ := ih
    split
    · refine ⟨fun i hi => ?_, n + 1, le_rfl, rfl⟩
      rcases Nat.lt_or_ge n i with h | h
      · obtain rfl : i = n + 1 := by omega
        exact le_rfl
      · have := h1 i h; omega
    · refine ⟨fun i hi => ?_, i0, by omega, h3⟩
      rcases Nat.lt_or_ge n i with h | h
      · obtain rfl : i = n + 1 := by omega
        omega
      · exact h1 i h

theorem minCount_le (b : ℕ → Entry σ w) {m i : ℕ} (hi : i < m) : minCount b m ≤ (b i).count :=
  (minCount_aux b (m - 1)).1 i (by omega)

theorem minCount_eq (b : ℕ → Entry σ w) {m : ℕ} (hm : 0 < m) :
    ∃ i < m, minCount b m = (b i).count := by
  obtain ⟨i, hi, h⟩ := (minCount_aux b (m - 1)).2
  exact ⟨i, by omega, h⟩

theorem PInv.lead {s0 : S} {m : ℕ} {b : ℕ → Entry σ w} (h : PInv Inv den T Om s0 m b) :
    Lead (fun i => ser den T Om (b i)) (fun i => (b i).count) (fun i => bits (b i).next) m :=
  ⟨fun _ _ _ ht => eser_below T Om ht, fun _ _ => eser_at T Om, h.low⟩

theorem PInv.span' {s0 : S} {m : ℕ} {b : ℕ → Entry σ w} (h : PInv Inv den T Om s0 m b)
    (hz : (b m).zero = true) : gens (fun i => ser den T Om (b i)) m = Lat T Om s0 m := by
  rw [← h.span]
  apply le_antisymm
  · apply gens_le_gens
    intro i hi
    exact mem_gens' (fun i => ser den T Om (b i)) (by omega)
  · apply gens_le_gens
    intro i hi
    rcases Nat.lt_or_ge i m with h1 | h1
    · exact mem_gens' (fun i => ser den T Om (b i)) h1
    · obtain rfl : i = m := by omega
      rw [h.zero hz]; exact Submodule.zero_mem _

/-- The minimum of the counters is the dimension of equidistribution. -/
theorem PInv.result {s0 : S} {m : ℕ} (hm : 0 < m) {b : ℕ → Entry σ w}
    (h : PInv Inv den T ((mask m).comp O) s0 m b) (hz : (b m).zero = true) :
    IsGreatest {k | Equidist T O (cyc T s0) m k} (minCount b m) := by
  have hsp := h.span' hz
  constructor
  · intro a
    obtain ⟨f, hf, _, hfa⟩ := lead_lower h.lead (by
        intro f hf t i hi
        rw [hsp] at hf
        exact hf.2.1 t i hi) (minCount b m) (fun i hi => minCount_le b hi)
      (fun t => mask m (a (t - 1))) (by
        intro t i hi
        rw [mask_apply, if_neg (by omega)])
    rw [hsp] at hf
    obtain ⟨_, _, u, hu, hfu⟩ := hf
    refine ⟨u, hu, fun t ht i hi => ?_⟩
    have h1 := hfu t
    have h2 := hfa (t + 1) (by omega) (by omega)
    push_cast at h2
    rw [h1] at h2
    have := congrFun h2 i
    rw [LinearMap.comp_apply, mask_apply, if_pos hi, mask_apply, if_pos hi] at this
    exact this
  · intro k hk
    by_contra hlt
    push Not at hlt
    obtain ⟨i0, hi0, hmin⟩ := minCount_eq b hm
    obtain ⟨u, hu, hua⟩ := hk (fun t => if t = (b i0).count then bits (b i0).next else 0)
    let f : Ser := fun t => if t ≤ 0 then 0 else (mask m).comp O ((T ^ (t - 1).toNat) u)
    have hf : f ∈ gens (fun i => ser den T ((mask m).comp O) (b i)) m := by
      rw [hsp]
      refine ⟨⟨0, fun t ht => ?_⟩, fun t i hi => ?_, u, hu, fun t => ?_⟩
      · exact if_pos (by omega)
      · show (if t ≤ 0 then (0 : V) else _) i = 0
        split
        · rfl
        · rw [LinearMap.comp_apply, mask_apply, if_neg (by omega)]
      · show (if (t : ℤ) + 1 ≤ 0 then (0 : V) else _) = _
        rw [if_neg (by omega)]
        have : ((t : ℤ) + 1 - 1).toNat = t := by omega
        rw [this]
    have key : ∀ t : ℕ, t < k → f ((t : ℤ) + 1) = if t = (b i0).count then bits (b i0).next else 0 := by
      intro t ht
      show (if (t : ℤ) + 1 ≤ 0 then (0 : V) else _) = _
      rw [if_neg (by omega)]
      have : ((t : ℤ) + 1 - 1).toNat = t := by omega
      rw [this]
      funext i
      rw [LinearMap.comp_apply, mask_apply]
      split
      · rename_i hi; exact hua t ht i hi
      · rename_i hi
        split
        · exact ((h.mbound (show i0 ≤ m by omega)) i (by omega)).symm
        · rfl
    refine lead_upper h.lead hi0 hf ?_ ?_
    · intro t ht
      rcases lt_or_ge 0 t with h1 | h1
      · have : t = ((t - 1).toNat : ℤ) + 1 := by omega
        rw [this, key _ (by omega)]
        exact if_neg (by omega)
      · exact if_pos h1
    · rw [key _ (by omega), if_pos rfl]

/-- `get_equidist_main` on a basis satisfying the invariant. -/
theorem main_correct (h : StepLin step addf Inv den T ((mask m).comp O)) {B : ℕ} {χ : (ZMod 2)[X]}
    (hχ : χ.Monic) {s0 : S} (h0 : aeval T χ s0 = 0) (hB : χ.natDegree ≤ 2 * B + 1)
    {calc1pos : BitVec w → Int} (hc : IsCalc1pos calc1pos) (hm : 0 < m)
    {stateBitSize fuel : ℕ} (hs : χ.natDegree ≤ stateBitSize)
    (hfuel : m * ((m + 1) * χ.natDegree) + m + 1 ≤ fuel) {b : ℕ → Entry σ w}
    (hP : PInv Inv den T ((mask m).comp O) s0 m b) :
    ∃ b' k, getEquidistMain step addf B calc1pos stateBitSize fuel m b = .ok (b', k) ∧
      PInv Inv den T ((mask m).comp O) s0 m b' ∧ (b' m).zero = true ∧
      IsGreatest {k | Equidist T O (cyc T s0) m k} k := by
  obtain ⟨b', hok, hP', hz'⟩ := mainLoop_spec h hχ h0 hB hc fuel b (calc1pos (b m).next) hP (by
    cases hz : (b m).zero
    · right
      obtain ⟨q, hq, hlq⟩ := hc (b m).next (hP.nonzero hz)
      have hq' : q < m := by
        by_contra hh
        have h5 := hP.mbound le_rfl q (by omega)
        rw [hlq.1] at h5; exact one_ne_zero h5
      refine ⟨q, hq, hlq, rfl, ?_⟩
      have := Nat.mul_le_mul_left m (Nat.sub_le ((m + 1) * χ.natDegree) (Phi m b))
      omega
    · left; exact ⟨rfl, by omega⟩)
  have hres := hP'.result hm hz'
  refine ⟨b', minCount b' m, ?_, hP', hz', hres⟩
  unfold getEquidistMain
  rw [hok]
  simp only []
  rw [if_neg]
  have hb := equidist_bound hχ h0 hres.1
  rw [not_lt, Nat.le_div_iff_mul_le hm]
  omega

/-! ## The initial basis -/

theorem poly_part {n : ℕ → V} {m : ℕ} (hn : ∀ i < m, Low (n i) i) {e : ℕ → Ser}
    (he : ∀ i < m, e i = eser T Om 0 (n i) 0) (N : ℕ) :
    ∀ f : Ser, (∀ t i, m ≤ i → f t i = 0) → (∀ t : ℤ, 0 < t → f t = 0) →
      (∀ t : ℤ, t ≤ -N → f t = 0) → f ∈ gens e (m + 1) := by
  induction N with
  | zero =>
    intro f _ h1 h2
    have : f = 0 := by
      funext t
      rcases lt_or_ge 0 t with h | h
      · exact h1 t h
      · exact h2 t (by omega)
    rw [this]; exact Submodule.zero_mem _
  | succ N ih =>
    intro f hm h1 h2
    obtain ⟨α, hα⟩ := tri_span n m hn (f (-N)) (fun j hj => hm _ j hj)
    have hg : (∑ i ∈ range m, α i • shift N (e i)) ∈ gens e (m + 1) := by
      apply Submodule.sum_mem
      intro i hi
      have hi' := mem_range.1 hi
      exact Submodule.smul_mem _ _ (mem_gens e (by omega) N)
    have hval : ∀ t, (∑ i ∈ range m, α i • shift N (e i)) t = if t = -N then f (-N) else 0 := by
      intro t
      rw [Finset.sum_apply]
      split
      · rename_i ht
        rw [hα]
        apply sum_congr rfl
        intro i hi
        rw [Pi.smul_apply, shift_apply, he i (mem_range.1 hi)]
        unfold eser
        rw [if_neg (by push_cast; omega), if_pos (by push_cast; omega)]
      · rename_i ht
        apply sum_eq_zero
        intro i hi
        rw [Pi.smul_apply, shift_apply, he i (mem_range.1 hi)]
        unfold eser
        split
        · rw [smul_zero]
        · rw [if_neg (by push_cast; omega), map_zero, map_zero, smul_zero]
    have hd := ih (f - ∑ i ∈ range m, α i • shift N (e i)) (by
      intro t i hi
      rw [Pi.sub_apply, hval]
      split
      · rename_i ht; rw [ht, sub_self]; rfl
      · rw [sub_zero]; exact hm t i hi) (by
      intro t ht
      rw [Pi.sub_apply, hval, if_neg (by omega), h1 t ht, sub_zero]) (by
      intro t ht
      rw [Pi.sub_apply, hval]
      split
      · rename_i ht'; rw [ht', sub_self]
      · rw [sub_zero]; exact h2 t (by push_cast; omega))
    have := Submodule.add_mem _ hd hg
    rwa [sub_add_cancel] at this

theorem eser_zero_linear : IsLinearMap (ZMod 2) (fun u : S => eser T Om 0 0 u) where
  map_add u v := by
    funext t; rw [Pi.add_apply]; unfold eser
    split
    · simp
    · split <;> simp
  map_smul c u := by
    funext t; rw [Pi.smul_apply]; unfold eser
    split
    · simp
    · split <;> simp

theorem Om_mask_zero {m : ℕ} (u : S) {i : ℕ} (hi : m ≤ i) : (mask m).comp O u i = 0 := by
  rw [LinearMap.comp_apply, mask_apply, if_neg (by omega)]

theorem eser_coord {m : ℕ} {c : ℕ} {nx : V} {u : S} (hn : ∀ i, m ≤ i → nx i = 0) (t : ℤ) {i : ℕ}
    (hi : m ≤ i) : eser T ((mask m).comp O) c nx u t i = 0 := by
  unfold eser
  split
  · rfl
  · split
    · exact hn i hi
    · exact Om_mask_zero _ hi

theorem init_span {n : ℕ → V} {m : ℕ} (hn : ∀ i < m, Low (n i) i) {e : ℕ → Ser} {s0 : S}
    (he : ∀ i < m, e i = eser T ((mask m).comp O) 0 (n i) 0)
    (hem : e m = eser T ((mask m).comp O) 0 0 s0) :
    gens e (m + 1) = Lat T ((mask m).comp O) s0 m := by
  apply le_antisymm
  · apply gens_le (Lat_shift T _ s0 m)
    intro i hi
    rcases Nat.lt_or_ge i m with h1 | h1
    · rw [he i h1]
      refine ⟨⟨0, fun t ht => eser_below T _ (by push_cast; omega)⟩, fun t j hj => ?_, 0,
        Submodule.zero_mem _, fun t => ?_⟩
      · exact eser_coord (fun j hj => (hn i h1).2 j (by omega)) t hj
      · unfold eser
        rw [if_neg (by push_cast; omega), if_neg (by push_cast; omega)]
        simp
    · obtain rfl : i = m := by omega
      rw [hem]
      refine ⟨⟨0, fun t ht => eser_below T _ (by push_cast; omega)⟩, fun t j hj => ?_, s0,
        cyc_self T s0, fun t => ?_⟩
      · exact eser_coord (fun j hj => rfl) t hj
      · unfold eser
        rw [if_neg (by push_cast; omega), if_neg (by push_cast; omega)]
        congr 2; push_cast; congr 1; omega
  · -- every orbit series belongs to the span
    have hA : ∀ u ∈ cyc T s0, eser T ((mask m).comp O) 0 0 u ∈ gens e (m + 1) := by
      intro u hu
      have hle : cyc T s0 ≤ (gens e (m + 1)).comap (eser_zero_linear (T := T) (Om := (mask m).comp O)).mk' := by
        apply Submodule.span_le.2
        rintro _ ⟨j, rfl⟩
        show eser T ((mask m).comp O) 0 0 ((T ^ j) s0) ∈ gens e (m + 1)
        have h1 := mem_gens e (show m < m + 1 by omega) j
        have h2 := poly_part hn he (T := T) (Om := (mask m).comp O) j
          (eser T ((mask m).comp O) 0 0 ((T ^ j) s0) - shift j (e m)) (by
            intro t i hi
            rw [Pi.sub_apply, Pi.sub_apply, shift_apply, hem, eser_coord (nx := 0) (fun _ _ => rfl) _ hi,
              eser_coord (nx := 0) (fun _ _ => rfl) _ hi, sub_zero]) (by
            intro t ht
            rw [Pi.sub_apply, shift_apply, hem]
            unfold eser
            rw [if_neg (by push_cast; omega), if_neg (by push_cast; omega),
              if_neg (by push_cast; omega), if_neg (by push_cast; omega), ← Module.End.mul_apply,
              ← pow_add]
            have : (t - ((0 : ℕ) : ℤ) - 1).toNat + j = (t + j - ((0 : ℕ) : ℤ) - 1).toNat := by
              push_cast; omega
            rw [this, sub_self]) (by
            intro t ht
            rw [Pi.sub_apply, shift_apply, hem]
            unfold eser
            have hx : (if t < ((0 : ℕ) : ℤ) then (0 : V) else if t = ((0 : ℕ) : ℤ) then 0
                else (mask m).comp O ((T ^ (t - ((0 : ℕ) : ℤ) - 1).toNat) ((T ^ j) s0))) = 0 := by
              split
              · rfl
              · rw [if_pos (by push_cast; omega)]
            have hy : (if t + j < ((0 : ℕ) : ℤ) then (0 : V) else if t + j = ((0 : ℕ) : ℤ) then 0
                else (mask m).comp O ((T ^ (t + j - ((0 : ℕ) : ℤ) - 1).toNat) s0)) = 0 := by
              split
              · rfl
              · rw [if_pos (by push_cast; omega)]
            rw [hx, hy, sub_zero])
        have := Submodule.add_mem _ h2 h1
        rwa [sub_add_cancel] at this
      exact hle hu
    rintro f ⟨⟨N, hN⟩, hf, u, hu, hfu⟩
    have h2 := poly_part hn he (T := T) (Om := (mask m).comp O) (1 - N).toNat
      (f - eser T ((mask m).comp O) 0 0 u) (by
        intro t i hi
        rw [Pi.sub_apply, Pi.sub_apply, hf t i hi, eser_coord (nx := 0) (fun _ _ => rfl) _ hi, sub_zero]) (by
        intro t ht
        rw [Pi.sub_apply]
        have : t = ((t - 1).toNat : ℤ) + 1 := by omega
        rw [this, hfu]
        unfold eser
        rw [if_neg (by push_cast; omega), if_neg (by push_cast; omega)]
        have h3 : (((t - 1).toNat : ℤ) + 1 - ((0 : ℕ) : ℤ) - 1).toNat = (t - 1).toNat := by
          push_cast; omega
        rw [h3, sub_self]) (by
        intro t ht
        rw [Pi.sub_apply, hN t (by omega)]
        unfold eser
        split
        · rw [sub_zero]
        · rw [if_pos (by push_cast; omega), sub_zero])
    have := Submodule.add_mem _ h2 (hA u hu)
    rwa [sub_add_cancel] at this

end
end MTT.PIS
