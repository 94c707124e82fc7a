import Verif.SIMD.Props

/-!
# The numbers that the measurements deliver depend only on the set of states

`EqdSum` and `SimdSum` say what the sums are in terms of the words produced by the states of a subspace; each determines its
number.
-/

namespace MTT.SIMD

open W128 PIS Polynomial Finset

variable {S : Type} [AddCommGroup S] [Module (ZMod 2) S] {T : S →ₗ[ZMod 2] S} {s0 : S}
  {σ : Type} {G : SIMDOps σ} {A : Alg} {lsb : Bool} {E L q mexp v : ℕ} {pos : ℕ → ℕ → ℕ} {x : ℕ → S →ₗ[ZMod 2] V}
  {C : Submodule (ZMod 2) S}

/-- The sum of the defects `⌊mexp/v⌋ - k(v)`, `v = 1, …, L`. -/
def EqdSum (L mexp : ℕ) (x : ℕ → S →ₗ[ZMod 2] V) (C : Submodule (ZMod 2) S) (d : ℤ) : Prop :=
  ∃ k : ℕ → ℕ, (∀ v, 1 ≤ v → v ≤ L → IsGreatest {j | EqdAll x C v j} (k v)) ∧
    d = ∑ v ∈ Icc 1 L, (((mexp / v : ℕ) : ℤ) - k v)

/-- What `calc_SIMD_equidistribution` delivers for `v` bits: `min_a max_b (E K(a + b) - (E - b))`, where `K(j)` is the
greatest number of whole blocks of `E` words, beginning with word `j`, that are equidistributed. -/
def SimdVal (E : ℕ) (x : ℕ → S →ₗ[ZMod 2] V) (C : Submodule (ZMod 2) S) (v : ℕ) (z : ℤ) : Prop :=
  ∃ K : ℕ → ℕ, (∀ j, IsGreatest {k | Eqd x C v j (E * k)} (K j)) ∧
    IsLeast {r | ∃ a < E, IsGreatest {z : ℤ | ∃ b, 1 ≤ b ∧ b ≤ E ∧ z = (E : ℤ) * K (a + b) - ((E : ℤ) - b)} r} z

/-- The sum of the defects for these numbers, which are at most `k(v)` and short of it by less than `E`. -/
def SimdSum (E L mexp : ℕ) (x : ℕ → S →ₗ[ZMod 2] V) (C : Submodule (ZMod 2) S) (d : ℤ) : Prop :=
  ∃ (k : ℕ → ℕ) (m : ℕ → ℤ), (∀ v, 1 ≤ v → v ≤ L → IsGreatest {j | EqdAll x C v j} (k v) ∧
      0 ≤ m v ∧ m v ≤ k v ∧ (k v : ℤ) < m v + E ∧ SimdVal E x C v (m v)) ∧
    d = ∑ v ∈ Icc 1 L, (((mexp / v : ℕ) : ℤ) - m v)

theorem EqdSum.unique {d d' : ℤ} (h : EqdSum L mexp x C d) (h' : EqdSum L mexp x C d') : d = d' := by
  obtain ⟨k, h1, rfl⟩ := h
  obtain ⟨k', h1', rfl⟩ := h'
  refine sum_congr rfl fun v hv => ?_
  rw [mem_Icc] at hv
  rw [(h1 v hv.1 hv.2).unique (h1' v hv.1 hv.2)]

theorem SimdVal.unique {z z' : ℤ} (h : SimdVal E x C v z) (h' : SimdVal E x C v z') : z = z' := by
  obtain ⟨K, h1, h2⟩ := h
  obtain ⟨K', h1', h2'⟩ := h'
  have : K = K' := funext fun j => (h1 j).unique (h1' j)
  subst this
  exact h2.unique h2'

theorem SimdSum.unique {d d' : ℤ} (h : SimdSum E L mexp x C d) (h' : SimdSum E L mexp x C d') : d = d' := by
  obtain ⟨k, m, h1, rfl⟩ := h
  obtain ⟨k', m', h1', rfl⟩ := h'
  refine sum_congr rfl fun v hv => ?_
  rw [mem_Icc] at hv
  rw [(h1 v hv.1 hv.2).2.2.2.2.unique (h1' v hv.1 hv.2).2.2.2.2]

/-- Only the first `L` bits of the words matter. -/
theorem SimdSum.congr {y : ℕ → S →ₗ[ZMod 2] V} (hxy : ∀ k s b, b < L → x k s b = y k s b) {d : ℤ}
    (h : SimdSum E L mexp x C d) : SimdSum E L mexp y C d := by
  have key : ∀ v j k, v ≤ L → (Eqd x C v j k ↔ Eqd y C v j k) := by
    intro v j k hv
    unfold Eqd
    refine forall_congr' fun a => exists_congr fun s => and_congr_right fun _ => ?_
    refine forall_congr' fun i => imp_congr_right fun _ => forall_congr' fun b => imp_congr_right fun hb => ?_
    rw [hxy _ _ _ (by omega)]
  have keyA : ∀ v k, v ≤ L → (EqdAll x C v k ↔ EqdAll y C v k) := by
    intro v k hv
    unfold EqdAll
    exact forall_congr' fun j => key v j k hv
  obtain ⟨k, m, h1, h2⟩ := h
  refine ⟨k, m, fun v hv1 hv2 => ?_, h2⟩
  obtain ⟨a1, a2, a3, a4, K, a5, a6⟩ := h1 v hv1 hv2
  refine ⟨?_, a2, a3, a4, K, fun j => ?_, a6⟩
  · simpa only [keyA v _ hv2] using a1
  · simpa only [key v _ _ hv2] using a5 j

/-- **C63.**  The number returned by `calc_SIMD_equidistribution` for all bits. -/
theorem calcSIMD_sum (hl : Layout A lsb L E q pos) (H : Blocks x (cyc T s0) T E) {rand : σ}
    (hM : ∀ a < E, ∀ b, 1 ≤ b → b ≤ E → Mode G.gen L E pos
      (G.gen.generate (G.setWeight (q * b : ℕ) (G.setStart (q * a : ℕ) rand))).1 a b x T s0)
    {χ : (ZMod 2)[X]} (hχ : χ.Monic) (hc : aeval T χ s0 = 0) (hB : χ.natDegree ≤ G.gen.bitSize)
    {calc1pos : W128 → Int} (h1 : IsCalc1pos calc1pos) {fuel : ℕ} (hf : 128 * (129 * χ.natDegree) + 129 ≤ fuel)
    (hm : χ.natDegree ≤ mexp) (hm2 : mexp < 2 ^ 31) (veq0 : ℕ → ℤ) :
    ∃ veq sum, calcSIMD G A calc1pos fuel mexp L rand veq0 = .ok (veq, sum) ∧
      SimdSum E L mexp (fun k => (flip L lsb).comp (x k)) (cyc T s0) sum := by
  obtain ⟨veq, sum, e1, e2, -, e3⟩ := calcSIMD_bounds_partial hl H hM hχ hc hB h1 hf hm hm2 le_rfl veq0
  obtain ⟨veq', sum', f1, f2, -⟩ := calcSIMD_formula hl H hM hχ hc hB h1 hf hm hm2 le_rfl veq0
  have : (veq', sum') = (veq, sum) := by
    have := f1.symm.trans e1
    injection this
  rw [Prod.mk.injEq] at this
  obtain ⟨rfl, rfl⟩ := this
  refine ⟨veq', sum', e1, ?_⟩
  have hk : ∀ v, ∃ k : ℕ, 1 ≤ v → v ≤ L →
      IsGreatest {j | EqdAll (fun k => (flip L lsb).comp (x k)) (cyc T s0) v j} k ∧
        0 ≤ veq' (v - 1) ∧ veq' (v - 1) ≤ k ∧ (k : ℤ) < veq' (v - 1) + E := by
    intro v
    by_cases hv : 1 ≤ v ∧ v ≤ L
    · obtain ⟨k, hk⟩ := e2 v hv.1 hv.2
      exact ⟨k, fun _ _ => hk⟩
    · exact ⟨0, fun a b => absurd ⟨a, b⟩ hv⟩
  choose k hk using hk
  exact ⟨k, fun v => veq' (v - 1), fun v hv1 hv2 =>
    ⟨(hk v hv1 hv2).1, (hk v hv1 hv2).2.1, (hk v hv1 hv2).2.2.1, (hk v hv1 hv2).2.2.2, f2 v hv1 hv2⟩, e3⟩

end MTT.SIMD
