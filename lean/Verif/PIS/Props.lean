import Verif.PIS.All
import Mathlib.Data.Fintype.BigOperators
import Mathlib.Data.Fintype.Pi

/-!
# C22, C23, C24: the equidistribution calculation

Property theorems.  `Equidist` (in `Verif.PIS.Result`) is the specification: it speaks only of the
linear system `(T, O)` given by the contract `LinGen` and of the set of states that can be formed
from the iterates of the given generator.
-/

namespace MTT.PIS

open Finset Polynomial

variable {σ S : Type} {w : ℕ} [AddCommGroup S] [Module (ZMod 2) S]
  {G : GenOps σ w} {Inv : σ → Prop} {den : σ → S}
  {T : S →ₗ[ZMod 2] S} {O : S →ₗ[ZMod 2] V}

/-- **C22, C23, C24.**  For every generator satisfying the contract of a linear generator, every state
of it and every accuracy `1 ≤ bitLen ≤ w`: the calculation terminates (for any amount of fuel above the
explicit bound), no exception is thrown and no index leaves the basis array; `veq[v-1]` is the largest
`k` such that the generator is `k`-dimensionally equidistributed with `v`-bit accuracy, for every
`v = 1..bitLen`; other elements of the array are not touched; and the returned sum is the sum of the
dimension defects.  Hypotheses: `χ` annihilates the state and has degree at most `mexp`
(`stateBitSize`) and at most `2·bitSize()+1`. -/
theorem getAllEquidist_correct (h : LinGen G Inv den T O) {g : σ} (hg : Inv g)
    {χ : (ZMod 2)[X]} (hχ : χ.Monic) (h0 : aeval T χ (den g) = 0)
    (hB : χ.natDegree ≤ 2 * G.bitSize + 1) {stateBitSize : ℕ} (hs : χ.natDegree ≤ stateBitSize)
    {calc1pos : BitVec w → Int} (hc : IsCalc1pos calc1pos)
    {bitLen : ℕ} (h1 : 1 ≤ bitLen) (h2 : bitLen ≤ w) {fuel : ℕ}
    (hfuel : bitLen * ((bitLen + 1) * χ.natDegree) + bitLen + 1 ≤ fuel) (veq0 : ℕ → ℕ) :
    ∃ r, getAllEquidist G calc1pos g bitLen stateBitSize fuel veq0 = .ok r ∧
      (∀ v, 1 ≤ v → v ≤ bitLen →
        IsGreatest {k | Equidist T O (cyc T (den g)) v k} (r.veq (v - 1))) ∧
      (∀ j, bitLen ≤ j → r.veq j = veq0 j) ∧
      r.sum = ∑ v ∈ Icc 1 bitLen, ((stateBitSize / v : ℕ) - (r.veq (v - 1) : ℤ)) := by
  obtain ⟨n, rfl⟩ : ∃ n, bitLen = n + 1 := ⟨bitLen - 1, by omega⟩
  obtain ⟨b, k, hok, hP, hz, hk⟩ := main_correct (LinGen.stepLin h h1 h2) hχ h0 hB hc (by omega) hs
    hfuel (construct_PInv h hχ hg h0 hB h1 h2)
  have hmono : n * ((n + 1) * χ.natDegree) ≤ (n + 1) * ((n + 1 + 1) * χ.natDegree) :=
    Nat.mul_le_mul (by omega) (Nat.mul_le_mul_right _ (by omega))
  obtain ⟨r, e1, e2, e3, e4⟩ := allLoop_spec h hχ h0 hB hc (size := n + 1 + 1) (fuel := fuel) hs n b
    { veq := Function.update veq0 n k, sum := (stateBitSize / (n + 1) : Nat) - (k : Int) }
    (by omega) (by omega) (by omega) hP hz
  have hv : r.veq n = k := by rw [e3 n le_rfl]; exact Function.update_self _ _ _
  refine ⟨r, ?_, ?_, ?_, ?_⟩
  · unfold getAllEquidist
    rw [hok]
    exact e1
  · intro v hv1 hv2
    obtain ⟨j, rfl⟩ : ∃ j, v = j + 1 := ⟨v - 1, by omega⟩
    rw [Nat.add_sub_cancel]
    rcases Nat.lt_or_ge j n with h5 | h5
    · exact e2 j h5
    · obtain rfl : j = n := by omega
      rw [hv]; exact hk
  · intro j hj
    rw [e3 j (by omega)]
    exact Function.update_of_ne (by omega) _ _
  · rw [e4]
    have : ∑ v ∈ Icc 1 (n + 1), ((stateBitSize / v : ℕ) - (r.veq (v - 1) : ℤ))
        = ∑ j ∈ range (n + 1), ((stateBitSize / (j + 1) : ℕ) - (r.veq j : ℤ)) := by
      rw [range_eq_Ico, sum_Ico_eq_sum_range, ← Ico_succ_right_eq_Icc, sum_Ico_eq_sum_range]
      simp [add_comm]
    rw [this, sum_range_succ, hv]; ring

/-- **C22, C24** for `get_equidist(&sum)`: it returns `k(bitLen)`, and the sum of the defects of all
smaller accuracies `1..bitLen-1`. -/
theorem getEquidist_correct (h : LinGen G Inv den T O) {g : σ} (hg : Inv g)
    {χ : (ZMod 2)[X]} (hχ : χ.Monic) (h0 : aeval T χ (den g) = 0)
    (hB : χ.natDegree ≤ 2 * G.bitSize + 1) {stateBitSize : ℕ} (hs : χ.natDegree ≤ stateBitSize)
    {calc1pos : BitVec w → Int} (hc : IsCalc1pos calc1pos)
    {bitLen : ℕ} (h1 : 1 ≤ bitLen) (h2 : bitLen ≤ w) {fuel : ℕ}
    (hfuel : bitLen * ((bitLen + 1) * χ.natDegree) + bitLen + 1 ≤ fuel) :
    ∃ (k : ℕ) (sum : ℤ) (kv : ℕ → ℕ),
      getEquidist G calc1pos g bitLen stateBitSize fuel = .ok (k, sum) ∧
      IsGreatest {k | Equidist T O (cyc T (den g)) bitLen k} k ∧
      (∀ v, 1 ≤ v → v < bitLen → IsGreatest {k | Equidist T O (cyc T (den g)) v k} (kv v)) ∧
      sum = ∑ v ∈ Ico 1 bitLen, ((stateBitSize / v : ℕ) - (kv v : ℤ)) := by
  obtain ⟨n, rfl⟩ : ∃ n, bitLen = n + 1 := ⟨bitLen - 1, by omega⟩
  obtain ⟨b, k, hok, hP, hz, hk⟩ := main_correct (LinGen.stepLin h h1 h2) hχ h0 hB hc (by omega) hs
    hfuel (construct_PInv h hχ hg h0 hB h1 h2)
  have hmono : n * ((n + 1) * χ.natDegree) ≤ (n + 1) * ((n + 1 + 1) * χ.natDegree) :=
    Nat.mul_le_mul (by omega) (Nat.mul_le_mul_right _ (by omega))
  obtain ⟨r, e1, e2, e3, e4⟩ := allLoop_spec h hχ h0 hB hc (size := n + 1 + 1) (fuel := fuel) hs n b
    { veq := fun _ => 0, sum := 0 }
    (by omega) (by omega) (by omega) hP hz
  refine ⟨k, r.sum, fun v => r.veq (v - 1), ?_, hk, ?_, ?_⟩
  · unfold getEquidist
    rw [hok]
    simp only [Nat.add_sub_cancel]
    rw [e1]
  · intro v hv1 hv2
    obtain ⟨j, rfl⟩ : ∃ j, v = j + 1 := ⟨v - 1, by omega⟩
    exact e2 j (by omega)
  · rw [e4, sum_Ico_eq_sum_range]
    simp [add_comm]

/-- The dimension of equidistribution never exceeds the quotient `⌊deg χ / v⌋`, so every summand of the
sum of defects (with `stateBitSize ≥ deg χ`) is non-negative (**C24**). -/
theorem defect_nonneg {s0 : S} {χ : (ZMod 2)[X]} (hχ : χ.Monic) (h0 : aeval T χ s0 = 0)
    {n v k : ℕ} (hs : χ.natDegree ≤ n) (hv : 1 ≤ v)
    (hk : IsGreatest {k | Equidist T O (cyc T s0) v k} k) : (0 : ℤ) ≤ (n / v : ℕ) - (k : ℤ) := by
  have := equidist_bound hχ h0 hk.1
  have h2 : k ≤ n / v := by rw [Nat.le_div_iff_mul_le (by omega)]; omega
  omega

end MTT.PIS
