import Verif.SIMD.Loops

/-!
# C63: what `calc_SIMD_equidistribution` computes

`Eqd`, `EqdAll` (in `Verif.SIMD.Stream`) are the specification: they speak only of the words of the stream.
-/

namespace MTT.SIMD

open W128 PIS Polynomial Finset

variable {S : Type} [AddCommGroup S] [Module (ZMod 2) S] {T : S →ₗ[ZMod 2] S} {s0 : S}
  {σ : Type} {G : SIMDOps σ} {A : Alg} {lsb : Bool} {E L q : ℕ} {pos : ℕ → ℕ → ℕ} {x : ℕ → S →ₗ[ZMod 2] V}

/-- **C63.**  For every generator of blocks of `E` words of `L` bits (4 words of 32 bits, 2 of 64, or 2 of 52 for dSFMT) whose modes
behave as the contract `Mode` says, for every state of it: the calculation ends (for any amount of fuel above the
explicit bound) without an exception; for every `v` the element `veq[v-1]` is
`min_a max_b (E K(a + b) - (E - b))`, where `K(j)` is the greatest number of whole blocks of words, beginning with word
`j`, that are equidistributed with `v`-bit accuracy; the other elements are not touched; the number returned is the sum
of the defects `⌊mexp/v⌋ - veq[v-1]`. -/
theorem calcSIMD_formula (hl : Layout A lsb L E q pos) (H : Blocks x (cyc T s0) T E) {rand : σ}
    (hM : ∀ a < E, ∀ b, 1 ≤ b → b ≤ E → Mode G.gen L E pos
      (G.gen.generate (G.setWeight (q * b : ℕ) (G.setStart (q * a : ℕ) rand))).1 a b x T s0)
    {χ : (ZMod 2)[X]} (hχ : χ.Monic) (hc : aeval T χ s0 = 0) (hB : χ.natDegree ≤ G.gen.bitSize)
    {calc1pos : W128 → Int} (h1 : IsCalc1pos calc1pos) {fuel : ℕ} (hf : 128 * (129 * χ.natDegree) + 129 ≤ fuel)
    {mexp : ℕ} (hm : χ.natDegree ≤ mexp) (hm2 : mexp < 2 ^ 31) {bitLen : ℕ} (hbl : bitLen ≤ L) (veq0 : ℕ → ℤ) :
    ∃ veq sum, calcSIMD G A calc1pos fuel mexp bitLen rand veq0 = .ok (veq, sum) ∧
      (∀ v, 1 ≤ v → v ≤ bitLen → ∃ K : ℕ → ℕ,
        (∀ j, IsGreatest {k | Eqd (fun k => (flip L lsb).comp (x k)) (cyc T s0) v j (E * k)} (K j)) ∧
        IsLeast {r | ∃ a < E, IsGreatest {z : ℤ | ∃ b, 1 ≤ b ∧ b ≤ E ∧ z = (E : ℤ) * K (a + b) - ((E : ℤ) - b)} r}
          (veq (v - 1))) ∧
      (∀ j, bitLen ≤ j → veq j = veq0 j) ∧
      sum = ∑ v ∈ Icc 1 bitLen, (((mexp / v : ℕ) : ℤ) - veq (v - 1)) := by
  obtain ⟨K, hK⟩ := exists_K (y := fun k => (flip L lsb).comp (x k)) hl.pos hχ hc
  have hs := sLoop_spec hl H hM hχ hc hB h1 hf hm hbl hK (fun i => if i < bitLen then 2147483647 else veq0 i)
  unfold calcSIMD
  rw [hs]
  refine ⟨_, _, rfl, ?_, ?_, ?_⟩
  · intro v hv1 hv2
    refine ⟨K v, fun j => hK v j hv1, ?_⟩
    obtain ⟨i, rfl⟩ : ∃ i, v = i + 1 := ⟨v - 1, by omega⟩
    rw [Nat.add_sub_cancel, if_pos (show i < bitLen by omega), if_pos (show i < bitLen by omega)]
    obtain ⟨m1, m2⟩ := fold_min (fun a => best E (K (i + 1)) a) 2147483647 E
    have hle : best E (K (i + 1)) 0 ≤ 2147483647 := by
      obtain ⟨b, hb1, hb2, hb⟩ := (best_spec hl.pos (K (i + 1)) 0).1
      rw [hb]
      refine (part_le (H.flip L lsb) hχ hc hm hv1 hb2 (hK (i + 1) (0 + b) hv1).1).trans ?_
      have : mexp / (i + 1) ≤ mexp := Nat.div_le_self _ _
      omega
    constructor
    · rcases m2 with h | ⟨a, ha, h⟩
      · refine ⟨0, hl.pos, ?_⟩
        have := m1 0 hl.pos
        rw [h] at this ⊢
        rw [show (2147483647 : ℤ) = best E (K (i + 1)) 0 from le_antisymm this hle]
        exact best_spec hl.pos _ _
      · refine ⟨a, ha, ?_⟩
        rw [h]
        exact best_spec hl.pos _ _
    · rintro r ⟨a, ha, hr⟩
      rw [hr.unique (best_spec hl.pos (K (i + 1)) a)]
      exact m1 a ha
  · intro j hj
    show (if j < bitLen then _ else if j < bitLen then _ else veq0 j) = _
    rw [if_neg (by omega), if_neg (by omega)]
  · have : ∀ (w : ℕ → ℤ) (n : ℕ), (List.range n).foldl (fun (sum : ℤ) i => sum + (((mexp / (i + 1) : ℕ) : ℤ) - w i)) 0 =
        ∑ v ∈ Icc 1 n, (((mexp / v : ℕ) : ℤ) - w (v - 1)) := by
      intro w n
      induction n with
      | zero => rfl
      | succ n ih =>
        rw [List.range_succ, List.foldl_append, ih, Finset.sum_Icc_succ_top (by omega)]
        rfl
    exact this _ bitLen

/-- **C63**, the bounds: `veq[v-1]` never exceeds the dimension of equidistribution `k(v)` of the stream of words, and
falls short of it by less than the number `E` of words in a block.  (That it is `k(v)` is false: `underestimates`.) -/
theorem calcSIMD_bounds_partial (hl : Layout A lsb L E q pos) (H : Blocks x (cyc T s0) T E) {rand : σ}
    (hM : ∀ a < E, ∀ b, 1 ≤ b → b ≤ E → Mode G.gen L E pos
      (G.gen.generate (G.setWeight (q * b : ℕ) (G.setStart (q * a : ℕ) rand))).1 a b x T s0)
    {χ : (ZMod 2)[X]} (hχ : χ.Monic) (hc : aeval T χ s0 = 0) (hB : χ.natDegree ≤ G.gen.bitSize)
    {calc1pos : W128 → Int} (h1 : IsCalc1pos calc1pos) {fuel : ℕ} (hf : 128 * (129 * χ.natDegree) + 129 ≤ fuel)
    {mexp : ℕ} (hm : χ.natDegree ≤ mexp) (hm2 : mexp < 2 ^ 31) {bitLen : ℕ} (hbl : bitLen ≤ L) (veq0 : ℕ → ℤ) :
    ∃ veq sum, calcSIMD G A calc1pos fuel mexp bitLen rand veq0 = .ok (veq, sum) ∧
      (∀ v, 1 ≤ v → v ≤ bitLen → ∃ k : ℕ,
        IsGreatest {k | EqdAll (fun k => (flip L lsb).comp (x k)) (cyc T s0) v k} k ∧
        0 ≤ veq (v - 1) ∧ veq (v - 1) ≤ k ∧ (k : ℤ) < veq (v - 1) + E) ∧
      (∀ j, bitLen ≤ j → veq j = veq0 j) ∧
      sum = ∑ v ∈ Icc 1 bitLen, (((mexp / v : ℕ) : ℤ) - veq (v - 1)) := by
  obtain ⟨veq, sum, e1, e2, e3, e4⟩ := calcSIMD_formula hl H hM hχ hc hB h1 hf hm hm2 hbl veq0
  refine ⟨veq, sum, e1, fun v hv1 hv2 => ?_, e3, e4⟩
  obtain ⟨K, hK, ⟨a0, ha0, hr0⟩, hmin⟩ := e2 v hv1 hv2
  have HF := H.flip L lsb
  have hpos := hl.pos
  generalize veq (v - 1) = r at hr0 hmin
  generalize (fun k => (flip L lsb).comp (x k)) = y at hK HF
  -- a greatest `k` exists
  have hk : ∃ k, IsGreatest {k | EqdAll y (cyc T s0) v k} k := by
    classical
    refine ⟨Nat.findGreatest (fun k => EqdAll y (cyc T s0) v k) χ.natDegree, ?_, ?_⟩
    · exact Nat.findGreatest_spec (P := fun k => EqdAll y (cyc T s0) v k) (Nat.zero_le _) fun j => eqd_zero
    · intro k hk
      apply Nat.le_findGreatest _ hk
      refine le_trans ?_ (eqd_deg hχ hc (hk 0))
      exact Nat.le_mul_of_pos_right _ hv1
  obtain ⟨k, hk⟩ := hk
  have hpart : ∀ a b, 1 ≤ b → b ≤ E → ∀ n : ℕ, (n : ℤ) = (E : ℤ) * K (a + b) - ((E : ℤ) - b) → Eqd y (cyc T s0) v a n := by
    intro a b hb1 hb2 n hn
    apply HF.lower hb2 (hK (a + b)).1
    have : ((n + (E - b) : ℕ) : ℤ) = ((E * K (a + b) : ℕ) : ℤ) := by
      rw [Nat.cast_add, Nat.cast_sub hb2, hn, Nat.cast_mul]; ring
    omega
  have h0 : 0 ≤ r := by
    have := hr0.2 ⟨E, hpos, le_rfl, rfl⟩
    refine le_trans ?_ this
    rw [sub_self, sub_zero]
    positivity
  obtain ⟨n, rfl⟩ := Int.eq_ofNat_of_zero_le h0
  refine ⟨k, hk, h0, ?_, ?_⟩
  · have : EqdAll y (cyc T s0) v n := by
      rw [HF.eqdAll_iff hpos]
      intro a ha
      -- the number of this start mode is at least `n`
      have hbest := best_spec hpos K a
      have hle : (n : ℤ) ≤ best E K a := hmin ⟨a, ha, hbest⟩
      obtain ⟨b, hb1, hb2, hb⟩ := hbest.1
      obtain ⟨m, hm⟩ := Int.eq_ofNat_of_zero_le (h0.trans hle)
      have := hpart a b hb1 hb2 m (by rw [← hm, hb]; rfl)
      exact this.mono (by omega)
    have := hk.2 this
    exact_mod_cast this
  · -- whole blocks in `k` words
    have h2 : Eqd y (cyc T s0) v (a0 + E) (E * (k / E)) := (hk.1 (a0 + E)).mono (Nat.mul_div_le k E)
    have h3 : k / E ≤ K (a0 + E) := (hK (a0 + E)).2 h2
    have h4 := hr0.2 ⟨E, hpos, le_rfl, rfl⟩
    rw [sub_self, sub_zero] at h4
    have h5 : E * (k / E) ≤ n := by
      have : E * (k / E) ≤ E * K (a0 + E) := Nat.mul_le_mul_left _ h3
      have h6 : ((E * K (a0 + E) : ℕ) : ℤ) ≤ n := by rw [Nat.cast_mul]; exact h4
      have : E * K (a0 + E) ≤ n := by exact_mod_cast h6
      omega
    have h6 := Nat.div_add_mod k E
    have h7 := Nat.mod_lt k hpos
    have : k < n + E := by omega
    exact_mod_cast this

end MTT.SIMD
