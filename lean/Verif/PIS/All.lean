import Verif.Spec.LinGen

/-!
# `adjust`, the constructor and `get_all_equidist` (helper lemmas)
-/

namespace MTT.PIS

open Finset Polynomial

section
variable {σ S : Type} {w : ℕ} [AddCommGroup S] [Module (ZMod 2) S]
  {G : GenOps σ w} {Inv : σ → Prop} {den : σ → S}
  {T : S →ₗ[ZMod 2] S} {O : S →ₗ[ZMod 2] V}

theorem LinGen.stepLin (h : LinGen G Inv den T O) {v : ℕ} (h1 : 1 ≤ v) (h2 : v ≤ w) :
    StepLin (G.generateV v) G.add Inv den T ((mask v).comp O) :=
  ⟨fun s hs => h.genV_inv v s h1 h2 hs, fun s hs => h.genV_den v s h1 h2 hs,
    fun s hs => h.genV_out v s h1 h2 hs, h.add_inv, h.add_den⟩

theorem bits_single {i : ℕ} (hi : i < w) :
    Low (bits (1#w <<< (w - i - 1))) i := by
  have : ∀ j, bits (1#w <<< (w - i - 1)) j = if j = i then 1 else 0 := by
    intro j
    unfold bits
    congr 1
    rw [BitVec.getMsbD_eq_getLsbD]
    simp only [BitVec.getLsbD_shiftLeft, BitVec.getLsbD_one, eq_iff_iff, Bool.and_eq_true,
      decide_eq_true_eq, Bool.not_eq_true', decide_eq_false_iff_not]
    constructor
    · intro h; omega
    · intro h; omega
  constructor
  · rw [this, if_pos rfl]
  · intro j hj; rw [this, if_neg (by omega)]

theorem bits_and_mask (u : BitVec w) {v : ℕ} (hv : v ≤ w) :
    bits (u &&& (BitVec.allOnes w <<< (w - v))) = mask v (bits u) := by
  funext i
  rw [mask_apply]
  unfold bits
  rw [BitVec.getMsbD_and]
  have : (BitVec.allOnes w <<< (w - v)).getMsbD i = decide (i < v) := by
    rw [BitVec.getMsbD_shiftLeft, BitVec.getMsbD_eq_getLsbD, BitVec.getLsbD_allOnes]
    by_cases h : i < v
    · simp [h]; omega
    · simp [h]; omega
  rw [this]
  by_cases h : i < v <;> simp [h]

/-- The constructor establishes the invariant. -/
theorem construct_PInv (h : LinGen G Inv den T O) {χ : (ZMod 2)[X]} (hχ : χ.Monic) {g : σ}
    (hg : Inv g) (h0 : aeval T χ (den g) = 0) (hB : χ.natDegree ≤ 2 * G.bitSize + 1) {m : ℕ}
    (h1 : 1 ≤ m) (h2 : m ≤ w) :
    PInv Inv den T ((mask m).comp O) (den g) m (construct G g m) := by
  have hst := LinGen.stepLin h h1 h2
  set e0 : Entry σ w := { rand := g, count := 0, zero := false, next := 0 } with he0
  have hs0 : ser den T ((mask m).comp O) e0 = eser T ((mask m).comp O) 0 0 (den g) := by
    unfold ser; rw [he0]; simp only []; rw [bits_zero]
  have hlt : ∀ i < m, construct G g m i =
      { rand := G.setZero g, count := 0, zero := false, next := 1#w <<< (w - i - 1) } := by
    intro i hi; unfold construct; rw [if_pos hi]
  have hm : construct G g m m = nextState (G.generateV m) G.bitSize e0 := by
    unfold construct; rw [if_neg (by omega)]
  have hser : ∀ i < m, ser den T ((mask m).comp O) (construct G g m i)
      = eser T ((mask m).comp O) 0 (bits (1#w <<< (w - i - 1))) 0 := by
    intro i hi; rw [hlt i hi]; unfold ser; simp only []; rw [h.zero_den g hg]
  have hlow : ∀ i < m, Low (bits (1#w <<< (w - i - 1))) i := fun i hi => bits_single (by omega)
  have hL0 : ser den T ((mask m).comp O) e0 ∈ Lat T ((mask m).comp O) (den g) m := by
    rw [hs0]
    have := init_span (T := T) (O := O) (s0 := den g) hlow
      (e := fun i => if i < m then eser T ((mask m).comp O) 0 (bits (1#w <<< (w - i - 1))) 0
        else eser T ((mask m).comp O) 0 0 (den g)) (fun i hi => if_pos hi) (if_neg (by omega))
    rw [← this]
    have h3 := mem_gens' (fun i => if i < m then eser T ((mask m).comp O) 0 (bits (1#w <<< (w - i - 1))) 0
        else eser T ((mask m).comp O) 0 0 (den g)) (show m < m + 1 by omega)
    simpa using h3
  obtain ⟨n1, n2, n3⟩ := nextState_spec hst hχ h0 hB e0 hg rfl rfl hL0
  refine ⟨?_, ?_, ?_, ?_, ?_, ?_⟩
  · intro i hi
    rcases Nat.lt_or_ge i m with h3 | h3
    · rw [hlt i h3]; exact h.zero_inv g hg
    · obtain rfl : i = m := by omega
      rw [hm]; exact n1
  · intro i hi; rw [hlt i hi]; exact hlow i hi
  · intro i hi; rw [hlt i hi]
  · rw [hm]; intro hz
    rcases n3 with ⟨a, _, _⟩ | ⟨_, _, a⟩
    · rw [a] at hz; exact absurd hz (by decide)
    · rw [n2]; exact a
  · rw [hm]; intro hz
    rcases n3 with ⟨_, a, _⟩ | ⟨a, _, _⟩
    · exact a
    · rw [a] at hz; exact absurd hz (by decide)
  · apply init_span hlow
    · exact hser
    · show ser den T ((mask m).comp O) (construct G g m m) = _
      rw [hm, n2, hs0]

/-- Apply `mask v` to all coefficients. -/
def smask (v : ℕ) : Ser →ₗ[ZMod 2] Ser where
  toFun f := fun t => mask v (f t)
  map_add' f g := by funext t; rw [Pi.add_apply, map_add]; rfl
  map_smul' c f := by funext t; rw [Pi.smul_apply, map_smul]; rfl

theorem smask_shift (v j : ℕ) (f : Ser) : smask v (shift j f) = shift j (smask v f) := rfl

theorem map_gens (v : ℕ) (e : ℕ → Ser) (m : ℕ) :
    (gens e m).map (smask v) = gens (fun i => smask v (e i)) m := by
  unfold gens
  rw [Submodule.map_span]
  congr 1
  ext f
  constructor
  · rintro ⟨_, ⟨i, hi, j, rfl⟩, rfl⟩; exact ⟨i, hi, j, rfl⟩
  · rintro ⟨i, hi, j, rfl⟩; exact ⟨_, ⟨i, hi, j, rfl⟩, rfl⟩

theorem mask_mask_succ (m : ℕ) (x : V) : mask m (mask (m + 1) x) = mask m x := by
  rw [mask_mask]; congr 2; omega

theorem map_Lat (s0 : S) (m : ℕ) :
    (Lat T ((mask (m + 1)).comp O) s0 (m + 1)).map (smask m) = Lat T ((mask m).comp O) s0 m := by
  apply le_antisymm
  · rintro _ ⟨f, ⟨⟨N, hN⟩, hf, u, hu, hfu⟩, rfl⟩
    refine ⟨⟨N, fun t ht => ?_⟩, fun t i hi => ?_, u, hu, fun t => ?_⟩
    · show mask m (f t) = 0
      rw [hN t ht, map_zero]
    · show mask m (f t) i = 0
      rw [mask_apply, if_neg (by omega)]
    · show mask m (f _) = _
      rw [hfu]; exact mask_mask_succ m _
  · rintro f ⟨⟨N, hN⟩, hf, u, hu, hfu⟩
    refine ⟨fun t => if t ≤ 0 then f t else (mask (m + 1)).comp O ((T ^ (t - 1).toNat) u),
      ⟨⟨min N 1, fun t ht => ?_⟩, fun t i hi => ?_, u, hu, fun t => ?_⟩, ?_⟩
    · beta_reduce
      rw [if_pos (by omega)]; exact hN t (by omega)
    · beta_reduce
      split
      · exact hf t i (by omega)
      · exact Om_mask_zero _ hi
    · beta_reduce
      rw [if_neg (by omega)]
      have : ((t : ℤ) + 1 - 1).toNat = t := by omega
      rw [this]
    · funext t
      show mask m (if t ≤ 0 then f t else _) = f t
      split
      · exact mask_eq_self.2 (fun i hi => hf t i hi)
      · have : t = ((t - 1).toNat : ℤ) + 1 := by omega
        rw [this, hfu]
        have h2 : (((t - 1).toNat : ℤ) + 1 - 1).toNat = (t - 1).toNat := by omega
        rw [h2]
        exact mask_mask_succ m _

/-- `adjust` passes from accuracy `m+1` to accuracy `m`. -/
theorem adjust_PInv (h : LinGen G Inv den T O) {χ : (ZMod 2)[X]} (hχ : χ.Monic) {s0 : S}
    (h0 : aeval T χ s0 = 0) (hB : χ.natDegree ≤ 2 * G.bitSize + 1) {m size : ℕ}
    (h1 : 1 ≤ m) (h2 : m ≤ w) (hsize : m < size) {b : ℕ → Entry σ w}
    (hP : PInv Inv den T ((mask (m + 1)).comp O) s0 (m + 1) b) (hz : (b (m + 1)).zero = true) :
    PInv Inv den T ((mask m).comp O) s0 m (adjust G size m b) := by
  have hst := LinGen.stepLin h h1 h2
  let c : ℕ → Entry σ w := fun i =>
    { b i with next := (b i).next &&& ((BitVec.allOnes w) <<< (w - m)) }
  have hcs : ∀ i, ser den T ((mask m).comp O) (c i) = smask m (ser den T ((mask (m + 1)).comp O) (b i)) := by
    intro i
    funext t
    show eser T ((mask m).comp O) (b i).count (bits ((b i).next &&& _)) (den (b i).rand) t
      = mask m (eser T ((mask (m + 1)).comp O) (b i).count (bits (b i).next) (den (b i).rand) t)
    rw [bits_and_mask _ h2]
    unfold eser
    split
    · rw [map_zero]
    · split
      · rfl
      · exact (mask_mask_succ m _).symm
  have hspan : gens (fun i => ser den T ((mask m).comp O) (c i)) (m + 1) = Lat T ((mask m).comp O) s0 m := by
    rw [← map_Lat, ← hP.span' hz, map_gens]
    simp only [hcs]
  have hlow : ∀ i < m, Low (bits (c i).next) i := by
    intro i hi
    have := hP.low i (by omega)
    show Low (bits ((b i).next &&& _)) i
    rw [bits_and_mask _ h2]
    constructor
    · rw [mask_apply, if_pos hi]; exact this.1
    · intro j hj; rw [mask_apply, this.2 j hj, ite_self]
  have hlt : ∀ i < m, adjust G size m b i = c i := by
    intro i hi
    unfold adjust
    rw [if_pos (by omega)]
    simp only []
    exact if_neg (fun hh => (hlow i hi).ne_zero (bits_eq_zero.2 hh))
  have hL : ser den T ((mask m).comp O) (c m) ∈ Lat T ((mask m).comp O) s0 m := by
    rw [← hspan]; exact mem_gens' (fun i => ser den T ((mask m).comp O) (c i)) (by omega)
  have hzm : (c m).zero = false := hP.flag m (by omega)
  have hm : Inv (adjust G size m b m).rand ∧
      ser den T ((mask m).comp O) (adjust G size m b m) = ser den T ((mask m).comp O) (c m) ∧
      (((adjust G size m b m).zero = false ∧ (adjust G size m b m).next ≠ 0) ∨
       ((adjust G size m b m).zero = true ∧ ser den T ((mask m).comp O) (c m) = 0)) := by
    have hinv : Inv (c m).rand := hP.inv m (by omega)
    have : adjust G size m b m = if (c m).next = 0 then nextState (G.generateV m) G.bitSize (c m) else c m := by
      unfold adjust; rw [if_pos hsize]
    rw [this]
    split
    · rename_i hn
      obtain ⟨n1, n2, n3⟩ := nextState_spec hst hχ h0 hB (c m) hinv hn hzm hL
      refine ⟨n1, n2, ?_⟩
      rcases n3 with ⟨a, a2, _⟩ | ⟨a, _, a2⟩
      · exact Or.inl ⟨a, a2⟩
      · exact Or.inr ⟨a, a2⟩
    · rename_i hn
      exact ⟨hinv, rfl, Or.inl ⟨hzm, hn⟩⟩
  obtain ⟨n1, n2, n3⟩ := hm
  refine ⟨?_, ?_, ?_, ?_, ?_, ?_⟩
  · intro i hi
    rcases Nat.lt_or_ge i m with h3 | h3
    · rw [hlt i h3]; exact hP.inv i (by omega)
    · obtain rfl : i = m := by omega
      exact n1
  · intro i hi; rw [hlt i hi]; exact hlow i hi
  · intro i hi; rw [hlt i hi]; exact hP.flag i (by omega)
  · intro hz'
    rcases n3 with ⟨a, _⟩ | ⟨_, a⟩
    · rw [a] at hz'; exact absurd hz' (by decide)
    · rw [n2]; exact a
  · intro hz'
    rcases n3 with ⟨_, a⟩ | ⟨a, _⟩
    · exact a
    · rw [a] at hz'; exact absurd hz' (by decide)
  · rw [← hspan]
    have heq : ∀ i < m + 1, ser den T ((mask m).comp O) (adjust G size m b i)
        = ser den T ((mask m).comp O) (c i) := by
      intro i hi
      rcases Nat.lt_or_ge i m with h3 | h3
      · rw [hlt i h3]
      · obtain rfl : i = m := by omega
        exact n2
    apply le_antisymm
    · apply gens_le_gens
      intro i hi
      rw [heq i hi]; exact mem_gens' (fun i => ser den T ((mask m).comp O) (c i)) hi
    · apply gens_le_gens
      intro i hi
      rw [← heq i hi]
      exact mem_gens' (fun i => ser den T ((mask m).comp O) (adjust G size m b i)) hi

/-- The loop over the accuracies `v, v-1, …, 1`. -/
theorem allLoop_spec (h : LinGen G Inv den T O) {χ : (ZMod 2)[X]} (hχ : χ.Monic) {s0 : S}
    (h0 : aeval T χ s0 = 0) (hB : χ.natDegree ≤ 2 * G.bitSize + 1)
    {calc1pos : BitVec w → Int} (hc : IsCalc1pos calc1pos) {size stateBitSize fuel : ℕ}
    (hs : χ.natDegree ≤ stateBitSize) :
    ∀ (v : ℕ) (b : ℕ → Entry σ w) (r : EquidistResult), v ≤ w → v < size →
      v * ((v + 1) * χ.natDegree) + v + 1 ≤ fuel →
      PInv Inv den T ((mask (v + 1)).comp O) s0 (v + 1) b → (b (v + 1)).zero = true →
      ∃ r', allLoop G calc1pos size stateBitSize fuel v b r = .ok r' ∧
        (∀ j < v, IsGreatest {k | Equidist T O (cyc T s0) (j + 1) k} (r'.veq j)) ∧
        (∀ j, v ≤ j → r'.veq j = r.veq j) ∧
        r'.sum = r.sum + ∑ j ∈ range v, ((stateBitSize / (j + 1) : ℕ) - (r'.veq j : ℤ)) := by
  intro v
  induction v with
  | zero =>
    intro b r _ _ _ _ _
    exact ⟨r, rfl, fun j hj => by omega, fun _ _ => rfl, by simp⟩
  | succ v ih =>
    intro b r hw hsize hfuel hP hz
    have hP' := adjust_PInv h hχ h0 hB (show 1 ≤ v + 1 by omega) hw hsize hP hz
    obtain ⟨b', k, hok, hP2, hz2, hk⟩ := main_correct (LinGen.stepLin h (by omega) hw) hχ h0 hB hc
      (by omega) hs hfuel hP'
    have hmono : v * ((v + 1) * χ.natDegree) ≤ (v + 1) * ((v + 1 + 1) * χ.natDegree) :=
      Nat.mul_le_mul (by omega) (Nat.mul_le_mul_right _ (by omega))
    obtain ⟨r', h1, h2, h3, h4⟩ := ih b'
      { veq := Function.update r.veq v k,
        sum := r.sum + ((stateBitSize / (v + 1) : Nat) - (k : Int)) } (by omega) (by omega)
      (by omega) hP2 hz2
    have hv : r'.veq v = k := by rw [h3 v le_rfl]; exact Function.update_self _ _ _
    refine ⟨r', ?_, ?_, ?_, ?_⟩
    · unfold allLoop
      rw [hok]
      exact h1
    · intro j hj
      rcases Nat.lt_or_ge j v with h5 | h5
      · exact h2 j h5
      · obtain rfl : j = v := by omega
        rw [hv]; exact hk
    · intro j hj
      rw [h3 j (by omega)]
      exact Function.update_of_ne (by omega) _ _
    · rw [h4, sum_range_succ, hv]; ring

end
end MTT.PIS
