import Verif.Search.Props
import Verif.Lin.Props
import Verif.PIS.Props

/-!
# Outputs as states (helper lemmas for C74 to C76)

The sequence of outputs is itself a state of a linear generator.  This allows to apply theorems whose hypothesis is
that a polynomial annihilates the state when it only annihilates the outputs (with a singular transition these are
not the same).
-/

namespace MTT.Search

open Polynomial PIS

section
variable {S : Type} [AddCommGroup S] [Module (ZMod 2) S]

/-- The outputs of all later times. -/
def obs (T : S →ₗ[ZMod 2] S) (O : S →ₗ[ZMod 2] V) : S →ₗ[ZMod 2] (ℕ → V) where
  toFun x t := O ((T ^ t) x)
  map_add' x y := by funext t; simp
  map_smul' c x := by funext t; simp

/-- Forget the first output. -/
def shiftV : (ℕ → V) →ₗ[ZMod 2] (ℕ → V) where
  toFun a t := a (t + 1)
  map_add' _ _ := rfl
  map_smul' _ _ := rfl

/-- The first output. -/
def ev0 : (ℕ → V) →ₗ[ZMod 2] V where
  toFun a := a 0
  map_add' _ _ := rfl
  map_smul' _ _ := rfl

variable (T : S →ₗ[ZMod 2] S) (O : S →ₗ[ZMod 2] V)

theorem shiftV_obs (x : S) : shiftV (obs T O x) = obs T O (T x) := by
  funext t
  show O ((T ^ (t + 1)) x) = O ((T ^ t) (T x))
  rw [pow_succ, Module.End.mul_apply]

theorem shiftV_pow (t : ℕ) (x : S) : (shiftV ^ t) (obs T O x) = obs T O ((T ^ t) x) := by
  induction t with
  | zero => rfl
  | succ t ih => rw [pow_succ', Module.End.mul_apply, ih, shiftV_obs, pow_succ', Module.End.mul_apply]

theorem ev0_shift (t : ℕ) (x : S) : ev0 ((shiftV ^ t) (obs T O x)) = O ((T ^ t) x) := by
  rw [shiftV_pow]; rfl

theorem aeval_obs (q : (ZMod 2)[X]) (x : S) : aeval shiftV q (obs T O x) = obs T O (aeval T q x) := by
  rw [aeval_eq_sum_range, aeval_eq_sum_range, LinearMap.sum_apply, LinearMap.sum_apply, map_sum]
  apply Finset.sum_congr rfl
  intro j _
  rw [LinearMap.smul_apply, LinearMap.smul_apply, map_smul, shiftV_pow]

theorem mem_cyc {s x : S} : x ∈ cyc T s ↔ ∃ g : (ZMod 2)[X], x = aeval T g s := by
  constructor
  · intro h
    unfold cyc at h
    induction h using Submodule.span_induction with
    | mem x hx => obtain ⟨j, rfl⟩ := hx; exact ⟨X ^ j, by simp⟩
    | zero => exact ⟨0, by simp⟩
    | add x y _ _ h1 h2 =>
      obtain ⟨g, rfl⟩ := h1
      obtain ⟨g', rfl⟩ := h2
      exact ⟨g + g', by simp⟩
    | smul c x _ h1 =>
      obtain ⟨g, rfl⟩ := h1
      exact ⟨c • g, by simp⟩
  · rintro ⟨g, rfl⟩
    rw [aeval_eq_sum_range, LinearMap.sum_apply]
    apply Submodule.sum_mem
    intro j _
    rw [LinearMap.smul_apply]
    exact Submodule.smul_mem _ _ (cyc_pow T (cyc_self T s) j)

theorem map_cyc (s : S) : (cyc T s).map (obs T O) = cyc shiftV (obs T O s) := by
  ext a
  rw [Submodule.mem_map, mem_cyc]
  constructor
  · rintro ⟨x, hx, rfl⟩
    obtain ⟨g, rfl⟩ := (mem_cyc T).1 hx
    exact ⟨g, (aeval_obs T O g s).symm⟩
  · rintro ⟨g, rfl⟩
    exact ⟨_, (mem_cyc T).2 ⟨g, rfl⟩, (aeval_obs T O g s).symm⟩

/-- Equidistribution is a property of the outputs. -/
theorem equidist_map (W : Submodule (ZMod 2) S) (v k : ℕ) :
    Equidist shiftV ev0 (W.map (obs T O)) v k ↔ Equidist T O W v k := by
  constructor
  · intro h a
    obtain ⟨b, hb, e⟩ := h a
    obtain ⟨x, hx, rfl⟩ := Submodule.mem_map.1 hb
    refine ⟨x, hx, fun t ht i hi => ?_⟩
    rw [← e t ht i hi, ev0_shift]
  · intro h a
    obtain ⟨x, hx, e⟩ := h a
    refine ⟨obs T O x, Submodule.mem_map.2 ⟨x, hx, rfl⟩, fun t ht i hi => ?_⟩
    rw [ev0_shift, e t ht i hi]

end

section
variable {σ S : Type} {w : ℕ} [AddCommGroup S] [Module (ZMod 2) S]
  {G : GenOps σ w} {Inv : σ → Prop} {den : σ → S}
  {T : S →ₗ[ZMod 2] S} {O : S →ₗ[ZMod 2] V}

/-- A generator seen through its outputs. -/
theorem LinGen.obs (h : LinGen G Inv den T O) : LinGen G Inv (fun s => Search.obs T O (den s)) shiftV ev0 where
  gen_inv := h.gen_inv
  gen_den s hs := by rw [h.gen_den s hs, shiftV_obs]
  gen_out s hs := h.gen_out s hs
  genV_inv := h.genV_inv
  genV_den v s h1 h2 hs := by rw [h.genV_den v s h1 h2 hs, shiftV_obs]
  genV_out v s h1 h2 hs := h.genV_out v s h1 h2 hs
  add_inv := h.add_inv
  add_den a b ha hb := by rw [h.add_den a b ha hb, map_add]
  zero_inv := h.zero_inv
  zero_den s hs := by rw [h.zero_den s hs, map_zero]

/-- If a polynomial annihilates all output bits, applying it to the state gives a state without output. -/
theorem obs_of_ann (h : LinGen G Inv den T O) {s : σ} (hs : Inv s) {q : (ZMod 2)[X]} (hq : AnnAll G s q) :
    obs T O (aeval T q (den s)) = 0 := by
  obtain ⟨ha, hd⟩ := Lin.annihilate_correct h q hs
  funext t
  funext i
  show O ((T ^ t) (aeval T q (den s))) i = 0
  by_cases hi : i < w
  · have h1 := hq (w - 1 - i) (by omega)
    rw [bitAt_eq h hs (by omega), ann_iff, aeval_outSeq] at h1
    have h2 := congrFun h1 t
    have h3 : w - 1 - (w - 1 - i) = i := by omega
    have h4 : outSeq T (coord w (w - 1 - i) O) (aeval T q (den s)) t
        = O ((T ^ t) (aeval T q (den s))) (w - 1 - (w - 1 - i)) := rfl
    rw [h4, h3] at h2
    exact h2
  · rw [← hd, ← outAt_spec h ha]
    unfold bits
    rw [BitVec.getMsbD_of_ge _ _ (by omega)]
    rfl

/-- The calculation of `calcCharacteristicPolynomial` for any transition, singular or not: the result divides the
minimal polynomial of the initial state and annihilates all outputs of the final state. -/
theorem charPolyLoop_any {mps : MPS} (hm : MinPolySeqSpec mps) (h : LinGen G Inv den T O) {s : σ} (hs : Inv s)
    {μ : (ZMod 2)[X]} (hμ : IsVecMinpoly T (den s) μ) (hμd : μ.natDegree ≤ G.bitSize) :
    ∀ (k i m : ℕ) (lcm : (ZMod 2)[X]), i + k = w → lcm ∣ μ →
      (∀ pos, pos < i → Ann lcm (bitAt G (stateAt G s m) pos)) →
      ∃ m' r, charPolyLoop mps G k i (stateAt G s m) lcm = some (stateAt G s m', r) ∧ lcm ∣ r ∧ r ∣ μ ∧
        AnnAll G (stateAt G s m') r ∧
        (∀ p, i = 0 → 0 < w → IsSeqMinpoly p (bitAt G (stateAt G s m) 0) → p ∣ r) := by
  have hμ0 : aeval T μ (den s) = 0 := (hμ.2 μ).2 (dvd_refl _)
  have hμm : ∀ m, aeval T μ (den (stateAt G s m)) = 0 := fun m => by
    rw [(stateAt_spec h hs m).2]
    exact cyc_annihilated T hμ0 (cyc_pow T (cyc_self T _) m)
  have hμann : ∀ m pos, pos < w → Ann μ (bitAt G (stateAt G s m) pos) := fun m pos hp => by
    rw [bitAt_eq h (stateAt_spec h hs m).1 hp]; exact ann_outSeq _ _ (hμm m)
  have hlater : ∀ q m n pos, Ann q (bitAt G (stateAt G s m) pos) → Ann q (bitAt G (stateAt G s (m + n)) pos) := by
    intro q m n pos ha i
    rw [← ha (n + i)]
    apply Finset.sum_congr rfl
    intro j _
    rw [stateAt_add, bitAt_shift]
    congr 2
    omega
  intro k
  induction k with
  | zero =>
    intro i m lcm hik hlcm hinv
    refine ⟨m, lcm, rfl, dvd_refl _, hlcm, fun pos hp => hinv pos (by omega), fun p hi hw => ?_⟩
    omega
  | succ k ih =>
    intro i m lcm hik hlcm hinv
    have hl0 : lcm ≠ 0 := fun h0 => hμ.1 (by rw [h0] at hlcm; exact zero_dvd_iff.1 hlcm)
    unfold charPolyLoop
    by_cases hd : Period.deg lcm = G.bitSize
    · rw [if_pos hd]
      have heq : lcm = μ := by
        rw [Period.deg_of_ne hl0] at hd
        obtain ⟨c, hc⟩ := hlcm
        have hc0 : c ≠ 0 := fun h0 => hμ.1 (by rw [hc, h0, mul_zero])
        have hdd := congrArg natDegree hc
        rw [natDegree_mul hl0 hc0] at hdd
        have hd' : lcm.natDegree = G.bitSize := by exact_mod_cast hd
        have hc1 : c = 1 := (monic_of_ne hc0).natDegree_eq_zero.1 (by omega)
        rw [hc, hc1, mul_one]
      refine ⟨m, lcm, rfl, dvd_refl _, hlcm, fun pos hp => by rw [heq]; exact hμann m pos hp,
        fun p _ hw hp => ?_⟩
      rw [heq]
      exact hp.2.2 μ (hμann m 0 hw)
    · rw [if_neg hd]
      obtain ⟨p, e1, e2⟩ := minpoly_correct hm h (stateAt_spec h hs m).1 (pos := i) (by omega)
        (stateSize := 0) (by simp) hμ.1 (hμm m) hμd
      rw [e1]
      obtain ⟨st, f1, f2, f3, f4, -, -⟩ := Util.LCM_correct
        (fun v => if v = 0 then lcm else p) 0 0 1 (by simp [hl0])
      simp only [if_true, one_ne_zero, if_false] at f2 f3 f4
      simp only [f1]
      rw [← stateAt_add]
      obtain ⟨m', r, g1, g2, g3, g4, -⟩ := ih (i + 1) (m + 2 * G.bitSize) (st 0) (by omega)
        (f4 μ hlcm (e2.2.2 μ (hμann m i (by omega)))) (fun pos hpos => by
          apply hlater
          rcases Nat.lt_succ_iff_lt_or_eq.1 hpos with hlt | heq
          · exact (hinv pos hlt).of_dvd f2
          · subst heq; exact e2.2.1.of_dvd f3)
      refine ⟨m', r, g1, f2.trans g2, g3, g4, fun p' hi _ hp' => ?_⟩
      subst hi
      rw [hp'.unique e2]
      exact f3.trans g2

/-- The states built from iterates of `s` whose outputs satisfy the recurrence `f`: for an irreducible factor `f`
of the minimal polynomial of the output this is the component belonging to `f`. -/
noncomputable def Component (T : S →ₗ[ZMod 2] S) (O : S →ₗ[ZMod 2] V) (f : (ZMod 2)[X]) (s : S) : Submodule (ZMod 2) S :=
  cyc T s ⊓ LinearMap.ker ((obs T O).comp (aeval T f))

/-- The heart of C74: for a polynomial `r` that divides the minimal polynomial of the outputs and annihilates the
outputs after `m` steps, the quotient `r / f` produces exactly the component of `f`, as far as outputs are
concerned. -/
theorem component_of_quotient {s : S} {μ r f q : (ZMod 2)[X]} (hμ : IsVecMinpoly shiftV (obs T O s) μ)
    (hf : Irreducible f) (hX : ¬ f ∣ X) (hr : r = f * q) (hrμ : r ∣ μ) (m : ℕ)
    (hann : obs T O (aeval T r ((T ^ m) s)) = 0) (j : ℕ) :
    (Component T O f s).map (obs T O)
      = cyc shiftV (obs T O ((T ^ j) (aeval T q ((T ^ m) s)))) := by
  have hXm : ∀ n : ℕ, T ^ n = aeval T (X ^ n : (ZMod 2)[X]) := fun n => by simp
  have e1 : (T ^ j) (aeval T q ((T ^ m) s)) = aeval T (X ^ j * (q * X ^ m)) s := by
    rw [map_mul, map_mul, Module.End.mul_apply, Module.End.mul_apply, ← hXm, ← hXm]
  have hf0 := hf.ne_zero
  have hr0 : r ≠ 0 := fun h0 => hμ.1 (by rw [h0] at hrμ; exact zero_dvd_iff.1 hrμ)
  -- `r X^m` is a multiple of the minimal polynomial
  have h1 : μ ∣ r * X ^ m := by
    rw [← hμ.2, aeval_obs, map_mul, Module.End.mul_apply, ← hXm]
    exact hann
  obtain ⟨e, he⟩ := hrμ
  have hed : e ∣ X ^ m := by
    rw [he] at h1
    exact (mul_dvd_mul_iff_left hr0).1 h1
  obtain ⟨d, hd⟩ := hed
  have hfX : ∀ n : ℕ, IsCoprime f (X ^ n) := fun n =>
    IsCoprime.pow_right ((hf.coprime_iff_not_dvd).2 hX)
  have hμe : μ = f * (q * e) := by rw [he, hr]; ring
  ext a
  rw [Submodule.mem_map, mem_cyc]
  constructor
  · rintro ⟨x, ⟨hx, hk⟩, rfl⟩
    obtain ⟨g, rfl⟩ := (mem_cyc T).1 hx
    have hk' : obs T O (aeval T f (aeval T g s)) = 0 := hk
    rw [← Module.End.mul_apply, ← map_mul, ← aeval_obs, hμ.2, hμe, mul_dvd_mul_iff_left hf0] at hk'
    obtain ⟨c, hc⟩ := hk'
    -- `g = q e c`; invert `X^(j+m)` modulo `f`
    obtain ⟨u, v, huv⟩ := hfX (j + m)
    refine ⟨v * (e * c), ?_⟩
    rw [e1, aeval_obs, ← sub_eq_zero, ← map_sub, ← Module.End.mul_apply, ← map_mul, ← LinearMap.sub_apply,
      ← map_sub, ← aeval_obs, hμ.2]
    refine ⟨c * u, ?_⟩
    rw [hc, hμe]
    have : v * X ^ (j + m) = 1 - u * f := by rw [← huv]; ring
    calc q * e * c - v * (e * c) * (X ^ j * (q * X ^ m))
        = q * e * c * (1 - v * X ^ (j + m)) := by rw [pow_add]; ring
      _ = f * (q * e) * (c * u) := by rw [this]; ring
  · rintro ⟨g, rfl⟩
    refine ⟨aeval T (g * (X ^ j * (q * X ^ m))) s, ⟨(mem_cyc T).2 ⟨_, rfl⟩, ?_⟩, ?_⟩
    · show obs T O (aeval T f (aeval T (g * (X ^ j * (q * X ^ m))) s)) = 0
      rw [← Module.End.mul_apply, ← map_mul, ← aeval_obs, hμ.2]
      refine h1.trans ⟨g * X ^ j, ?_⟩
      rw [hr]; ring
    · rw [e1, aeval_obs, map_mul, Module.End.mul_apply]

end

end MTT.Search
