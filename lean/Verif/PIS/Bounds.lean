import Verif.PIS.Uniform
import Verif.MT.Orbit
import Verif.PIS.Props
import Verif.Spec.Word

/-!
# General bounds on the dimensions of equidistribution and C86
-/

namespace MTT.PIS

open Polynomial

variable {S : Type} [AddCommGroup S] [Module (ZMod 2) S] {T : S →ₗ[ZMod 2] S} {O : S →ₗ[ZMod 2] V}

/-- Not more bits can be free than there are bits in the state. -/
theorem equidist_le [Module.Finite (ZMod 2) S] {n v k : ℕ} (hdim : Module.finrank (ZMod 2) S = n)
    (h : Equidist T O ⊤ v k) : k * v ≤ n := by
  have h1 := LinearMap.finrank_le_finrank_of_surjective (window_surj h)
  rwa [Module.finrank_pi, Fintype.card_prod, Fintype.card_fin, Fintype.card_fin, finrank_top, hdim] at h1

theorem equidist_mono {W : Submodule (ZMod 2) S} {v v' k k' : ℕ} (h : Equidist T O W v k) (hv : v' ≤ v)
    (hk : k' ≤ k) : Equidist T O W v' k' := by
  intro a
  obtain ⟨s, hs, h1⟩ := h a
  exact ⟨s, hs, fun t ht i hi => h1 t (by omega) i (by omega)⟩

/-- If one non-zero state runs through all non-zero states, the highest output bit is equidistributed in the
full dimension, unless it is constantly zero. -/
theorem equidist_one [Module.Finite (ZMod 2) S] {n : ℕ} (hn : 1 ≤ n) (hdim : Module.finrank (ZMod 2) S = n)
    (horb : ∀ x : S, x ≠ 0 → ∀ y : S, y ≠ 0 → ∃ k, (T ^ k) x = y) (hO : ∃ s, O s 0 ≠ 0) :
    Equidist T O ⊤ 1 n := by
  obtain ⟨hm, -, hd⟩ := charpoly_hyps T 0
  have hT : ∀ s, aeval T T.charpoly s = 0 := fun s => (charpoly_hyps T s).2.1
  generalize T.charpoly = p at hm hd hT
  rw [hdim] at hd
  let L : S →ₗ[ZMod 2] (Fin n → ZMod 2) :=
    { toFun := fun s t => O ((T ^ (t : ℕ)) s) 0
      map_add' := fun x y => by funext q; simp
      map_smul' := fun c x => by funext q; simp }
  have hinj : Function.Injective L := by
    rw [injective_iff_map_eq_zero]
    intro s hs
    by_contra hne
    have h1 : ∀ t, t < n → O ((T ^ t) s) 0 = 0 := fun t ht => congrFun hs ⟨t, ht⟩
    have h2 : ∀ t, O ((T ^ t) s) 0 = 0 := by
      intro t
      have e : (T ^ t) s = aeval T (X ^ t %ₘ p) s := by
        have hmod := modByMonic_add_div (X ^ t : (ZMod 2)[X]) p
        have := congrArg (fun q => aeval T q s) hmod
        simp only [map_add, map_mul, map_pow, aeval_X, LinearMap.add_apply, Module.End.mul_apply] at this
        rw [hT, add_zero] at this
        exact this.symm
      rw [e, aeval_eq_sum_range' (lt_of_lt_of_le (natDegree_modByMonic_lt _ hm (by
        intro h; rw [h, natDegree_one] at hd; omega)) hd.le), LinearMap.sum_apply, map_sum, Finset.sum_apply]
      apply Finset.sum_eq_zero
      intro i hi
      rw [LinearMap.smul_apply, map_smul, Pi.smul_apply, h1 i (Finset.mem_range.1 hi), smul_zero]
    obtain ⟨y, hy⟩ := hO
    have hy0 : y ≠ 0 := by rintro rfl; exact hy (by rw [map_zero]; rfl)
    obtain ⟨k, rfl⟩ := horb s hne y hy0
    exact hy (h2 k)
  have hsurj : Function.Surjective L :=
    (LinearMap.injective_iff_surjective_of_finrank_eq_finrank (by rw [hdim, Module.finrank_fin_fun])).1 hinj
  intro a
  obtain ⟨s, hs⟩ := hsurj fun t => a t 0
  refine ⟨s, trivial, fun t ht i hi => ?_⟩
  obtain rfl : i = 0 := by omega
  exact congrFun hs ⟨t, ht⟩

/-- If one state has the maximal period, every non-zero state reaches every other one. -/
theorem orbit_of_period [Module.Finite (ZMod 2) S] {n : ℕ} (hn : 1 ≤ n) (hdim : Module.finrank (ZMod 2) S = n)
    {s : S} (hs : s ≠ 0) (hper : ∀ k, (T ^ k) s = s ↔ 2 ^ n - 1 ∣ k) (x : S) (hx : x ≠ 0) (y : S)
    (hy : y ≠ 0) : ∃ k, (T ^ k) x = y := by
  obtain ⟨i, -, rfl⟩ := Search.orbit_all hn hdim hs hper hx
  obtain ⟨j, -, rfl⟩ := Search.orbit_all hn hdim hs hper hy
  have hpos : 0 < 2 ^ n - 1 := by
    have : 2 ^ 1 ≤ 2 ^ n := Nat.pow_le_pow_right (by omega) hn
    omega
  obtain ⟨m, hm⟩ : ∃ m, m * (2 ^ n - 1) ≥ i := ⟨i, Nat.le_mul_of_pos_right _ hpos⟩
  refine ⟨m * (2 ^ n - 1) - i + j, ?_⟩
  have h1 : (T ^ (m * (2 ^ n - 1))) s = s := (hper _).2 (Dvd.intro_left _ rfl)
  rw [← Module.End.mul_apply, ← pow_add, show m * (2 ^ n - 1) - i + j + i = j + m * (2 ^ n - 1) by omega, pow_add,
    Module.End.mul_apply, h1]

/-! ## C86 -/

variable {σ : Type} {w : ℕ} {G : GenOps σ w} {Inv : σ → Prop} {den : σ → S}

/-- **C86.**  For every linear generator with `n` bits of state: if the object has the maximal period `2^n-1` and
the highest bit of its results is not constantly zero, then `get_all_equidist` succeeds and reports
`veq[0] = n`, so the defect `d(1)` is 0; every `veq[v-1]` is the exact dimension over the whole state space and
is at most `veq[v-2]` and at most `n / v`. -/
theorem first_dimension [Module.Finite (ZMod 2) S] (h : LinGen G Inv den T O) {g : σ} (hg : Inv g) {n : ℕ}
    (hn : 1 ≤ n) (hdim : Module.finrank (ZMod 2) S = n) (hG : G.bitSize = n)
    (hper : ∀ k, den (stateAt G g k) = den g ↔ 2 ^ n - 1 ∣ k) (hbit : ∃ j, (outAt G g j).msb = true)
    {calc1pos : BitVec w → Int} (hc : IsCalc1pos calc1pos) {bitLen : ℕ} (h1 : 1 ≤ bitLen) (h2 : bitLen ≤ w)
    {fuel : ℕ} (hfuel : bitLen * ((bitLen + 1) * n) + bitLen + 1 ≤ fuel) (veq0 : ℕ → ℕ) :
    ∃ r, getAllEquidist G calc1pos g bitLen n fuel veq0 = .ok r ∧ r.veq 0 = n ∧
      (∀ v, 1 ≤ v → v ≤ bitLen → IsGreatest {k | Equidist T O ⊤ v k} (r.veq (v - 1)) ∧
        r.veq (v - 1) ≤ n / v) ∧
      (∀ v, 2 ≤ v → v ≤ bitLen → r.veq (v - 1) ≤ r.veq (v - 2)) := by
  obtain ⟨hm, h0, hd⟩ := charpoly_hyps T (den g)
  rw [hdim] at hd
  obtain ⟨r, e1, e2, -, -⟩ := getAllEquidist_correct h hg hm h0 (by omega) (stateBitSize := n) (by omega) hc h1 h2
    (fuel := fuel) (by rw [hd]; exact hfuel) veq0
  have hst := fun k => (stateAt_spec h hg k).2
  obtain ⟨j, hj⟩ := hbit
  have hOj : O ((T ^ j) (den g)) 0 ≠ 0 := by
    rw [← outAt_spec h hg]
    unfold bits
    rw [show (outAt G g j).getMsbD 0 = true from hj]
    decide
  have hne : den g ≠ 0 := by
    intro hz
    rw [hz, map_zero, map_zero] at hOj
    exact hOj rfl
  have hper' : ∀ k, (T ^ k) (den g) = den g ↔ 2 ^ n - 1 ∣ k := fun k => by rw [← hst]; exact hper k
  rw [Search.cyc_top hn hdim hne hper'] at e2
  have hle : ∀ v, 1 ≤ v → v ≤ bitLen → r.veq (v - 1) ≤ n / v := fun v a b => by
    rw [Nat.le_div_iff_mul_le (by omega)]
    exact equidist_le hdim (e2 v a b).1
  refine ⟨r, e1, ?_, fun v a b => ⟨e2 v a b, hle v a b⟩, fun v a b => ?_⟩
  · have a1 := (e2 1 le_rfl h1).2 (equidist_one hn hdim (orbit_of_period hn hdim hne hper') ⟨_, hOj⟩)
    have a2 := hle 1 le_rfl h1
    rw [Nat.sub_self] at a1 a2
    rw [Nat.div_one] at a2
    exact le_antisymm a2 a1
  · have := (e2 (v - 1) (by omega) (by omega)).2 (equidist_mono (e2 v (by omega) b).1 (by omega) le_rfl)
    rwa [show v - 1 - 1 = v - 2 by omega] at this

end MTT.PIS
