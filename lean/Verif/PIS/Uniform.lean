import Verif.PIS.Props
import Mathlib.GroupTheory.Coset.Card
import Mathlib.LinearAlgebra.FreeModule.Finite.Matrix
import Mathlib.FieldTheory.Finiteness
import Mathlib.Data.Set.Card
import Mathlib.Algebra.Field.ZMod
import Mathlib.SetTheory.Cardinal.Finite

/-!
# C25: what a dimension of equidistribution says about the output over a period
-/

namespace MTT.PIS

open Finset Polynomial

/-- State after `j` calls of `generate()`. -/
def stateAt {σ : Type} {w : ℕ} (G : GenOps σ w) (g : σ) : ℕ → σ
  | 0 => g
  | j + 1 => (G.generate (stateAt G g j)).1

/-- The `j`-th output (counted from 0) of a generator started in state `g`. -/
def outAt {σ : Type} {w : ℕ} (G : GenOps σ w) (g : σ) (j : ℕ) : BitVec w :=
  (G.generate (stateAt G g j)).2

section
variable {σ S : Type} {w : ℕ} [AddCommGroup S] [Module (ZMod 2) S]
  {G : GenOps σ w} {Inv : σ → Prop} {den : σ → S}
  {T : S →ₗ[ZMod 2] S} {O : S →ₗ[ZMod 2] V}

theorem stateAt_spec (h : LinGen G Inv den T O) {g : σ} (hg : Inv g) (j : ℕ) :
    Inv (stateAt G g j) ∧ den (stateAt G g j) = (T ^ j) (den g) := by
  induction j with
  | zero => exact ⟨hg, by simp [stateAt]⟩
  | succ j ih =>
    refine ⟨h.gen_inv _ ih.1, ?_⟩
    show den (G.generate _).1 = _
    rw [h.gen_den _ ih.1, ih.2, pow_succ', Module.End.mul_apply]

theorem outAt_spec (h : LinGen G Inv den T O) {g : σ} (hg : Inv g) (j : ℕ) :
    bits (outAt G g j) = O ((T ^ j) (den g)) := by
  unfold outAt
  rw [h.gen_out _ (stateAt_spec h hg j).1, (stateAt_spec h hg j).2]

theorem b2z_inj {x y : Bool} (h : (if x = true then (1 : ZMod 2) else 0) = if y = true then 1 else 0) :
    x = y := by
  revert h; cases x <;> cases y <;> decide

theorem b2z_zero {x : Bool} (h : (if x = true then (1 : ZMod 2) else 0) = 0) : x = false := by
  revert h; cases x <;> decide

/-- The windows of `k` outputs truncated to `v` bits. -/
def window (T : S →ₗ[ZMod 2] S) (O : S →ₗ[ZMod 2] V) (W : Submodule (ZMod 2) S) (k v : ℕ) :
    W →ₗ[ZMod 2] (Fin k × Fin v → ZMod 2) where
  toFun := fun s q => O ((T ^ (q.1 : ℕ)) s) q.2
  map_add' := by intro x y; funext q; simp
  map_smul' := by intro c x; funext q; simp

theorem window_surj {W : Submodule (ZMod 2) S} {v k : ℕ} (h : Equidist T O W v k) :
    Function.Surjective (window T O W k v) := by
  intro a
  obtain ⟨s, hs, hsa⟩ := h (fun t i => if ht : t < k then if hi : i < v then a (⟨t, ht⟩, ⟨i, hi⟩) else 0 else 0)
  refine ⟨⟨s, hs⟩, ?_⟩
  funext q
  have := hsa q.1 q.1.2 q.2 q.2.2
  simp only [q.1.2, q.2.2, dif_pos] at this
  exact this

/-- All windows are produced by the same number of states. -/
theorem uniform_of_equidist {W : Submodule (ZMod 2) S} [Finite W] {v k : ℕ} (h : Equidist T O W v k)
    (a : Fin k × Fin v → ZMod 2) :
    Nat.card {s : W // window T O W k v s = a} * 2 ^ (k * v) = Nat.card W := by
  classical
  have := Fintype.ofFinite W
  have hs := window_surj h
  have hcard : ∀ a b, Nat.card {s : W // window T O W k v s = a} = Nat.card {s : W // window T O W k v s = b} := by
    intro a b
    obtain ⟨x, hx⟩ := hs a
    obtain ⟨y, hy⟩ := hs b
    apply Nat.card_congr
    refine ⟨fun s => ⟨s.1 + (y - x), by rw [map_add, s.2, map_sub, hx, hy]; abel⟩,
      fun s => ⟨s.1 - (y - x), by rw [map_sub, s.2, map_sub, hx, hy]; abel⟩, ?_, ?_⟩
    · intro s; simp
    · intro s; simp
  have hsum : Nat.card W = ∑ b : Fin k × Fin v → ZMod 2, Nat.card {s : W // window T O W k v s = b} := by
    rw [← Nat.card_sigma]
    exact Nat.card_congr (Equiv.sigmaFiberEquiv _).symm
  rw [hsum, Finset.sum_congr rfl (fun b _ => hcard b a), sum_const, card_univ, smul_eq_mul,
    Fintype.card_fun, ZMod.card, Fintype.card_prod, Fintype.card_fin, Fintype.card_fin, mul_comm]

/-- **C25.**  A generator whose state is annihilated by `χ` of degree `n ≥ 1` and whose states repeat
with period exactly `2^n-1`: if `k` is at most the dimension of equidistribution with `v`-bit accuracy,
then among the `2^n-1` overlapping windows of `k` consecutive outputs in one period, truncated to `v`
bits, every pattern occurs exactly `2^(n-kv)` times, except the all-zero pattern, which occurs once
less. -/
theorem window_count (h : LinGen G Inv den T O) {g : σ} (hg : Inv g) {χ : (ZMod 2)[X]}
    (hχ : χ.Monic) (h0 : aeval T χ (den g) = 0) {n : ℕ} (hn : χ.natDegree = n) (hn1 : 1 ≤ n)
    (hg0 : den g ≠ 0) (hper : den (stateAt G g (2 ^ n - 1)) = den g)
    (hinj : ∀ i < 2 ^ n - 1, ∀ j < 2 ^ n - 1, den (stateAt G g i) = den (stateAt G g j) → i = j)
    {v k kmax : ℕ} (hvw : v ≤ w) (hk : IsGreatest {k | Equidist T O (cyc T (den g)) v k} kmax)
    (hkk : k ≤ kmax) (a : Fin k → BitVec v) :
    Nat.card {j : ℕ // j < 2 ^ n - 1 ∧
        ∀ t : Fin k, (outAt G g (j + t)).extractLsb' (w - v) v = a t}
      = 2 ^ (n - k * v) - (if ∀ t, a t = 0 then 1 else 0) := by
  classical
  have hE : Equidist T O (cyc T (den g)) v k := by
    intro a
    obtain ⟨s, hs, hs'⟩ := hk.1 a
    exact ⟨s, hs, fun t ht => hs' t (by omega)⟩
  have hb := equidist_bound hχ h0 hE
  have hfin : Module.Finite (ZMod 2) (cyc T (den g)) := by
    rw [cyc_finrank hχ h0]
    exact Module.Finite.span_of_finite _ (Set.finite_range _)
  have hfinite : Finite (cyc T (den g)) := Module.finite_of_finite (ZMod 2)
  have hle : Module.finrank (ZMod 2) (cyc T (den g)) ≤ χ.natDegree := by
    rw [cyc_finrank hχ h0]
    have := finrank_range_le_card (R := ZMod 2) (fun j : Fin χ.natDegree => (T ^ (j : ℕ)) (den g))
    rwa [Fintype.card_fin] at this
  have hcW : Nat.card (cyc T (den g)) = 2 ^ Module.finrank (ZMod 2) (cyc T (den g)) := by
    rw [Module.natCard_eq_pow_finrank (K := ZMod 2), Nat.card_zmod]
  have h2n : 2 ≤ 2 ^ n := by
    calc 2 = 2 ^ 1 := rfl
      _ ≤ 2 ^ n := Nat.pow_le_pow_right (by omega) hn1
  have hst : ∀ j, den (stateAt G g j) = (T ^ j) (den g) := fun j => (stateAt_spec h hg j).2
  have hne : ∀ j < 2 ^ n - 1, (T ^ j) (den g) ≠ 0 := by
    intro j hj hz
    have hz2 : ∀ i, j ≤ i → (T ^ i) (den g) = 0 := by
      intro i hi
      obtain ⟨d, rfl⟩ : ∃ d, i = d + j := ⟨i - j, by omega⟩
      rw [pow_add, Module.End.mul_apply, hz, map_zero]
    have h00 : den g = 0 := by rw [← hper, hst]; exact hz2 _ (by omega)
    exact hg0 h00
  set W := cyc T (den g) with hW
  -- the orbit is exactly the set of non-zero elements
  let φ : Fin (2 ^ n - 1) → {s : W // s ≠ 0} := fun j =>
    ⟨⟨(T ^ (j : ℕ)) (den g), cyc_pow T (cyc_self T _) j⟩, fun hh => hne j j.2 (congrArg Subtype.val hh)⟩
  have hφ : Function.Injective φ := by
    intro i j hij
    have : (T ^ (i : ℕ)) (den g) = (T ^ (j : ℕ)) (den g) :=
      congrArg (fun x : {s : W // s ≠ 0} => (x.1 : S)) hij
    apply Fin.ext
    exact hinj i i.2 j j.2 (by rw [hst, hst]; exact this)
  have hcard0 : Nat.card {s : W // s ≠ 0} + 1 = Nat.card W := by
    have := Fintype.ofFinite W
    rw [Nat.card_eq_fintype_card, Nat.card_eq_fintype_card, Fintype.card_subtype_compl,
      Fintype.card_subtype_eq]
    have : 0 < Fintype.card W := Fintype.card_pos
    omega
  have hcWle : Nat.card W ≤ 2 ^ n := by
    rw [hcW, ← hn]; exact Nat.pow_le_pow_right (by omega) hle
  have hbij : Function.Bijective φ := by
    apply hφ.bijective_of_nat_card_le
    rw [Nat.card_fin]; omega
  have hcWeq : Nat.card W = 2 ^ n := by
    have h1 := Nat.card_congr (Equiv.ofBijective φ hbij)
    rw [Nat.card_fin] at h1
    omega
  let a' : Fin k × Fin v → ZMod 2 := fun q => if (a q.1).getMsbD q.2 then 1 else 0
  have htr : ∀ j : ℕ, (∀ t : Fin k, (outAt G g (j + t)).extractLsb' (w - v) v = a t) ↔
      ∀ q : Fin k × Fin v, O ((T ^ (q.1 : ℕ)) ((T ^ j) (den g))) q.2 = a' q := by
    intro j
    have hbit : ∀ (t : Fin k) (i : Fin v), O ((T ^ (t : ℕ)) ((T ^ j) (den g))) i
        = if ((outAt G g (j + t)).extractLsb' (w - v) v).getMsbD i then 1 else 0 := by
      intro t i
      rw [← Module.End.mul_apply, ← pow_add, add_comm, ← outAt_spec h hg]
      unfold bits
      have hi := i.2
      congr 1
      rw [BitVec.getMsbD_eq_getLsbD, BitVec.getMsbD_eq_getLsbD, BitVec.getLsbD_extractLsb']
      have e1 : w - v + (v - 1 - (i : ℕ)) = w - 1 - i := by omega
      have e2 : (i : ℕ) < w := by omega
      have e3 : v - 1 - (i : ℕ) < v := by omega
      rw [e1]
      simp [e2, e3]
    constructor
    · intro hq q
      rw [hbit, hq]
    · intro hq t
      apply BitVec.eq_of_getMsbD_eq
      intro i hi
      have := hq (t, ⟨i, hi⟩)
      rw [hbit] at this
      simp only [a'] at this
      exact b2z_inj this
  have hcount : Nat.card {j : ℕ // j < 2 ^ n - 1 ∧
        ∀ t : Fin k, (outAt G g (j + t)).extractLsb' (w - v) v = a t}
      = Nat.card {s : W // s ≠ 0 ∧ window T O W k v s = a'} := by
    apply Nat.card_congr
    refine Equiv.ofBijective (fun j => ⟨(φ ⟨j.1, j.2.1⟩).1, (φ ⟨j.1, j.2.1⟩).2, ?_⟩) ⟨?_, ?_⟩
    · funext q
      exact (htr j.1).1 j.2.2 q
    · intro i j hij
      have h1 : (φ ⟨i.1, i.2.1⟩).1 = (φ ⟨j.1, j.2.1⟩).1 :=
        congrArg (fun x : {s : W // s ≠ 0 ∧ window T O W k v s = a'} => x.1) hij
      have h2 := hφ (Subtype.ext h1)
      exact Subtype.ext (congrArg Fin.val h2)
    · rintro ⟨s, hs0, hs⟩
      obtain ⟨j, hj⟩ := hbij.2 ⟨s, hs0⟩
      have hjs : (φ j).1 = s := congrArg Subtype.val hj
      refine ⟨⟨j.1, j.2, (htr j.1).2 (fun q => ?_)⟩, ?_⟩
      · have h3 := congrFun hs q
        rw [← hjs] at h3
        exact h3
      · exact Subtype.ext hjs
  rw [hcount]
  have hu := uniform_of_equidist hE a'
  rw [hcWeq] at hu
  have hfib : Nat.card {s : W // window T O W k v s = a'} = 2 ^ (n - k * v) := by
    have h1 : (2 : ℕ) ^ n = 2 ^ (n - k * v) * 2 ^ (k * v) := by rw [← pow_add]; congr 1; omega
    rw [h1] at hu
    exact Nat.eq_of_mul_eq_mul_right (by positivity) hu
  have ha0 : (∀ t, a t = 0) ↔ a' = 0 := by
    constructor
    · intro h1; funext q; simp [a', h1]
    · intro h1 t
      apply BitVec.eq_of_getMsbD_eq
      intro i hi
      have := congrFun h1 (t, ⟨i, hi⟩)
      simp only [a', Pi.zero_apply] at this
      rw [b2z_zero this]; simp
  have := Fintype.ofFinite W
  rw [← hfib]
  by_cases hz : ∀ t, a t = 0
  · rw [if_pos hz]
    have hz' := ha0.1 hz
    rw [Nat.card_eq_fintype_card, Nat.card_eq_fintype_card, Fintype.card_subtype, Fintype.card_subtype]
    have : (univ.filter fun s : W => s ≠ 0 ∧ window T O W k v s = a')
        = (univ.filter fun s : W => window T O W k v s = a').erase 0 := by
      ext s; simp
    rw [this, card_erase_of_mem (by simp [hz'])]
  · rw [if_neg hz, Nat.sub_zero]
    have hz' : a' ≠ 0 := fun h1 => hz (ha0.2 h1)
    apply Nat.card_congr
    apply Equiv.subtypeEquivRight
    intro s
    constructor
    · exact fun h1 => h1.2
    · intro h1
      refine ⟨fun h2 => hz' ?_, h1⟩
      rw [← h1, h2, map_zero]

end
end MTT.PIS
