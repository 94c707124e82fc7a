import Verif.PIS.Lattice
import Verif.PIS.Model
import Mathlib.Algebra.Polynomial.AlgebraMap
import Mathlib.Algebra.Polynomial.Div
import Mathlib.LinearAlgebra.Span.Basic
import Mathlib.Algebra.Module.LinearMap.End

/-!
# Correctness of the PIS main loop (helper lemmas)
-/

namespace MTT.PIS

open Finset Polynomial

/-- Bits of a word, most significant first. -/
def bits {w : ℕ} (u : BitVec w) : V := fun i => if u.getMsbD i then 1 else 0

theorem bits_inj {w : ℕ} {u v : BitVec w} (h : bits u = bits v) : u = v := by
  apply BitVec.eq_of_getMsbD_eq
  intro i hi
  have := congrFun h i
  unfold bits at this
  cases hu : u.getMsbD i <;> cases hv : v.getMsbD i <;> simp_all

theorem bits_zero {w : ℕ} : bits (0 : BitVec w) = 0 := by
  funext i; simp [bits]

theorem bits_eq_zero {w : ℕ} {u : BitVec w} : bits u = 0 ↔ u = 0 := by
  constructor
  · intro h; exact bits_inj (h.trans bits_zero.symm)
  · rintro rfl; exact bits_zero

theorem bits_xor {w : ℕ} (u v : BitVec w) : bits (u ^^^ v) = bits u + bits v := by
  funext i
  simp only [bits, BitVec.getMsbD_xor, Pi.add_apply]
  cases u.getMsbD i <;> cases v.getMsbD i <;> (simp; try decide)

/-- What the algorithm needs of `calc_1pos`: for a non-zero word, the position (from the MSB) of its
last one bit. -/
def IsCalc1pos {w : ℕ} (calc1pos : BitVec w → Int) : Prop :=
  ∀ u : BitVec w, u ≠ 0 → ∃ i : ℕ, calc1pos u = i ∧ Low (bits u) i

section
variable {S : Type} [AddCommGroup S] [Module (ZMod 2) S] (T : S →ₗ[ZMod 2] S)
variable (Om : S →ₗ[ZMod 2] V)

/-- The cyclic subspace generated by `s0`: all states reachable by adding up iterates. -/
def cyc (s0 : S) : Submodule (ZMod 2) S := Submodule.span (ZMod 2) (Set.range fun j : ℕ => (T ^ j) s0)

theorem cyc_T {s0 u : S} (h : u ∈ cyc T s0) : T u ∈ cyc T s0 := by
  have : cyc T s0 ≤ (cyc T s0).comap T := by
    apply Submodule.span_le.2
    rintro _ ⟨j, rfl⟩
    show T ((T ^ j) s0) ∈ cyc T s0
    rw [← Module.End.mul_apply, ← pow_succ']
    exact Submodule.subset_span ⟨j + 1, rfl⟩
  exact this h

theorem cyc_pow {s0 u : S} (h : u ∈ cyc T s0) (j : ℕ) : (T ^ j) u ∈ cyc T s0 := by
  induction j with
  | zero => simpa using h
  | succ j ih =>
    rw [pow_succ', Module.End.mul_apply]
    exact cyc_T T ih

theorem cyc_self (s0 : S) : s0 ∈ cyc T s0 := Submodule.subset_span ⟨0, by simp⟩

/-- The lattice of the output of the generator. -/
def Lat (s0 : S) (m : ℕ) : Submodule (ZMod 2) Ser where
  carrier := {f | (∃ N : ℤ, ∀ t < N, f t = 0) ∧ (∀ t i, m ≤ i → f t i = 0) ∧
    ∃ u ∈ cyc T s0, ∀ t : ℕ, f ((t : ℤ) + 1) = Om ((T ^ t) u)}
  add_mem' := by
    rintro f g ⟨⟨N, hN⟩, hf, u, hu, hfu⟩ ⟨⟨N', hN'⟩, hg, u', hu', hgu⟩
    refine ⟨⟨min N N', fun t ht => ?_⟩, fun t i hi => ?_, u + u', Submodule.add_mem _ hu hu', fun t => ?_⟩
    · rw [Pi.add_apply, hN t (by omega), hN' t (by omega), add_zero]
    · rw [Pi.add_apply, Pi.add_apply, hf t i hi, hg t i hi, add_zero]
    · rw [Pi.add_apply, hfu, hgu, map_add, map_add]
  zero_mem' := ⟨⟨0, fun _ _ => rfl⟩, fun _ _ _ => rfl, 0, Submodule.zero_mem _, fun t => by simp⟩
  smul_mem' := by
    rintro c f ⟨⟨N, hN⟩, hf, u, hu, hfu⟩
    refine ⟨⟨N, fun t ht => ?_⟩, fun t i hi => ?_, c • u, Submodule.smul_mem _ _ hu, fun t => ?_⟩
    · rw [Pi.smul_apply, hN t ht, smul_zero]
    · rw [Pi.smul_apply, Pi.smul_apply, hf t i hi, smul_zero]
    · rw [Pi.smul_apply, hfu, map_smul, map_smul]

theorem Lat_shift (s0 : S) (m : ℕ) (j : ℕ) : ∀ f ∈ Lat T Om s0 m, shift j f ∈ Lat T Om s0 m := by
  rintro f ⟨⟨N, hN⟩, hf, u, hu, hfu⟩
  refine ⟨⟨N - j, fun t ht => ?_⟩, fun t i hi => ?_, (T ^ j) u, cyc_pow T hu j, fun t => ?_⟩
  · rw [shift_apply]; exact hN _ (by omega)
  · rw [shift_apply]; exact hf _ i hi
  · rw [shift_apply]
    have : ((t : ℤ) + 1 + j) = ((t + j : ℕ) : ℤ) + 1 := by push_cast; ring
    rw [this, hfu, pow_add, Module.End.mul_apply]

/-- States annihilated by `χ` have recurring outputs of order `deg χ`. -/
theorem out_zero_of_prefix {χ : (ZMod 2)[X]} (hχ : χ.Monic) {u : S} (hu : aeval T χ u = 0)
    (hz : ∀ t < χ.natDegree, Om ((T ^ t) u) = 0) (t : ℕ) : Om ((T ^ t) u) = 0 := by
  have h1 : (T ^ t) u = aeval T (X ^ t %ₘ χ) u := by
    have hmod := modByMonic_add_div (X ^ t : (ZMod 2)[X]) χ
    have := congrArg (fun p => aeval T p u) hmod
    simp only [map_add, map_mul, LinearMap.add_apply, map_pow, aeval_X] at this
    rw [← this]
    rw [(Commute.all χ (X ^ t /ₘ χ)).map (aeval T) |>.eq, Module.End.mul_apply, hu, map_zero, add_zero]
  rw [h1]
  by_cases hd : χ.natDegree = 0
  · have h1' : χ = 1 := Polynomial.eq_one_of_monic_natDegree_zero hχ hd
    rw [h1', modByMonic_one]; simp
  · rw [aeval_eq_sum_range' (n := χ.natDegree) (natDegree_modByMonic_lt _ hχ (by
      intro h; apply hd; rw [h]; simp))]
    rw [LinearMap.sum_apply, map_sum]
    apply sum_eq_zero
    intro i hi
    rw [LinearMap.smul_apply, map_smul, hz i (mem_range.1 hi), smul_zero]

theorem cyc_annihilated {χ : (ZMod 2)[X]} {s0 : S} (h0 : aeval T χ s0 = 0) {u : S}
    (hu : u ∈ cyc T s0) : aeval T χ u = 0 := by
  have : cyc T s0 ≤ LinearMap.ker (aeval T χ) := by
    apply Submodule.span_le.2
    rintro _ ⟨j, rfl⟩
    show aeval T χ ((T ^ j) s0) = 0
    have : T ^ j = aeval T (X ^ j : (ZMod 2)[X]) := by simp
    rw [this, ← Module.End.mul_apply, (Commute.all χ (X ^ j)).map (aeval T) |>.eq,
      Module.End.mul_apply, h0, map_zero]
  exact this hu

/-- A lattice element vanishing up to `deg χ` is zero. -/
theorem Lat_zero {χ : (ZMod 2)[X]} (hχ : χ.Monic) {s0 : S} (h0 : aeval T χ s0 = 0) {m : ℕ}
    {f : Ser} (hf : f ∈ Lat T Om s0 m) (hz : ∀ t : ℤ, t ≤ χ.natDegree → f t = 0) : f = 0 := by
  obtain ⟨_, _, u, hu, hfu⟩ := hf
  have hall := out_zero_of_prefix T Om hχ (cyc_annihilated T h0 hu) (by
    intro t ht
    rw [← hfu]
    exact hz _ (by omega))
  funext t
  rcases lt_or_ge t 1 with h | h
  · exact hz t (by omega)
  · have : t = ((t - 1).toNat : ℤ) + 1 := by omega
    rw [this, hfu, hall]; rfl

/-- The series represented by an entry with counter `c`, word `nx` and generator state `s`. -/
def eser (c : ℕ) (nx : V) (s : S) : Ser := fun t =>
  if t < c then 0 else if t = c then nx else Om ((T ^ (t - c - 1).toNat) s)

theorem eser_below {c : ℕ} {nx : V} {s : S} {t : ℤ} (h : t < c) : eser T Om c nx s t = 0 := by
  unfold eser; rw [if_pos h]

theorem eser_at {c : ℕ} {nx : V} {s : S} : eser T Om c nx s c = nx := by
  unfold eser; rw [if_neg (by omega), if_pos rfl]

theorem eser_gen (c : ℕ) (s : S) : eser T Om (c + 1) (Om s) (T s) = eser T Om c 0 s := by
  funext t
  unfold eser
  have hc : ((c + 1 : ℕ) : ℤ) = c + 1 := by push_cast; ring
  rw [hc]
  rcases lt_trichotomy t c with h | h | h
  · rw [if_pos (show t < (c : ℤ) + 1 by omega), if_pos h]
  · rw [if_pos (show t < (c : ℤ) + 1 by omega), if_neg (show ¬ t < (c : ℤ) by omega), if_pos h]
  · rw [if_neg (show ¬ t < (c : ℤ) + 1 by omega), if_neg (show ¬ t < (c : ℤ) by omega),
      if_neg (show ¬ t = (c : ℤ) by omega)]
    rcases eq_or_lt_of_le (show (c : ℤ) + 1 ≤ t by omega) with h2 | h2
    · rw [if_pos h2.symm]
      have : (t - c - 1).toNat = 0 := by omega
      rw [this, pow_zero, Module.End.one_apply]
    · rw [if_neg (show ¬ t = (c : ℤ) + 1 by omega)]
      have : (t - c - 1).toNat = (t - (c + 1) - 1).toNat + 1 := by omega
      rw [this, pow_succ, Module.End.mul_apply]

theorem eser_add {c d : ℕ} (hcd : c ≤ d) (nx nx' : V) (s s' : S) :
    eser T Om c (nx + nx') (s + s') = eser T Om c nx s + shift (d - c) (eser T Om d nx' s') := by
  funext t
  rw [Pi.add_apply, shift_apply]
  unfold eser
  rcases lt_trichotomy t c with h | h | h
  · rw [if_pos h, if_pos h, if_pos (by omega), add_zero]
  · rw [if_neg (by omega), if_pos h, if_neg (by omega), if_pos h, if_neg (by omega), if_pos (by omega)]
  · rw [if_neg (by omega), if_neg (by omega), if_neg (by omega), if_neg (by omega), if_neg (by omega),
      if_neg (by omega), map_add, map_add]
    congr 4; omega

end

/-! ## Entries of the program -/

/-- The contract between one accuracy of the program's generator and the linear algebra. -/
structure StepLin {σ S : Type} {w : ℕ} [AddCommGroup S] [Module (ZMod 2) S]
    (step : σ → σ × BitVec w) (addf : σ → σ → σ) (Inv : σ → Prop) (den : σ → S)
    (T : S →ₗ[ZMod 2] S) (Om : S →ₗ[ZMod 2] V) : Prop where
  inv_step : ∀ s, Inv s → Inv (step s).1
  den_step : ∀ s, Inv s → den (step s).1 = T (den s)
  out_step : ∀ s, Inv s → bits (step s).2 = Om (den s)
  inv_add : ∀ a b, Inv a → Inv b → Inv (addf a b)
  den_add : ∀ a b, Inv a → Inv b → den (addf a b) = den a + den b

section
variable {σ S : Type} {w : ℕ} [AddCommGroup S] [Module (ZMod 2) S]
  {step : σ → σ × BitVec w} {addf : σ → σ → σ} {Inv : σ → Prop} {den : σ → S}
  {T : S →ₗ[ZMod 2] S} {Om : S →ₗ[ZMod 2] V}

/-- The series of a program entry. -/
def ser (den : σ → S) (T : S →ₗ[ZMod 2] S) (Om : S →ₗ[ZMod 2] V) (e : Entry σ w) : Ser :=
  eser T Om e.count (bits e.next) (den e.rand)

theorem ser_gen (h : StepLin step addf Inv den T Om) {e : Entry σ w} (hi : Inv e.rand)
    (hn : e.next = 0) : ser den T Om (e.gen step) = ser den T Om e := by
  unfold ser Entry.gen
  simp only []
  rw [h.out_step _ hi, h.den_step _ hi, eser_gen, hn, bits_zero]

theorem nextLoop_spec (h : StepLin step addf Inv den T Om) (r : ℕ) (e : Entry σ w)
    (hi : Inv e.rand) :
    Inv (nextLoop step r e).rand ∧ ser den T Om (nextLoop step r e) = ser den T Om e ∧
    e.count ≤ (nextLoop step r e).count ∧
    (((nextLoop step r e).zero = e.zero ∧ (nextLoop step r e).next ≠ 0) ∨
     ((nextLoop step r e).zero = true ∧ (nextLoop step r e).next = 0 ∧
       ∀ t : ℤ, t ≤ e.count + r → ser den T Om e t = 0)) := by
  induction r generalizing e with
  | zero =>
    unfold nextLoop
    by_cases hn : e.next = 0
    · rw [if_neg (by simpa using hn)]
      refine ⟨hi, rfl, le_rfl, Or.inr ⟨rfl, hn, fun t ht => ?_⟩⟩
      unfold ser
      rcases lt_or_ge t e.count with h1 | h1
      · exact eser_below T Om h1
      · have : t = e.count := by simp at ht; omega
        rw [this, eser_at, hn, bits_zero]
    · rw [if_pos hn]
      exact ⟨hi, rfl, le_rfl, Or.inl ⟨rfl, hn⟩⟩
  | succ r ih =>
    unfold nextLoop
    by_cases hn : e.next = 0
    · rw [if_neg (by simpa using hn)]
      simp only []
      obtain ⟨i1, i2, i3, i4⟩ := ih (e.gen step) (h.inv_step _ hi)
      have hc : (e.gen step).count = e.count + 1 := rfl
      rw [ser_gen h hi hn] at i2 i4
      refine ⟨i1, i2, by omega, ?_⟩
      rcases i4 with ⟨a, b⟩ | ⟨a, b, c⟩
      · exact Or.inl ⟨a, b⟩
      · refine Or.inr ⟨a, b, fun t ht => c t ?_⟩
        rw [hc]; push_cast at ht ⊢; omega
    · rw [if_pos hn]
      exact ⟨hi, rfl, le_rfl, Or.inl ⟨rfl, hn⟩⟩

/-- `next_state` on an entry whose word is zero: the series is unchanged; either a non-zero leading
coefficient is found at a larger count, or the series is zero and is flagged. -/
theorem nextState_spec (h : StepLin step addf Inv den T Om) {B : ℕ} {χ : (ZMod 2)[X]}
    (hχ : χ.Monic) {s0 : S} (h0 : aeval T χ s0 = 0) (hB : χ.natDegree ≤ 2 * B + 1)
    {m : ℕ} (e : Entry σ w) (hi : Inv e.rand) (hn : e.next = 0) (hz : e.zero = false)
    (hL : ser den T Om e ∈ Lat T Om s0 m) :
    Inv (nextState step B e).rand ∧ ser den T Om (nextState step B e) = ser den T Om e ∧
    (((nextState step B e).zero = false ∧ (nextState step B e).next ≠ 0 ∧
        e.count < (nextState step B e).count) ∨
     ((nextState step B e).zero = true ∧ (nextState step B e).next = 0 ∧ ser den T Om e = 0)) := by
  unfold nextState
  rw [hz]
  simp only [Bool.false_eq_true, if_false]
  obtain ⟨i1, i2, i3, i4⟩ := nextLoop_spec h (2 * B) (e.gen step) (h.inv_step _ hi)
  have hc : (e.gen step).count = e.count + 1 := rfl
  have hz' : (e.gen step).zero = e.zero := rfl
  rw [ser_gen h hi hn] at i2 i4
  refine ⟨i1, i2, ?_⟩
  rcases i4 with ⟨a, b⟩ | ⟨a, b, c⟩
  · exact Or.inl ⟨by rw [a, hz', hz], b, by omega⟩
  · refine Or.inr ⟨a, b, Lat_zero T Om hχ h0 hL (fun t ht => c t ?_)⟩
    rw [hc]; push_cast; omega

/-! ## The invariant -/

/-- Invariant of the program at accuracy `m`. -/
structure PInv (Inv : σ → Prop) (den : σ → S) (T : S →ₗ[ZMod 2] S) (Om : S →ₗ[ZMod 2] V)
    (s0 : S) (m : ℕ) (b : ℕ → Entry σ w) : Prop where
  inv : ∀ i ≤ m, Inv (b i).rand
  low : ∀ i < m, Low (bits (b i).next) i
  flag : ∀ i < m, (b i).zero = false
  zero : (b m).zero = true → ser den T Om (b m) = 0
  nonzero : (b m).zero = false → (b m).next ≠ 0
  span : gens (fun i => ser den T Om (b i)) (m + 1) = Lat T Om s0 m

theorem PInv.memLat {s0 : S} {m : ℕ} {b : ℕ → Entry σ w} (h : PInv Inv den T Om s0 m b)
    {i : ℕ} (hi : i ≤ m) : ser den T Om (b i) ∈ Lat T Om s0 m := by
  rw [← h.span]
  exact mem_gens' (fun i => ser den T Om (b i)) (by omega)

theorem PInv.mbound {s0 : S} {m : ℕ} {b : ℕ → Entry σ w} (h : PInv Inv den T Om s0 m b)
    {i : ℕ} (hi : i ≤ m) : ∀ j, m ≤ j → bits (b i).next j = 0 := by
  intro j hj
  have := (h.memLat hi).2.1 (b i).count j hj
  unfold ser at this
  rwa [eser_at] at this

theorem count_le {χ : (ZMod 2)[X]} (hχ : χ.Monic) {s0 : S} (h0 : aeval T χ s0 = 0) {m : ℕ}
    {e : Entry σ w} (hL : ser den T Om e ∈ Lat T Om s0 m) (hn : e.next ≠ 0) :
    e.count ≤ χ.natDegree := by
  by_contra hc
  push Not at hc
  have : ser den T Om e = 0 := Lat_zero T Om hχ h0 hL (fun t ht => eser_below T Om (by omega))
  have h2 := congrFun this e.count
  unfold ser at h2
  rw [eser_at] at h2
  exact hn (bits_eq_zero.1 h2)


theorem Low.ne_zero {x : V} {i : ℕ} (h : Low x i) : x ≠ 0 := by
  intro h0; have := h.1; rw [h0] at this; exact zero_ne_one this

theorem Low.unique {x : V} {i j : ℕ} (hi : Low x i) (hj : Low x j) : i = j := by
  rcases lt_trichotomy i j with h | h | h
  · have := hi.2 j h; rw [hj.1] at this; exact absurd this one_ne_zero
  · exact h
  · have := hj.2 i h; rw [hi.1] at this; exact absurd this one_ne_zero

theorem two_add_self (x : ZMod 2) : x + x = 0 := by revert x; decide

theorem V_add_self (x : V) : x + x = 0 := by funext i; exact two_add_self _

theorem Ser_add_self (x : Ser) : x + x = 0 := by funext t; exact V_add_self _

/-- Replacing the extra entry by itself plus a shifted basis entry. -/
theorem update_PInv {s0 : S} {m : ℕ} {b : ℕ → Entry σ w} (h : PInv Inv den T Om s0 m b)
    {p : ℕ} (hp : p < m) (d : ℕ) (e' : Entry σ w) (hi : Inv e'.rand)
    (hs : ser den T Om e' = ser den T Om (b m) + shift d (ser den T Om (b p)))
    (hz : e'.zero = true → ser den T Om e' = 0) (hn : e'.zero = false → e'.next ≠ 0) :
    PInv Inv den T Om s0 m (Function.update b m e') := by
  have hne : ∀ i, i < m → Function.update b m e' i = b i :=
    fun i hi => Function.update_of_ne (by omega) _ _
  have hself : Function.update b m e' m = e' := Function.update_self _ _ _
  refine ⟨?_, ?_, ?_, ?_, ?_, ?_⟩
  · intro i him
    rcases Nat.lt_or_ge i m with h1 | h1
    · rw [hne i h1]; exact h.inv i him
    · obtain rfl : i = m := by omega
      rw [hself]; exact hi
  · intro i him; rw [hne i him]; exact h.low i him
  · intro i him; rw [hne i him]; exact h.flag i him
  · rw [hself]; exact hz
  · rw [hself]; exact hn
  · rw [← h.span]
    apply le_antisymm
    · apply gens_le_gens
      intro i him
      rcases Nat.lt_or_ge i m with h1 | h1
      · rw [hne i h1]; exact mem_gens' (fun i => ser den T Om (b i)) (by omega)
      · obtain rfl : i = m := by omega
        rw [hself, hs]
        exact Submodule.add_mem _ (mem_gens' (fun i => ser den T Om (b i)) (by omega))
          (mem_gens (fun i => ser den T Om (b i)) (by omega) d)
    · apply gens_le_gens
      intro i him
      rcases Nat.lt_or_ge i m with h1 | h1
      · rw [← hne i h1]
        exact mem_gens' (fun i => ser den T Om (Function.update b m e' i)) (by omega)
      · obtain rfl : i = m := by omega
        have h2 : ser den T Om (b i) = ser den T Om e' + shift d (ser den T Om (b p)) := by
          rw [hs, add_assoc, Ser_add_self, add_zero]
        rw [h2, ← hne p hp]
        have h3 := mem_gens' (fun j => ser den T Om (Function.update b i e' j)) (show i < i + 1 by omega)
        simp only [hself] at h3
        exact Submodule.add_mem _ h3
          (mem_gens (fun j => ser den T Om (Function.update b i e' j)) (by omega) d)

/-- Swapping the extra entry with the basis entry of the same pivot. -/
theorem swap_PInv {s0 : S} {m : ℕ} {b : ℕ → Entry σ w} (h : PInv Inv den T Om s0 m b)
    {p : ℕ} (hp : p < m) (hz : (b m).zero = false) (hl : Low (bits (b m).next) p) :
    PInv Inv den T Om s0 m (swapE b m p) := by
  have hm : swapE b m p m = b p := by
    unfold swapE; rw [Function.update_of_ne (by omega), Function.update_self]
  have hpp : swapE b m p p = b m := by unfold swapE; rw [Function.update_self]
  have ho : ∀ i, i ≠ m → i ≠ p → swapE b m p i = b i := by
    intro i h1 h2; unfold swapE; rw [Function.update_of_ne h2, Function.update_of_ne h1]
  refine ⟨?_, ?_, ?_, ?_, ?_, ?_⟩
  · intro i hi
    by_cases h1 : i = m
    · rw [h1, hm]; exact h.inv p (by omega)
    · by_cases h2 : i = p
      · rw [h2, hpp]; exact h.inv m le_rfl
      · rw [ho i h1 h2]; exact h.inv i hi
  · intro i hi
    by_cases h2 : i = p
    · rw [h2, hpp]; exact hl
    · rw [ho i (by omega) h2]; exact h.low i hi
  · intro i hi
    by_cases h2 : i = p
    · rw [h2, hpp]; exact hz
    · rw [ho i (by omega) h2]; exact h.flag i hi
  · rw [hm]; intro h1; rw [h.flag p hp] at h1; exact absurd h1 (by decide)
  · rw [hm]; intro _ h1
    exact (h.low p hp).ne_zero (bits_eq_zero.2 h1)
  · rw [← h.span]
    apply le_antisymm
    · apply gens_le_gens
      intro i him
      by_cases h1 : i = m
      · rw [h1, hm]; exact mem_gens' (fun i => ser den T Om (b i)) (by omega)
      · by_cases h2 : i = p
        · rw [h2, hpp]; exact mem_gens' (fun i => ser den T Om (b i)) (by omega)
        · rw [ho i h1 h2]; exact mem_gens' (fun i => ser den T Om (b i)) (by omega)
    · apply gens_le_gens
      intro i him
      by_cases h1 : i = m
      · rw [h1, ← hpp]; exact mem_gens' (fun i => ser den T Om (swapE b m p i)) (by omega)
      · by_cases h2 : i = p
        · rw [h2, ← hm]; exact mem_gens' (fun i => ser den T Om (swapE b m p i)) (by omega)
        · rw [← ho i h1 h2]; exact mem_gens' (fun i => ser den T Om (swapE b m p i)) (by omega)

/-- Sum of all counters. -/
def Phi (m : ℕ) (b : ℕ → Entry σ w) : ℕ := ∑ i ∈ range m, (b i).count + (b m).count

theorem Phi_update {m : ℕ} (b : ℕ → Entry σ w) (e : Entry σ w) :
    Phi m (Function.update b m e) + (b m).count = Phi m b + e.count := by
  unfold Phi
  have : ∑ i ∈ range m, (Function.update b m e i).count = ∑ i ∈ range m, (b i).count := by
    apply sum_congr rfl
    intro i hi
    rw [mem_range] at hi
    rw [Function.update_of_ne (by omega)]
  rw [this, Function.update_self]; ring

theorem Phi_swap {m p : ℕ} (hp : p < m) (b : ℕ → Entry σ w) : Phi m (swapE b m p) = Phi m b := by
  unfold Phi
  have hm : swapE b m p m = b p := by
    unfold swapE; rw [Function.update_of_ne (by omega), Function.update_self]
  have hpp : swapE b m p p = b m := by unfold swapE; rw [Function.update_self]
  have ho : ∀ i, i ≠ m → i ≠ p → swapE b m p i = b i := by
    intro i h1 h2; unfold swapE; rw [Function.update_of_ne h2, Function.update_of_ne h1]
  rw [hm, ← add_sum_erase _ _ (mem_range.2 hp), ← add_sum_erase (range m) (fun i => (b i).count) (mem_range.2 hp),
    hpp]
  have : ∑ i ∈ (range m).erase p, (swapE b m p i).count = ∑ i ∈ (range m).erase p, (b i).count := by
    apply sum_congr rfl
    intro i hi
    rw [mem_erase, mem_range] at hi
    rw [ho i (by omega) hi.1]
  rw [this]; ring

theorem PInv.Phi_le {χ : (ZMod 2)[X]} (hχ : χ.Monic) {s0 : S} (h0 : aeval T χ s0 = 0) {m : ℕ}
    {b : ℕ → Entry σ w} (h : PInv Inv den T Om s0 m b) (hz : (b m).zero = false) :
    Phi m b ≤ (m + 1) * χ.natDegree := by
  unfold Phi
  have h1 : ∑ i ∈ range m, (b i).count ≤ ∑ i ∈ range m, χ.natDegree := by
    apply sum_le_sum
    intro i hi
    have hi' := mem_range.1 hi
    exact count_le hχ h0 (h.memLat (by omega))
      (fun hh => (h.low i hi').ne_zero (bits_eq_zero.2 hh))
  have h2 := count_le hχ h0 (h.memLat le_rfl) (h.nonzero hz)
  rw [sum_const, card_range, smul_eq_mul] at h1
  rw [add_mul, one_mul]; omega

/-- The main loop terminates without error and keeps the invariant. -/
theorem mainLoop_spec (h : StepLin step addf Inv den T Om) {B : ℕ} {χ : (ZMod 2)[X]}
    (hχ : χ.Monic) {s0 : S} (h0 : aeval T χ s0 = 0) (hB : χ.natDegree ≤ 2 * B + 1)
    {calc1pos : BitVec w → Int} (hc : IsCalc1pos calc1pos) {m : ℕ} :
    ∀ (fuel : ℕ) (b : ℕ → Entry σ w) (pivot : Int), PInv Inv den T Om s0 m b →
      ((b m).zero = true ∧ 1 ≤ fuel ∨ ∃ p : ℕ, pivot = p ∧ Low (bits (b m).next) p ∧
        (b m).zero = false ∧ m * ((m + 1) * χ.natDegree - Phi m b) + p + 1 < fuel) →
      ∃ b', mainLoop step addf B calc1pos m fuel b pivot = .ok b' ∧
        PInv Inv den T Om s0 m b' ∧ (b' m).zero = true := by
  intro fuel
  induction fuel with
  | zero =>
    intro b pivot hP hf
    rcases hf with ⟨_, hf⟩ | ⟨p, _, _, _, hf⟩ <;> omega
  | succ fuel ih =>
    intro b pivot hP hf
    unfold mainLoop
    rcases hf with ⟨hz, _⟩ | ⟨p, hpiv, hl, hz, hf⟩
    · rw [if_pos hz]; exact ⟨b, rfl, hP, hz⟩
    rw [if_neg (by rw [hz]; decide)]
    have hp : p < m := by
      by_contra hh
      have := hP.mbound le_rfl p (by omega)
      rw [hl.1] at this; exact one_ne_zero this
    rw [if_neg (by omega), hpiv, Int.toNat_natCast]
    simp only []
    set b1 := if (b m).count > (b p).count then swapE b m p else b with hb1
    have hP1 : PInv Inv den T Om s0 m b1 := by
      rw [hb1]; split
      · exact swap_PInv hP hp hz hl
      · exact hP
    have hPhi1 : Phi m b1 = Phi m b := by
      rw [hb1]; split
      · exact Phi_swap hp b
      · rfl
    have hm : swapE b m p m = b p := by
      unfold swapE; rw [Function.update_of_ne (by omega), Function.update_self]
    have hpp : swapE b m p p = b m := by unfold swapE; rw [Function.update_self]
    have hc1 : (b1 m).count ≤ (b1 p).count := by
      rw [hb1]; split
      · rw [hm, hpp]; omega
      · omega
    have hz1 : (b1 m).zero = false := by
      rw [hb1]; split
      · rw [hm]; exact hP.flag p hp
      · exact hz
    have hl1 : Low (bits (b1 m).next) p := by
      rw [hb1]; split
      · rw [hm]; exact hP.low p hp
      · exact hl
    have hl2 := hP1.low p hp
    set e' := (b1 m).add addf (b1 p) with he'
    have hinv' : Inv e'.rand := h.inv_add _ _ (hP1.inv m le_rfl) (hP1.inv p (by omega))
    have hser' : ser den T Om e' =
        ser den T Om (b1 m) + shift ((b1 p).count - (b1 m).count) (ser den T Om (b1 p)) := by
      show eser T Om (b1 m).count (bits ((b1 m).next ^^^ (b1 p).next))
        (den (addf (b1 m).rand (b1 p).rand)) = _
      rw [bits_xor, h.den_add _ _ (hP1.inv m le_rfl) (hP1.inv p (by omega)), eser_add T Om hc1]
      rfl
    have hcount' : e'.count = (b1 m).count := rfl
    have hzero' : e'.zero = false := hz1
    have hbits' : bits e'.next = bits (b1 m).next + bits (b1 p).next := bits_xor _ _
    rw [Function.update_self]
    by_cases hn : e'.next = 0
    · rw [if_pos hn, Function.update_idem, Function.update_self]
      have hL : ser den T Om e' ∈ Lat T Om s0 m := by
        rw [hser']
        exact Submodule.add_mem _ (hP1.memLat le_rfl) (Lat_shift T Om s0 m _ _ (hP1.memLat (by omega)))
      obtain ⟨n1, n2, n3⟩ := nextState_spec h hχ h0 hB e' hinv' hn hzero' hL
      set e'' := nextState step B e' with he''
      have hP3 : PInv Inv den T Om s0 m (Function.update b1 m e'') := by
        apply update_PInv hP1 hp ((b1 p).count - (b1 m).count) e'' n1 (by rw [n2, hser'])
        · intro hz3
          rcases n3 with ⟨a, _, _⟩ | ⟨_, _, a⟩
          · rw [a] at hz3; exact absurd hz3 (by decide)
          · rw [n2]; exact a
        · intro hz3
          rcases n3 with ⟨_, a, _⟩ | ⟨a, _, _⟩
          · exact a
          · rw [a] at hz3; exact absurd hz3 (by decide)
      apply ih _ _ hP3
      rw [Function.update_self]
      rcases n3 with ⟨a, a2, a3⟩ | ⟨a, _, _⟩
      · right
        obtain ⟨q, hq, hlq⟩ := hc e''.next a2
        refine ⟨q, hq, hlq, a, ?_⟩
        have hq' : q < m := by
          by_contra hh
          have h5 := hP3.mbound le_rfl q (by omega)
          rw [Function.update_self, hlq.1] at h5; exact one_ne_zero h5
        have hle := hP3.Phi_le hχ h0 (by rw [Function.update_self]; exact a)
        have hup := Phi_update (m := m) b1 e''
        have hlt : Phi m b + 1 ≤ Phi m (Function.update b1 m e'') := by omega
        have hsub : (m + 1) * χ.natDegree - Phi m (Function.update b1 m e'') + 1 ≤
            (m + 1) * χ.natDegree - Phi m b := by omega
        have := Nat.mul_le_mul_left m hsub
        rw [Nat.mul_add, Nat.mul_one] at this
        omega
      · exact Or.inl ⟨a, by omega⟩
    · rw [if_neg hn]
      obtain ⟨q, hq, hlq⟩ := hc e'.next hn
      have hqp : q < p := by
        by_contra hh
        have h6 := hlq.1
        rw [hbits', Pi.add_apply] at h6
        rcases Nat.lt_or_ge p q with h7 | h7
        · rw [hl1.2 q h7, hl2.2 q h7, add_zero] at h6; exact zero_ne_one h6
        · obtain rfl : q = p := by omega
          rw [hl1.1, hl2.1] at h6; revert h6; decide
      rw [hq, if_neg (by omega), if_neg (by omega)]
      have hP2 : PInv Inv den T Om s0 m (Function.update b1 m e') := by
        apply update_PInv hP1 hp ((b1 p).count - (b1 m).count) e' hinv' hser'
        · intro hz3; rw [hzero'] at hz3; exact absurd hz3 (by decide)
        · intro _; exact hn
      apply ih _ _ hP2
      right
      rw [Function.update_self]
      refine ⟨q, rfl, hlq, hzero', ?_⟩
      have hup := Phi_update (m := m) b1 e'
      have : Phi m (Function.update b1 m e') = Phi m b := by omega
      rw [this]; omega

end
end MTT.PIS
