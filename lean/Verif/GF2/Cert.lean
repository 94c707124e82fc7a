import Verif.GF2.Engine
import Verif.MT.Orbit

/-!
# Certificates for small linear generators

A polynomial written as a number, its primitivity by powers of `X`, and the check that it annihilates a state.
-/

namespace MTT.GF2

open Polynomial

/-- The polynomial whose coefficients are the lowest `L` bits of `N`. -/
noncomputable def bitPoly : ℕ → ℕ → (ZMod 2)[X]
  | 0, _ => 0
  | L + 1, N => (if N % 2 = 1 then 1 else 0) + X * bitPoly L (N / 2)

theorem bitPoly_coeff (L : ℕ) : ∀ N i, (bitPoly L N).coeff i = if i < L ∧ N.testBit i = true then 1 else 0 := by
  induction L with
  | zero => intro N i; rw [bitPoly, coeff_zero, if_neg (by omega)]
  | succ L ih =>
    intro N i
    rw [bitPoly, coeff_add]
    cases i with
    | zero =>
      rw [coeff_X_mul_zero, add_zero, Nat.testBit_zero]
      by_cases h : N % 2 = 1 <;> simp [h]
    | succ i =>
      rw [coeff_X_mul, ih, Nat.testBit_succ]
      have : (if N % 2 = 1 then (1 : (ZMod 2)[X]) else 0).coeff (i + 1) = 0 := by
        split
        · rw [coeff_one, if_neg (by omega)]
        · exact coeff_zero _
      rw [this, zero_add]
      simp only [Nat.add_lt_add_iff_right]

theorem bitPoly_natDegree {n N : ℕ} (h : N.testBit n = true) : (bitPoly (n + 1) N).natDegree = n := by
  apply natDegree_eq_of_le_of_coeff_ne_zero
  · rw [natDegree_le_iff_coeff_eq_zero]
    intro i hi
    rw [bitPoly_coeff, if_neg (by omega)]
  · rw [bitPoly_coeff, if_pos ⟨by omega, h⟩]; exact one_ne_zero

/-- The number that represents the polynomial. -/
def sp (s : Nat) : Nat → Nat → Nat
  | 0, _ => 0
  | L + 1, N => N % 2 + 2 ^ s * sp s L (N / 2)

theorem sp_rep {s : ℕ} : ∀ L N, Rep s L (sp s L N) (bitPoly L N) := by
  intro L
  induction L with
  | zero => intro N; exact ⟨0, by simp [sp], fun i => by simp, fun i _ => coeff_zero _, map_zero _⟩
  | succ L ih =>
    intro N
    obtain ⟨F, h1, h2, h3, h4⟩ := ih (N / 2)
    refine ⟨C (N % 2) + X * F, ?_, fun i => ?_, fun i hi => ?_, ?_⟩
    · rw [sp, h1]; simp
    · cases i with
      | zero => rw [coeff_add, coeff_X_mul_zero, coeff_C_zero]; omega
      | succ i => rw [coeff_add, coeff_X_mul, coeff_C_succ, zero_add]; exact h2 i
    · cases i with
      | zero => omega
      | succ i => rw [coeff_add, coeff_X_mul, coeff_C_succ, zero_add]; exact h3 i (by omega)
    · rw [map_add, map_mul, h4, bitPoly]
      congr 1
      · rcases Nat.mod_two_eq_zero_or_one N with h | h <;> simp [h, red]
      · simp [red]

/-! ## Powers of `X` -/

theorem mulMod_zero_left (sn M mu P b : ℕ) : mulMod sn M mu P 0 b = 0 := by
  unfold mulMod
  rw [force_eq, force_eq]
  have e : Nat.land (Nat.mul 0 b) M = 0 := by
    show (0 * b) &&& M = 0
    simp
  have e2 : Nat.shiftRight 0 sn = 0 := Nat.zero_shiftRight _
  have e3 : Nat.land (Nat.add 0 (Nat.mul (Nat.shiftRight (Nat.land (Nat.mul 0 mu) M) sn) P)) M = 0 := by
    show (0 + (((0 * mu) &&& M) >>> sn) * P) &&& M = 0
    simp
  rw [e, e2, e3]
  cases Nat.beq (Nat.shiftRight 0 sn) 0 <;> rfl

/-- `X^e` for exponents of at most `k` bits. -/
def powX (sn M mu P B : Nat) (k : Nat) : Nat → Nat :=
  Nat.rec (motive := fun _ => Nat → Nat) (fun _ => 1) (fun _ ih e =>
    force (ih (Nat.div e 2)) fun r => force (mulMod sn M mu P r r) fun r2 =>
      Bool.rec r2 (mulMod sn M mu P r2 B) (Nat.beq (Nat.mod e 2) 1)) k

theorem powX_succ (sn M mu P B k e : ℕ) : powX sn M mu P B (k + 1) e =
    Bool.rec (mulMod sn M mu P (powX sn M mu P B k (e / 2)) (powX sn M mu P B k (e / 2)))
      (mulMod sn M mu P (mulMod sn M mu P (powX sn M mu P B k (e / 2)) (powX sn M mu P B k (e / 2))) B)
      (Nat.beq (e % 2) 1) := by
  have h : powX sn M mu P B (k + 1) e = force (powX sn M mu P B k (e / 2)) fun r =>
      force (mulMod sn M mu P r r) fun r2 =>
        Bool.rec r2 (mulMod sn M mu P r2 B) (Nat.beq (Nat.mod e 2) 1) := rfl
  rw [h, force_eq, force_eq]
  rfl

theorem powX_spec {s n mu P : ℕ} {p : (ZMod 2)[X]} (hP : Mod s n P p) (hn : 2 ≤ n) (k : ℕ) : ∀ e, e < 2 ^ k →
    powX (s * n) (mask s (2 * n)) mu P (2 ^ s) k e ≠ 0 →
    ∃ f, Rep s n (powX (s * n) (mask s (2 * n)) mu P (2 ^ s) k e) f ∧ p ∣ f - X ^ e := by
  induction k with
  | zero =>
    intro e he _
    have : e = 0 := by omega
    subst this
    exact ⟨1, rep_one (by omega), by simp⟩
  | succ k ih =>
    intro e he h
    rw [powX_succ] at h ⊢
    generalize hr : powX (s * n) (mask s (2 * n)) mu P (2 ^ s) k (e / 2) = r at h ⊢
    have h2 : mulMod (s * n) (mask s (2 * n)) mu P r r ≠ 0 := by
      intro e0
      rw [e0, mulMod_zero_left] at h
      cases hb : Nat.beq (e % 2) 1 <;> rw [hb] at h <;> exact h rfl
    have h1 : r ≠ 0 := fun e0 => h2 (by rw [e0, mulMod_zero_left])
    obtain ⟨f, hf, hd⟩ := ih (e / 2) (by rw [pow_succ] at he; omega) (by rw [hr]; exact h1)
    rw [hr] at hf
    obtain ⟨g, hg, hd2⟩ := mulMod_spec hP hf hf h2
    have hd3 : p ∣ g - X ^ (2 * (e / 2)) := by
      have e1 : g - X ^ (2 * (e / 2)) = (g - f * f) + (f - X ^ (e / 2)) * (f + X ^ (e / 2)) := by
        rw [two_mul, pow_add]; ring
      rw [e1]
      exact dvd_add hd2 (hd.mul_right _)
    cases hb : Nat.beq (e % 2) 1 with
    | false =>
      rw [hb] at h
      refine ⟨g, hg, ?_⟩
      have : e % 2 ≠ 1 := Nat.ne_of_beq_eq_false hb
      rwa [show 2 * (e / 2) = e by omega] at hd3
    | true =>
      rw [hb] at h
      have : e % 2 = 1 := Nat.eq_of_beq_eq_true hb
      obtain ⟨u, hu, hd4⟩ := mulMod_spec hP hg (rep_X hn) h
      refine ⟨u, hu, ?_⟩
      have e1 : u - X ^ e = (u - g * X) + (g - X ^ (2 * (e / 2))) * X := by
        conv_lhs => rw [show e = 2 * (e / 2) + 1 by omega, pow_succ]
        ring
      rw [e1]
      exact dvd_add hd4 (hd3.mul_right _)

theorem rep_one_unique {s L N : ℕ} (h : Rep s L N 1) : N = 1 := by
  obtain ⟨F, h1, h2, h3, h4⟩ := h
  have : F = 1 := by
    ext i
    have h5 : (red F).coeff i = (1 : (ZMod 2)[X]).coeff i := by rw [h4]
    rw [red, coe_mapRingHom, coeff_map, coeff_one] at h5
    rw [coeff_one]
    rcases Nat.le_one_iff_eq_zero_or_eq_one.1 (h2 i) with h | h <;> rw [h] at h5 ⊢ <;> split at h5 <;>
      simp_all
  rw [h1, this, eval_one]

/-- What the kernel has to evaluate for a polynomial of degree `n`, given the exponent `E` and the list `Q` of its
prime factors (`mu` is the quotient of `X^(2n)` by the polynomial). -/
def orderCheck (s n mu N : Nat) (E : Nat) (Q : List Nat) : Bool :=
  force (sp s (n + 1) N) fun P => force (sp s (n + 1) mu) fun mu => force (mask s (2 * n)) fun M => force (2 ^ s) fun B =>
    Nat.testBit N n && Nat.beq (powX (s * n) M mu P B n E) 1 &&
      Q.all fun q => !Nat.beq (powX (s * n) M mu P B n (E / q)) 0 && !Nat.beq (powX (s * n) M mu P B n (E / q)) 1

theorem primitive_of_check {s n mu N : ℕ} (hs : 1 ≤ s) (hn : 2 ≤ n) (hns : n + 3 ≤ 2 ^ s) {Q : List ℕ}
    (hQ : ∀ q, q.Prime → q ∣ 2 ^ n - 1 → q ∈ Q) (h : orderCheck s n mu N (2 ^ n - 1) Q = true) :
    Primitive2 (bitPoly (n + 1) N) n := by
  unfold orderCheck at h
  rw [force_eq, force_eq, force_eq, force_eq, Bool.and_eq_true, Bool.and_eq_true, List.all_eq_true] at h
  obtain ⟨⟨ht, h1⟩, h2⟩ := h
  have h1 := Nat.eq_of_beq_eq_true h1
  have hP : Mod s n (sp s (n + 1) N) (bitPoly (n + 1) N) := ⟨hs, hns, sp_rep _ _⟩
  have hpos := one_le_two_pow_sub (n := n) (by omega)
  have hdeg := bitPoly_natDegree ht
  refine ⟨hdeg, fun k => ?_⟩
  have hord : orderOf (AdjoinRoot.root (bitPoly (n + 1) N)) = 2 ^ n - 1 := by
    apply orderOf_eq_of_pow_and_pow_div_prime hpos
    · rw [root_pow_eq_one]
      obtain ⟨f, hf, hd⟩ := powX_spec hP hn n (mu := sp s (n + 1) mu) (2 ^ n - 1) (by omega) (by rw [h1]; exact one_ne_zero)
      rw [h1] at hf
      rw [hf.unique hs (rep_one (n := n) (by omega)), ← dvd_neg, neg_sub] at hd
      exact hd
    · intro q hq hq2
      rw [Ne, root_pow_eq_one]
      intro hc
      have h3 := h2 q (hQ q hq hq2)
      rw [Bool.and_eq_true, Bool.not_eq_true', Bool.not_eq_true'] at h3
      have h4 := Nat.ne_of_beq_eq_false h3.1
      have h5 := Nat.ne_of_beq_eq_false h3.2
      obtain ⟨f, hf, hd⟩ := powX_spec hP hn n (mu := sp s (n + 1) mu) ((2 ^ n - 1) / q)
        (lt_of_le_of_lt (Nat.div_le_self _ _) (by omega)) h4
      have h6 : bitPoly (n + 1) N ∣ f - 1 := by
        have := dvd_add hd hc
        rwa [sub_add_sub_cancel] at this
      have h7 : f - 1 = 0 := by
        by_contra hne
        have h8 := natDegree_le_of_dvd h6 hne
        rw [hdeg] at h8
        have h9 : (f - 1).natDegree < n := by
          have ha : ∀ i, n ≤ i → (f - 1).coeff i = 0 := fun i hi => by
            rw [coeff_sub, hf.coeff_zero hi, coeff_one, if_neg (by omega), sub_zero]
          by_contra hlt
          exact leadingCoeff_ne_zero.2 hne (ha _ (by omega))
        omega
      rw [sub_eq_zero] at h7
      rw [h7] at hf
      exact h5 (rep_one_unique hf)
  rw [← root_pow_eq_one, ← orderOf_dvd_iff_pow_eq_one, hord]

/-! ## Annihilation of a state -/

section Ann

variable {S : Type} [AddCommGroup S] [Module (ZMod 2) S] {T : S →ₗ[ZMod 2] S}

/-- Sum of `T^i s` over the bits `i < L` of `N`, plus `a`; `fc` evaluates its argument. -/
def ev (fc : S → (S → S) → S) (f : S → S) : Nat → Nat → S → S → S
  | 0, _, _, a => a
  | L + 1, N, s, a =>
    fc (Bool.rec a (a + s) (Nat.beq (N % 2) 1)) fun a => fc (f s) fun s => force (N / 2) fun N => ev fc f L N s a

theorem ev_spec {fc : S → (S → S) → S} (hfc : ∀ s k, fc s k = k s) {f : S → S} (hf : ∀ s, f s = T s) :
    ∀ L N s a, ev fc f L N s a = a + aeval T (bitPoly L N) s := by
  intro L
  induction L with
  | zero => intro N s a; rw [ev, bitPoly, map_zero, LinearMap.zero_apply, add_zero]
  | succ L ih =>
    intro N s a
    rw [ev, hfc, hfc, force_eq, ih, bitPoly, map_add, map_mul, aeval_X, LinearMap.add_apply, hf,
      ← add_assoc]
    have hc : (T * aeval T (bitPoly L (N / 2))) s = aeval T (bitPoly L (N / 2)) (T s) := by
      have h1 : T * aeval T (bitPoly L (N / 2)) = aeval T (bitPoly L (N / 2)) * T := by
        have h2 := map_mul (aeval (R := ZMod 2) T) X (bitPoly L (N / 2))
        have h3 := map_mul (aeval (R := ZMod 2) T) (bitPoly L (N / 2)) X
        rw [aeval_X] at h2 h3
        rw [← h2, ← h3, mul_comm]
      rw [h1]; rfl
    rw [hc]
    congr 1
    cases hb : Nat.beq (N % 2) 1 with
    | false =>
      have : ¬ N % 2 = 1 := Nat.ne_of_beq_eq_false hb
      rw [if_neg this, map_zero, LinearMap.zero_apply, add_zero]
    | true =>
      have : N % 2 = 1 := Nat.eq_of_beq_eq_true hb
      rw [if_pos this, map_one]
      rfl

/-- A primitive polynomial of full degree that annihilates one non-zero state annihilates all of them. -/
theorem aeval_all [Module.Finite (ZMod 2) S] {n : ℕ} (hn : 1 ≤ n) (hdim : Module.finrank (ZMod 2) S = n)
    {p : (ZMod 2)[X]} (hp : Primitive2 p n) {e : S} (he : e ≠ 0) (h : aeval T p e = 0) (s : S) :
    aeval T p s = 0 := by
  by_cases hs : s = 0
  · rw [hs, map_zero]
  · obtain ⟨k, -, rfl⟩ := Search.orbit_all hn hdim he (fun k => Search.period_of_primitive hn hp h he k) hs
    have : aeval T p ((T ^ k) e) = (T ^ k) (aeval T p e) := by
      rw [← Module.End.mul_apply, ← Module.End.mul_apply]
      congr 1
      conv_lhs => rw [← aeval_X_pow (R := ZMod 2) T (n := k), ← map_mul, mul_comm, map_mul, aeval_X_pow]
    rw [this, h, map_zero]

end Ann

/-- Evaluates a word. -/
def fw {w : Nat} {α : Type} (x : Wd w) (k : Wd w → α) : α := force x.val.toNat fun n => k (Wd.of (BitVec.ofNat w n))

theorem fw_eq {w : ℕ} {α : Type} (x : Wd w) (k : Wd w → α) : fw x k = k x := by
  unfold fw
  rw [force_eq]
  congr 1
  exact Wd.ext (BitVec.eq_of_toNat_eq (by
    show (BitVec.ofNat w x.val.toNat).toNat = x.val.toNat
    rw [BitVec.toNat_ofNat, Nat.mod_eq_of_lt x.val.isLt]))

end MTT.GF2
