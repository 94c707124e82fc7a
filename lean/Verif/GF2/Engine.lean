import Verif.Spec.Primitive

/-!
# Arithmetic modulo a polynomial over GF(2) in a form the kernel computes quickly

A polynomial is a natural number whose digits in base `2^s` are its coefficients.  A product of two numbers has as
digits the coefficients of the product over the integers, as long as these are less than `2^s`; the mask keeps their
lowest bits.  The quotient that `mulMod` subtracts is computed with the help of a number `mu`, about which nothing
has to be known: any multiple of the modulus may be added.
-/

namespace MTT.GF2

open Polynomial

/-- `k x`, where `x` is evaluated first. -/
def force {α : Type} (x : Nat) (k : Nat → α) : α :=
  Nat.rec (motive := fun _ => α) (k 0) (fun n _ => k (Nat.succ n)) x

theorem force_eq {α : Type} (x : ℕ) (k : ℕ → α) : force x k = k x := by cases x <;> rfl

/-- The number with `L` digits `1` in base `2^s`. -/
def mask (s L : Nat) : Nat := Nat.div (Nat.sub (Nat.pow 2 (Nat.mul s L)) 1) (Nat.sub (Nat.pow 2 s) 1)

/-- `a b` modulo `p` (`sn` is `s` times the degree of `p`, `M` the mask for twice as many digits); `0` if the
reduction does not succeed. -/
def mulMod (sn M mu p a b : Nat) : Nat :=
  force (Nat.land (Nat.mul a b) M) fun c =>
    force (Nat.land (Nat.add c
      (Nat.mul (Nat.shiftRight (Nat.land (Nat.mul (Nat.shiftRight c sn) mu) M) sn) p)) M) fun r =>
        Bool.rec 0 r (Nat.beq (Nat.shiftRight r sn) 0)

/-- `k` squarings. -/
def run (sn M mu p k : Nat) : Nat → Nat :=
  Nat.rec (motive := fun _ => Nat → Nat) (fun a => a) (fun _ ih a => force (mulMod sn M mu p a a) ih) k

/-- Moves the bits of a number with at most `2^b` bits to the distance `s` (only used to write numbers down shortly). -/
def spr (s b : Nat) (x : Nat) : Nat :=
  Nat.rec (motive := fun _ => Nat → Nat) (fun x => x) (fun k ih x =>
    force (Nat.land (Nat.lor x (Nat.shiftLeft x (Nat.mul (Nat.sub s 1) (Nat.pow 2 k))))
      (Nat.mul (mask (Nat.mul s (Nat.pow 2 k)) (Nat.pow 2 (Nat.sub b k))) (Nat.sub (Nat.pow 2 (Nat.pow 2 k)) 1))) ih) b x

/-! ## Meaning -/

/-- Reduction of the coefficients. -/
noncomputable def red : ℕ[X] →+* (ZMod 2)[X] := mapRingHom (Nat.castRingHom (ZMod 2))

/-- The digits of `N` are the coefficients of `F`, all at most `B`, and there are at most `L` of them. -/
structure Raw (s L B N : ℕ) (f : (ZMod 2)[X]) : Prop where
  ex : ∃ F : ℕ[X], N = F.eval (2 ^ s) ∧ (∀ i, F.coeff i ≤ B) ∧ (∀ i, L ≤ i → F.coeff i = 0) ∧ red F = f

/-- `N` represents `f`. -/
abbrev Rep (s L N : ℕ) (f : (ZMod 2)[X]) : Prop := Raw s L 1 N f

theorem Raw.mono {s L L' B B' N : ℕ} {f : (ZMod 2)[X]} (h : Raw s L B N f) (hL : L ≤ L') (hB : B ≤ B') :
    Raw s L' B' N f := by
  obtain ⟨F, h1, h2, h3, h4⟩ := h
  exact ⟨F, h1, fun i => (h2 i).trans hB, fun i hi => h3 i (hL.trans hi), h4⟩

theorem Raw.add {s L B B' N N' : ℕ} {f g : (ZMod 2)[X]} (h : Raw s L B N f) (h' : Raw s L B' N' g) :
    Raw s L (B + B') (N + N') (f + g) := by
  obtain ⟨F, h1, h2, h3, h4⟩ := h
  obtain ⟨G, g1, g2, g3, g4⟩ := h'
  refine ⟨F + G, by rw [eval_add, h1, g1], fun i => ?_, fun i hi => ?_, by rw [map_add, h4, g4]⟩
  · rw [coeff_add]; exact Nat.add_le_add (h2 i) (g2 i)
  · rw [coeff_add, h3 i hi, g3 i hi]

theorem Raw.mul {s L L' B B' N N' : ℕ} {f g : (ZMod 2)[X]} (h : Raw s L B N f) (h' : Raw s L' B' N' g) :
    Raw s (L + L') (L * (B * B')) (N * N') (f * g) := by
  obtain ⟨F, h1, h2, h3, h4⟩ := h
  obtain ⟨G, g1, g2, g3, g4⟩ := h'
  refine ⟨F * G, by rw [eval_mul, h1, g1], fun k => ?_, fun k hk => ?_, by rw [map_mul, h4, g4]⟩
  · rw [coeff_mul, Finset.Nat.sum_antidiagonal_eq_sum_range_succ_mk]
    calc ∑ i ∈ Finset.range k.succ, F.coeff i * G.coeff (k - i)
        ≤ ∑ i ∈ Finset.range k.succ, if i < L then B * B' else 0 := by
          apply Finset.sum_le_sum
          intro i _
          split
          · exact Nat.mul_le_mul (h2 _) (g2 _)
          · rw [h3 i (by omega), zero_mul]
      _ = ((Finset.range k.succ).filter (· < L)).card * (B * B') := by
          rw [← Finset.sum_filter, Finset.sum_const, smul_eq_mul]
      _ ≤ L * (B * B') := by
          apply Nat.mul_le_mul_right
          calc _ ≤ (Finset.range L).card := Finset.card_le_card (by
                intro i hi
                rw [Finset.mem_filter] at hi
                exact Finset.mem_range.2 hi.2)
            _ = L := Finset.card_range L
  · rw [coeff_mul]
    apply Finset.sum_eq_zero
    rintro ⟨i, j⟩ hij
    rw [Finset.mem_antidiagonal] at hij
    dsimp only at hij ⊢
    rcases Nat.lt_or_ge i L with hi | hi
    · rw [g3 j (by omega), mul_zero]
    · rw [h3 i hi, zero_mul]

theorem and_split {s c d a b : ℕ} (hc : c < 2 ^ s) (hd : d < 2 ^ s) :
    (c + 2 ^ s * a) &&& (d + 2 ^ s * b) = (c &&& d) + 2 ^ s * (a &&& b) := by
  apply Nat.eq_of_testBit_eq
  intro i
  have hcd : c &&& d < 2 ^ s := lt_of_le_of_lt Nat.and_le_left hc
  rw [Nat.testBit_and, Nat.add_comm c, Nat.add_comm d, Nat.add_comm (c &&& d),
    Nat.testBit_two_pow_mul_add _ hc, Nat.testBit_two_pow_mul_add _ hd, Nat.testBit_two_pow_mul_add _ hcd]
  split <;> rw [Nat.testBit_and]

theorem mask_eq_sum {s : ℕ} (hs : 1 ≤ s) (L : ℕ) : mask s L = ∑ i ∈ Finset.range L, (2 ^ s) ^ i := by
  have h2 : 2 ≤ 2 ^ s := by
    calc 2 = 2 ^ 1 := rfl
      _ ≤ 2 ^ s := Nat.pow_le_pow_right (by decide) hs
  show (2 ^ (s * L) - 1) / (2 ^ s - 1) = _
  rw [Nat.geomSum_eq h2, pow_mul]

theorem mask_zero (s : ℕ) : mask s 0 = 0 := by
  show (2 ^ (s * 0) - 1) / (2 ^ s - 1) = 0
  simp

theorem mask_succ {s : ℕ} (hs : 1 ≤ s) (L : ℕ) : mask s (L + 1) = 1 + 2 ^ s * mask s L := by
  rw [mask_eq_sum hs, mask_eq_sum hs, Finset.sum_range_succ', Finset.mul_sum, pow_zero, Nat.add_comm]
  congr 1
  apply Finset.sum_congr rfl
  intro i _
  rw [pow_succ']

theorem eval_divX (F : ℕ[X]) (b : ℕ) : F.eval b = F.coeff 0 + b * F.divX.eval b := by
  conv_lhs => rw [← divX_mul_X_add F]
  rw [eval_add, eval_mul, eval_X, eval_C]
  ring

theorem red_eq_iff {F G : ℕ[X]} : red F = red G ↔ ∀ i, (F.coeff i : ZMod 2) = G.coeff i := by
  rw [Polynomial.ext_iff]
  simp only [red, coe_mapRingHom, coeff_map]
  rfl

/-- The mask keeps the lowest bits of the digits. -/
theorem Raw.and_mask {s L B N : ℕ} {f : (ZMod 2)[X]} (hs : 1 ≤ s) (h : Raw s L B N f) (hB : B < 2 ^ s) :
    Rep s L (N &&& mask s L) f := by
  obtain ⟨F, h1, h2, h3, h4⟩ := h
  suffices H : ∀ (L : ℕ) (F : ℕ[X]), (∀ i, F.coeff i ≤ B) → (∀ i, L ≤ i → F.coeff i = 0) →
      ∃ G : ℕ[X], (F.eval (2 ^ s) &&& mask s L) = G.eval (2 ^ s) ∧ ∀ i, G.coeff i = F.coeff i % 2 by
    obtain ⟨G, g1, g2⟩ := H L F h2 h3
    refine ⟨G, by rw [h1, g1], fun i => ?_, fun i hi => ?_, ?_⟩
    · rw [g2]; omega
    · rw [g2, h3 i hi]
    · rw [← h4, red_eq_iff]
      intro i
      rw [g2, ZMod.natCast_mod]
  intro L
  induction L with
  | zero =>
    intro F _ hF0
    refine ⟨0, ?_, fun i => ?_⟩
    · rw [mask_zero, Nat.and_zero, eval_zero]
    · rw [hF0 i (Nat.zero_le _), coeff_zero, Nat.zero_mod]
  | succ L ih =>
    intro F hF hF0
    obtain ⟨G, g1, g2⟩ := ih F.divX (fun i => by rw [coeff_divX]; exact hF _)
      (fun i hi => by rw [coeff_divX]; exact hF0 _ (by omega))
    have h1s : 1 < 2 ^ s := by
      calc 1 < 2 ^ 1 := by decide
        _ ≤ 2 ^ s := Nat.pow_le_pow_right (by decide) hs
    refine ⟨C (F.coeff 0 % 2) + X * G, ?_, fun i => ?_⟩
    · rw [eval_divX F, mask_succ hs, and_split (lt_of_le_of_lt (hF 0) hB) h1s, g1, eval_add, eval_C, eval_mul,
        eval_X, Nat.and_one_is_mod]
    · rcases i with _ | i
      · simp
      · rw [coeff_add, coeff_X_mul, g2, coeff_divX, coeff_C_succ, zero_add]

/-- Whatever the number, the mask makes it represent some polynomial. -/
theorem rep_and_mask {s : ℕ} (hs : 1 ≤ s) : ∀ L N, ∃ f, Rep s L (N &&& mask s L) f := by
  suffices H : ∀ L N, ∃ G : ℕ[X], (N &&& mask s L) = G.eval (2 ^ s) ∧ (∀ i, G.coeff i ≤ 1) ∧
      ∀ i, L ≤ i → G.coeff i = 0 by
    intro L N
    obtain ⟨G, h1, h2, h3⟩ := H L N
    exact ⟨red G, G, h1, h2, h3, rfl⟩
  have h1s : 1 < 2 ^ s := by
    calc 1 < 2 ^ 1 := by decide
      _ ≤ 2 ^ s := Nat.pow_le_pow_right (by decide) hs
  intro L
  induction L with
  | zero => intro N; exact ⟨0, by rw [mask_zero, Nat.and_zero, eval_zero], fun i => by simp, fun i _ => by simp⟩
  | succ L ih =>
    intro N
    obtain ⟨G, g1, g2, g3⟩ := ih (N / 2 ^ s)
    refine ⟨C (N % 2 ^ s % 2) + X * G, ?_, fun i => ?_, fun i hi => ?_⟩
    · conv_lhs => rw [← Nat.mod_add_div N (2 ^ s)]
      rw [mask_succ hs, and_split (Nat.mod_lt _ (by omega)) h1s, g1, eval_add, eval_C, eval_mul,
        eval_X, Nat.and_one_is_mod]
    · rcases i with _ | i
      · simp; omega
      · rw [coeff_add, coeff_X_mul, coeff_C_succ, zero_add]; exact g2 i
    · obtain ⟨j, rfl⟩ : ∃ j, i = j + 1 := ⟨i - 1, by omega⟩
      rw [coeff_add, coeff_X_mul, coeff_C_succ, zero_add]; exact g3 j (by omega)

/-- Shifts drop digits. -/
theorem rep_shiftRight {s L N : ℕ} {f : (ZMod 2)[X]} (hs : 1 ≤ s) (k : ℕ) (h : Rep s L N f) :
    ∃ g, Rep s (L - k) (N >>> (s * k)) g := by
  obtain ⟨F, h1, h2, h3, -⟩ := h
  suffices H : ∃ G : ℕ[X], N >>> (s * k) = G.eval (2 ^ s) ∧ ∀ i, G.coeff i = F.coeff (i + k) by
    obtain ⟨G, g1, g2⟩ := H
    exact ⟨red G, G, g1, fun i => by rw [g2]; exact h2 _, fun i hi => by rw [g2]; exact h3 _ (by omega), rfl⟩
  have h1s : 1 < 2 ^ s := by
    calc 1 < 2 ^ 1 := by decide
      _ ≤ 2 ^ s := Nat.pow_le_pow_right (by decide) hs
  induction k with
  | zero => exact ⟨F, by simpa using h1, fun i => rfl⟩
  | succ k ih =>
    obtain ⟨G, g1, g2⟩ := ih
    refine ⟨G.divX, ?_, fun i => by rw [coeff_divX, g2]; congr 1; omega⟩
    rw [Nat.mul_succ, Nat.shiftRight_add, g1, Nat.shiftRight_eq_div_pow, eval_divX G,
      Nat.add_mul_div_left _ _ (by omega), Nat.div_eq_of_lt, zero_add]
    rw [g2]
    exact lt_of_le_of_lt (h2 _) h1s

/-- A representation of a small number is short. -/
theorem rep_of_lt {s L n N : ℕ} {f : (ZMod 2)[X]} (h : Rep s L N f) (hN : N < 2 ^ (s * n)) :
    Rep s n N f := by
  obtain ⟨F, h1, h2, h3, h4⟩ := h
  refine ⟨F, h1, h2, fun i hi => ?_, h4⟩
  by_contra hc
  have hd : i ≤ F.natDegree := le_natDegree_of_ne_zero hc
  have : (2 ^ s) ^ i ≤ F.eval (2 ^ s) := by
    rw [eval_eq_sum_range]
    refine le_trans ?_ (Finset.single_le_sum (f := fun j => F.coeff j * (2 ^ s) ^ j) (fun j _ => Nat.zero_le _)
      (Finset.mem_range.2 (Nat.lt_succ_of_le hd)))
    exact Nat.le_mul_of_pos_left _ (Nat.pos_of_ne_zero hc)
  rw [← h1, ← pow_mul] at this
  have h5 : 2 ^ (s * n) ≤ 2 ^ (s * i) := Nat.pow_le_pow_right (by decide) (Nat.mul_le_mul_left s hi)
  omega

/-- A number represents at most one polynomial. -/
theorem Raw.unique {s L L' N : ℕ} {f g : (ZMod 2)[X]} (hs : 1 ≤ s) (h : Rep s L N f) (h' : Rep s L' N g) :
    f = g := by
  obtain ⟨F, h1, h2, -, h4⟩ := h
  obtain ⟨G, g1, g2, -, g4⟩ := h'
  have h1s : 1 < 2 ^ s := by
    calc 1 < 2 ^ 1 := by decide
      _ ≤ 2 ^ s := Nat.pow_le_pow_right (by decide) hs
  have key : ∀ (i : ℕ) (F G : ℕ[X]), F.eval (2 ^ s) = G.eval (2 ^ s) → (∀ i, F.coeff i ≤ 1) →
      (∀ i, G.coeff i ≤ 1) → F.coeff i = G.coeff i := by
    intro i
    induction i with
    | zero =>
      intro F G e hF hG
      rw [eval_divX F, eval_divX G] at e
      have e' := congrArg (· % 2 ^ s) e
      simp only [Nat.add_mul_mod_self_left] at e'
      rwa [Nat.mod_eq_of_lt (lt_of_le_of_lt (hF 0) h1s), Nat.mod_eq_of_lt (lt_of_le_of_lt (hG 0) h1s)] at e'
    | succ i ih =>
      intro F G e hF hG
      rw [← coeff_divX, ← coeff_divX]
      refine ih _ _ ?_ (fun j => by rw [coeff_divX]; exact hF _) (fun j => by rw [coeff_divX]; exact hG _)
      rw [eval_divX F, eval_divX G] at e
      have e' : (F.coeff 0 + 2 ^ s * F.divX.eval (2 ^ s)) / 2 ^ s = (G.coeff 0 + 2 ^ s * G.divX.eval (2 ^ s)) / 2 ^ s := by
        rw [e]
      rwa [Nat.add_mul_div_left _ _ (by omega), Nat.add_mul_div_left _ _ (by omega),
        Nat.div_eq_of_lt (lt_of_le_of_lt (hF 0) h1s), Nat.div_eq_of_lt (lt_of_le_of_lt (hG 0) h1s), zero_add,
        zero_add] at e'
  rw [← h4, ← g4, red_eq_iff]
  intro i
  rw [key i F G (h1.symm.trans g1) h2 g2]

theorem rep_one {s n : ℕ} (hn : 1 ≤ n) : Rep s n 1 1 :=
  ⟨1, by simp, fun i => by rw [coeff_one]; split <;> simp, fun i hi => by
    rw [coeff_one, if_neg (by omega)], map_one _⟩

theorem rep_X {s n : ℕ} (hn : 2 ≤ n) : Rep s n (2 ^ s) X :=
  ⟨X, by simp, fun i => by rw [coeff_X]; split <;> simp, fun i hi => by
    rw [coeff_X, if_neg (by omega)], by simp [red]⟩

theorem Raw.shiftLeft {s L B N : ℕ} {f : (ZMod 2)[X]} (h : Raw s L B N f) (k : ℕ) :
    Raw s (L + k) B (N <<< (s * k)) (f * X ^ k) := by
  obtain ⟨F, h1, h2, h3, h4⟩ := h
  refine ⟨F * X ^ k, ?_, fun i => ?_, fun i hi => ?_, ?_⟩
  · rw [Nat.shiftLeft_eq, h1, eval_mul, eval_pow, eval_X, pow_mul]
  · rw [coeff_mul_X_pow']; split
    · exact h2 _
    · exact Nat.zero_le _
  · rw [coeff_mul_X_pow', if_pos (by omega), h3 _ (by omega)]
  · rw [map_mul, h4, map_pow]; simp [red]

theorem Raw.natDegree_lt {s L B N : ℕ} {f : (ZMod 2)[X]} (h : Raw s L B N f) (hf : f ≠ 0) : f.natDegree < L := by
  obtain ⟨F, h1, h2, h3, h4⟩ := h
  by_contra hc
  push Not at hc
  apply leadingCoeff_ne_zero.2 hf
  have h5 : ∀ i, f.coeff i = (F.coeff i : ZMod 2) := fun i => by
    rw [← h4, red, coe_mapRingHom, coeff_map]; rfl
  rw [leadingCoeff, h5, h3 _ hc, Nat.cast_zero]

/-- Digits beyond the number of digits of another representation vanish. -/
theorem Raw.coeff_zero {s L B N : ℕ} {f : (ZMod 2)[X]} (h : Raw s L B N f) {i : ℕ} (hi : L ≤ i) : f.coeff i = 0 := by
  obtain ⟨F, h1, h2, h3, h4⟩ := h
  rw [← h4, red, coe_mapRingHom, coeff_map, h3 i hi, map_zero]

theorem Raw.shorten {s L L' N : ℕ} {f : (ZMod 2)[X]} (h : Rep s L N f) (hf : ∀ i, L' ≤ i → f.coeff i = 0) :
    Rep s L' N f := by
  obtain ⟨F, h1, h2, h3, h4⟩ := h
  refine ⟨F, h1, h2, fun i hi => ?_, h4⟩
  have h5 := hf i hi
  rw [← h4, red, coe_mapRingHom, coeff_map] at h5
  have h6 := h2 i
  rcases Nat.le_one_iff_eq_zero_or_eq_one.1 h6 with h | h
  · exact h
  · rw [h] at h5
    exact absurd h5 (by simp)

theorem Raw.coeff {s L N : ℕ} {f : (ZMod 2)[X]} (hs : 1 ≤ s) (h : Rep s L N f) :
    f.coeff 0 = (N : ZMod 2) := by
  obtain ⟨F, h1, h2, h3, h4⟩ := h
  have h0 : ((2 ^ s : ℕ) : ZMod 2) = 0 := by
    rw [Nat.cast_pow, show ((2 : ℕ) : ZMod 2) = 0 from rfl, zero_pow (by omega)]
  rw [← h4, h1, eval_divX, Nat.cast_add, Nat.cast_mul, h0, zero_mul, add_zero]
  simp [red, coeff_map]

/-! ## The operations -/

theorem bool_rec_ne {b : Bool} {r : ℕ} (h : (Bool.rec 0 r b : ℕ) ≠ 0) : b = true ∧ (Bool.rec 0 r b : ℕ) = r := by
  cases b
  · exact absurd rfl h
  · exact ⟨rfl, rfl⟩

/-- Hypotheses on the parameters: `P` represents the modulus `p` of degree `n`. -/
structure Mod (s n P : ℕ) (p : (ZMod 2)[X]) : Prop where
  hs : 1 ≤ s
  hn : n + 3 ≤ 2 ^ s
  rep : Rep s (n + 1) P p

theorem mulMod_spec {s n mu P a b : ℕ} {p f g : (ZMod 2)[X]} (hP : Mod s n P p) (ha : Rep s n a f) (hb : Rep s n b g)
    (h : mulMod (s * n) (mask s (2 * n)) mu P a b ≠ 0) :
    ∃ h, Rep s n (mulMod (s * n) (mask s (2 * n)) mu P a b) h ∧ p ∣ h - f * g := by
  have hs := hP.hs
  have hn := hP.hn
  unfold mulMod at h ⊢
  rw [force_eq] at h ⊢
  rw [force_eq] at h ⊢
  obtain ⟨h1, h2⟩ := bool_rec_ne h
  rw [h2]
  clear h2 h
  have h1 := Nat.eq_of_beq_eq_true h1
  have hab : Rep s (2 * n) (Nat.land (Nat.mul a b) (mask s (2 * n))) (f * g) := by
    have := (ha.mul hb).and_mask (s := s) hs (by omega)
    rwa [← Nat.two_mul] at this
  obtain ⟨q, hq⟩ : ∃ q, Rep s n (Nat.shiftRight (Nat.land (Nat.mul (Nat.shiftRight (Nat.land (Nat.mul a b)
      (mask s (2 * n))) (s * n)) mu) (mask s (2 * n))) (s * n)) q := by
    obtain ⟨q', hq'⟩ := rep_and_mask hs (2 * n) (Nat.mul (Nat.shiftRight (Nat.land (Nat.mul a b)
      (mask s (2 * n))) (s * n)) mu)
    obtain ⟨q, hq⟩ := rep_shiftRight hs n hq'
    exact ⟨q, hq.mono (by omega) le_rfl⟩
  have hqp : Raw s (2 * n) (n + 1) (Nat.mul (Nat.shiftRight (Nat.land (Nat.mul (Nat.shiftRight (Nat.land (Nat.mul a b)
      (mask s (2 * n))) (s * n)) mu) (mask s (2 * n))) (s * n)) P) (q * p) := by
    generalize Nat.shiftRight (Nat.land (Nat.mul (Nat.shiftRight (Nat.land (Nat.mul a b)
      (mask s (2 * n))) (s * n)) mu) (mask s (2 * n))) (s * n) = Q at hq ⊢
    obtain ⟨F, f1, f2, f3, f4⟩ := hq
    obtain ⟨H, e1, e2, e3, e4⟩ := hP.rep
    have hq : Rep s n Q q := ⟨F, f1, f2, f3, f4⟩
    have hr := (hq.mul hP.rep).mono (L' := 2 * n + 1) (B' := n + 1) (by omega) (by omega)
    refine ⟨F * H, by rw [eval_mul, ← f1, ← e1]; rfl, ?_, fun k hk => ?_, by rw [map_mul, f4, e4]⟩
    · intro k
      rw [coeff_mul, Finset.Nat.sum_antidiagonal_eq_sum_range_succ_mk]
      calc ∑ i ∈ Finset.range k.succ, F.coeff i * H.coeff (k - i)
          ≤ ∑ i ∈ Finset.range k.succ, if i < n then 1 else 0 := by
            apply Finset.sum_le_sum
            intro i _
            split
            · exact (Nat.mul_le_mul (f2 _) (e2 _)).trans (by simp)
            · rw [f3 i (by omega), zero_mul]
        _ = ((Finset.range k.succ).filter (· < n)).card := by
            rw [← Finset.sum_filter, Finset.sum_const, smul_eq_mul, mul_one]
        _ ≤ (Finset.range n).card := Finset.card_le_card (by
              intro i hi
              rw [Finset.mem_filter] at hi
              exact Finset.mem_range.2 hi.2)
        _ ≤ n + 1 := by rw [Finset.card_range]; omega
    · rw [coeff_mul]
      apply Finset.sum_eq_zero
      rintro ⟨i, j⟩ hij
      rw [Finset.mem_antidiagonal] at hij
      dsimp only at hij ⊢
      rcases Nat.lt_or_ge i n with hi | hi
      · rw [e3 j (by omega), mul_zero]
      · rw [f3 i hi, zero_mul]
  have hr := (hab.add hqp).and_mask hs (by omega)
  refine ⟨_, rep_of_lt hr ?_, ⟨q, by ring⟩⟩
  have h1 : (Nat.add (Nat.land (Nat.mul a b) (mask s (2 * n))) (Nat.mul (Nat.shiftRight (Nat.land (Nat.mul
    (Nat.shiftRight (Nat.land (Nat.mul a b) (mask s (2 * n))) (s * n)) mu) (mask s (2 * n))) (s * n)) P) &&&
    mask s (2 * n)) >>> (s * n) = 0 := h1
  rw [Nat.shiftRight_eq_div_pow, Nat.div_eq_zero_iff_lt (Nat.two_pow_pos _)] at h1
  exact h1

theorem run_succ (sn M mu P k a : ℕ) : run sn M mu P (k + 1) a = run sn M mu P k (mulMod sn M mu P a a) :=
  force_eq _ _

theorem mulMod_zero (sn M mu P : ℕ) : mulMod sn M mu P 0 0 = 0 := by
  unfold mulMod
  rw [force_eq, force_eq]
  have e : Nat.land (Nat.mul 0 0) M = 0 := by
    show (0 * 0) &&& M = 0
    simp
  have e2 : Nat.shiftRight 0 sn = 0 := Nat.zero_shiftRight _
  have e3 : Nat.land (Nat.add 0 (Nat.mul (Nat.shiftRight (Nat.land (Nat.mul 0 mu) M) sn) P)) M = 0 := by
    show (0 + (((0 * mu) &&& M) >>> sn) * P) &&& M = 0
    simp
  rw [e, e2, e3]
  cases Nat.beq (Nat.shiftRight 0 sn) 0 <;> rfl

theorem run_zero (sn M mu P k : ℕ) : run sn M mu P k 0 = 0 := by
  induction k with
  | zero => rfl
  | succ k ih => rw [run_succ, mulMod_zero, ih]

theorem run_spec {s n mu P : ℕ} {p : (ZMod 2)[X]} (hP : Mod s n P p) (k : ℕ) : ∀ {a : ℕ} {f : (ZMod 2)[X]},
    Rep s n a f → run (s * n) (mask s (2 * n)) mu P k a ≠ 0 →
    ∃ h, Rep s n (run (s * n) (mask s (2 * n)) mu P k a) h ∧ p ∣ h - f ^ 2 ^ k := by
  induction k with
  | zero => intro a f ha _; exact ⟨f, ha, by simp⟩
  | succ k ih =>
    intro a f ha h
    rw [run_succ] at h ⊢
    have h0 : mulMod (s * n) (mask s (2 * n)) mu P a a ≠ 0 := fun e => h (by rw [e, run_zero])
    obtain ⟨g, hg, hd⟩ := mulMod_spec hP ha ha h0
    obtain ⟨u, hu, hd2⟩ := ih hg h
    refine ⟨u, hu, ?_⟩
    have e : u - f ^ 2 ^ (k + 1) = (u - g ^ 2 ^ k) + (g ^ 2 ^ k - (f * f) ^ 2 ^ k) := by
      rw [← pow_two f, ← pow_mul, pow_succ', sub_add_sub_cancel]
    rw [e]
    exact dvd_add hd2 (hd.trans (sub_dvd_pow_sub_pow _ _ _))

/-- `N` represents a residue of `x^(2^k)`. -/
def Pw (s n : ℕ) (p : (ZMod 2)[X]) (k N : ℕ) : Prop := ∃ f, Rep s n N f ∧ p ∣ f - X ^ 2 ^ k

theorem pw_zero {s n : ℕ} (hn : 2 ≤ n) (p : (ZMod 2)[X]) : Pw s n p 0 (2 ^ s) :=
  ⟨X, rep_X hn, by simp⟩

theorem Pw.next {s n mu P k j N N' : ℕ} {p : (ZMod 2)[X]} (hP : Mod s n P p) (h : Pw s n p k N)
    (e : run (s * n) (mask s (2 * n)) mu P j N = N') (hN : N' ≠ 0) : Pw s n p (k + j) N' := by
  obtain ⟨f, hf, hd⟩ := h
  subst e
  obtain ⟨g, hg, hd2⟩ := run_spec hP j hf hN
  refine ⟨g, hg, ?_⟩
  have e : g - X ^ 2 ^ (k + j) = (g - f ^ 2 ^ j) + (f ^ 2 ^ j - (X ^ 2 ^ k) ^ 2 ^ j) := by
    rw [← pow_mul, ← pow_add, sub_add_sub_cancel]
  rw [e]
  exact dvd_add hd2 (hd.trans (sub_dvd_pow_sub_pow _ _ _))

theorem Pw.frob {s n k : ℕ} {p : (ZMod 2)[X]} (hs : 1 ≤ s) (hn : 2 ≤ n) (h : Pw s n p k (2 ^ s)) :
    p ∣ X ^ 2 ^ k - X := by
  obtain ⟨f, hf, hd⟩ := h
  rw [hf.unique hs (rep_X hn), ← dvd_neg, neg_sub] at hd
  exact hd

/-- With a Mersenne exponent as degree, `x^(2^n) = x` suffices for primitivity. -/
theorem primitive_of_frob {p : (ZMod 2)[X]} {n : ℕ} (hn : 2 ≤ n) (hd : p.natDegree = n) (h0 : p.coeff 0 ≠ 0)
    (hm : (2 ^ n - 1).Prime) (h : p ∣ X ^ 2 ^ n - X) : Primitive2 p n := by
  have hcop : IsCoprime p X := by
    have hx : Irreducible (X : (ZMod 2)[X]) := irreducible_X
    apply IsCoprime.symm
    rw [hx.coprime_iff_not_dvd, X_dvd_iff]
    exact h0
  have e : (X ^ 2 ^ n - X : (ZMod 2)[X]) = X * (X ^ (2 ^ n - 1) - 1) := by
    rw [mul_sub, ← pow_succ', mul_one, Nat.sub_add_cancel Nat.one_le_two_pow]
  rw [e] at h
  have h1 : p ∣ X ^ (2 ^ n - 1) - 1 := hcop.dvd_of_dvd_mul_left h
  refine ⟨hd, fun k => ?_⟩
  have hord : orderOf (AdjoinRoot.root p) = 2 ^ n - 1 := by
    rcases (Nat.dvd_prime hm).1 (orderOf_dvd_of_pow_eq_one (root_pow_eq_one.2 h1)) with h2 | h2
    · exfalso
      have h3 : p ∣ X ^ 1 - 1 := by
        rw [← root_pow_eq_one, pow_one]; exact orderOf_eq_one_iff.1 h2
      have h4 : (X ^ 1 - 1 : (ZMod 2)[X]) ≠ 0 := by
        rw [pow_one]; exact X_sub_C_ne_zero 1
      have h5 := natDegree_le_of_dvd h3 h4
      rw [pow_one, show (X - 1 : (ZMod 2)[X]) = X - C 1 by simp, natDegree_X_sub_C] at h5
      omega
    · exact h2
  rw [← root_pow_eq_one, ← orderOf_dvd_iff_pow_eq_one, hord]

end MTT.GF2
