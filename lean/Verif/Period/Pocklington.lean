import Mathlib.NumberTheory.LucasPrimality
import Mathlib.Data.Nat.Prime.Basic
import Mathlib.Data.ZMod.Basic
import Mathlib.FieldTheory.Finite.Basic
import Mathlib.GroupTheory.OrderOfElement
import Mathlib.Data.Nat.BinaryRec

/-!
# Primality certificates (Pocklington), checkable by the kernel

Used to prove the factor tables correct (C30).
-/

namespace MTT.Period

/-- `a^e mod n` by repeated squaring; `fuel` at least the number of binary digits of `e`. -/
def powMod (n : ℕ) : ℕ → ℕ → ℕ → ℕ
  | 0, _, _ => 1 % n
  | fuel + 1, a, e =>
    if e = 0 then 1 % n
    else if e % 2 = 0 then powMod n fuel (a * a % n) (e / 2)
    else a * powMod n fuel (a * a % n) (e / 2) % n

theorem powMod_spec (n fuel a e : ℕ) (h : e < 2 ^ fuel) : powMod n fuel a e = a ^ e % n := by
  induction fuel generalizing a e with
  | zero =>
    have : e = 0 := by simpa using h
    subst this; rfl
  | succ fuel ih =>
    unfold powMod
    have hlt : e / 2 < 2 ^ fuel := by rw [pow_succ] at h; omega
    have hsq : ∀ k, (a * a % n) ^ k % n = a ^ (2 * k) % n := fun k => by
      rw [← Nat.pow_mod, pow_mul, sq]
    split
    · next h0 => subst h0; rfl
    · split
      · next h0 h1 =>
        rw [ih _ _ hlt, hsq]
        congr 2; omega
      · next h0 h1 =>
        rw [ih _ _ hlt, hsq, Nat.mul_mod, Nat.mod_mod, ← Nat.mul_mod, ← pow_succ']
        congr 2; omega

/-- Pocklington's criterion with one base. -/
theorem pocklington {N F R a : ℕ} (hN1 : 1 < N) (hN : N - 1 = F * R) (hF : N < F * F)
    (ha : a ^ (N - 1) % N = 1)
    (hp : ∀ p, p.Prime → p ∣ F → Nat.gcd (a ^ ((N - 1) / p) % N + N - 1) N = 1) : N.Prime := by
  rw [Nat.prime_def_le_sqrt]
  refine ⟨hN1, fun m hm hms hmN => ?_⟩
  obtain ⟨r, hr, hrm⟩ := Nat.exists_prime_and_dvd (n := m) (by omega)
  have hrN := hrm.trans hmN
  have hfact : Fact r.Prime := ⟨hr⟩
  have hF0 : F ≠ 0 := by rintro rfl; simp at hF
  have ha1 : ((a : ZMod r)) ^ (N - 1) = 1 := by
    have h1 : N ∣ a ^ (N - 1) - 1 ∧ 1 ≤ a ^ (N - 1) := by
      have := Nat.div_add_mod (a ^ (N - 1)) N
      rw [ha] at this
      refine ⟨⟨a ^ (N - 1) / N, by omega⟩, by omega⟩
    have h2 := (ZMod.natCast_eq_zero_iff (a ^ (N - 1) - 1) r).2 (hrN.trans h1.1)
    rw [Nat.cast_sub h1.2] at h2
    push_cast at h2
    exact sub_eq_zero.1 h2
  have hord : orderOf ((a : ZMod r) ^ R) = F := by
    apply orderOf_eq_of_pow_and_pow_div_prime (Nat.pos_of_ne_zero hF0)
    · rw [← pow_mul, mul_comm, ← hN, ha1]
    · intro p hpp hpF h1
      have hg := hp p hpp hpF
      have e : (N - 1) / p = R * (F / p) := by
        rw [hN, mul_comm F R, Nat.mul_div_assoc _ hpF]
      rw [← pow_mul, ← e] at h1
      have hdvd : r ∣ a ^ ((N - 1) / p) % N + N - 1 := by
        rw [← ZMod.natCast_eq_zero_iff, Nat.add_sub_assoc (by omega), Nat.cast_add]
        have h2 : ((a ^ ((N - 1) / p) % N : ℕ) : ZMod r) = 1 := by
          have h3 := Nat.div_add_mod (a ^ ((N - 1) / p)) N
          have h4 := congrArg (fun x : ℕ => (x : ZMod r)) h3
          simp only [Nat.cast_add, Nat.cast_mul] at h4
          rw [(ZMod.natCast_eq_zero_iff N r).2 hrN, zero_mul, zero_add] at h4
          rw [h4]; push_cast; exact h1
        rw [h2, Nat.cast_sub (by omega), (ZMod.natCast_eq_zero_iff N r).2 hrN]
        simp
      have := Nat.dvd_gcd hdvd hrN
      rw [hg] at this
      exact hr.one_lt.ne' (Nat.dvd_one.1 this)
  have hb0 : (a : ZMod r) ^ R ≠ 0 := by
    intro h0
    have : ((a : ZMod r) ^ R) ^ F = 1 := by rw [← hord]; exact pow_orderOf_eq_one _
    rw [h0, zero_pow hF0] at this
    exact zero_ne_one this
  have hdvd : F ∣ r - 1 := by
    rw [← hord]
    exact orderOf_dvd_of_pow_eq_one (ZMod.pow_card_sub_one_eq_one hb0)
  have hr2 := hr.two_le
  have h1 : F ≤ r - 1 := Nat.le_of_dvd (by omega) hdvd
  have h2 : r ≤ m := Nat.le_of_dvd (by omega) hrm
  have h3 := Nat.sqrt_le N
  have h4 : F * F ≤ Nat.sqrt N * Nat.sqrt N := Nat.mul_le_mul (by omega) (by omega)
  omega

/-- A certificate: the number, a base, and the prime powers (prime, exponent) of the factored part of the
number minus one. -/
abbrev Cert := ℕ × ℕ × List (ℕ × ℕ)

/-- The factored part. -/
def facPart (L : List (ℕ × ℕ)) : ℕ := L.foldr (fun q m => q.1 ^ q.2 * m) 1

/-- Check of one certificate; the numbers in `known` are already known to be prime. -/
def checkOne (known : List ℕ) (c : Cert) : Bool :=
  let N := c.1
  let fuel := Nat.log2 N + 1
  decide (1 < N) && decide ((N - 1) % facPart c.2.2 = 0) && decide (N < facPart c.2.2 * facPart c.2.2) &&
    decide (powMod N fuel c.2.1 (N - 1) = 1) &&
    c.2.2.all fun q => known.contains q.1 &&
      decide (Nat.gcd (powMod N fuel c.2.1 ((N - 1) / q.1) + N - 1) N = 1)

theorem checkOne_sound {known : List ℕ} (hk : ∀ p ∈ known, p.Prime) {c : Cert}
    (h : checkOne known c = true) : c.1.Prime := by
  obtain ⟨N, a, L⟩ := c
  simp only [checkOne, Bool.and_eq_true, decide_eq_true_eq, List.all_eq_true, List.contains_iff_mem] at h
  obtain ⟨⟨⟨⟨h1, h2⟩, h3⟩, h4⟩, h5⟩ := h
  have hlog : N < 2 ^ (Nat.log2 N + 1) := Nat.lt_log2_self
  have hpm : ∀ a e, e ≤ N - 1 → powMod N (Nat.log2 N + 1) a e = a ^ e % N := fun a e he =>
    powMod_spec _ _ _ _ (by omega)
  rw [hpm _ _ le_rfl] at h4
  refine pocklington h1 (R := (N - 1) / facPart L) (F := facPart L)
    (Nat.mul_div_cancel' (Nat.dvd_of_mod_eq_zero h2)).symm h3 h4 ?_
  intro p hp hpF
  have hmem : ∃ q ∈ L, p = q.1 := by
    clear h2 h3
    induction L with
    | nil => exact absurd (Nat.dvd_one.1 hpF) hp.one_lt.ne'
    | cons q L ih =>
      have h6 : facPart (q :: L) = q.1 ^ q.2 * facPart L := rfl
      rw [h6] at hpF
      rcases (Nat.Prime.dvd_mul hp).1 hpF with h7 | h7
      · refine ⟨q, List.mem_cons_self, ?_⟩
        have h8 := hk q.1 (h5 q List.mem_cons_self).1
        exact (Nat.prime_dvd_prime_iff_eq hp h8).1 (hp.dvd_of_dvd_pow h7)
      · obtain ⟨q', hq', e⟩ := ih (fun q hq => h5 q (List.mem_cons_of_mem _ hq)) h7
        exact ⟨q', List.mem_cons_of_mem _ hq', e⟩
  obtain ⟨q, hq, rfl⟩ := hmem
  have := (h5 q hq).2
  rwa [hpm _ _ (Nat.div_le_self _ _)] at this

/-- Check of a list of certificates, each using the numbers before it. -/
def checkAll : List ℕ → List Cert → Bool
  | _, [] => true
  | known, c :: cs => checkOne known c && checkAll (c.1 :: known) cs

theorem checkAll_sound {known : List ℕ} (hk : ∀ p ∈ known, p.Prime) {cs : List Cert}
    (h : checkAll known cs = true) : ∀ c ∈ cs, c.1.Prime := by
  induction cs generalizing known with
  | nil => intro c hc; cases hc
  | cons d cs ih =>
    simp only [checkAll, Bool.and_eq_true] at h
    have hd := checkOne_sound hk h.1
    intro c hc
    rcases List.mem_cons.1 hc with rfl | hc
    · exact hd
    · exact ih (fun p hp => by
        rcases List.mem_cons.1 hp with rfl | hp
        · exact hd
        · exact hk p hp) h.2 c hc

end MTT.Period
