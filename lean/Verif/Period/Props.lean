import Verif.Period.Model
import Verif.Spec.Primitive
import Mathlib.Tactic.Linarith

/-!
# C26, C27, C29: primitivity tests of `lib/period.cpp` and `lib/AlgorithmPrimitivity.cpp`
-/

namespace MTT.Period

open Polynomial

/-- A list containing exactly the prime divisors of `N`, in any order, possibly with repetitions. -/
def IsFactorList (L : List ℕ) (N : ℕ) : Prop := ∀ q, q ∈ L ↔ q.Prime ∧ q ∣ N

theorem deg_eq_iff {p : (ZMod 2)[X]} {n : ℕ} (hn : 1 ≤ n) : deg p = n ↔ p.natDegree = n := by
  unfold deg
  split
  · next h => subst h; rw [natDegree_zero]; constructor <;> intro h <;> omega
  · exact Nat.cast_inj

theorem mod_eq_one_iff {p : (ZMod 2)[X]} (hd : 1 ≤ p.natDegree) (k : ℕ) :
    X ^ k % p = 1 ↔ p ∣ X ^ k - 1 := by
  have hp0 : p ≠ 0 := by rintro rfl; simp at hd
  have h1 : (1 : (ZMod 2)[X]) % p = 1 := by
    rw [Polynomial.mod_eq_self_iff hp0, degree_one, degree_eq_natDegree hp0]
    exact_mod_cast hd
  rw [← EuclideanDomain.mod_eq_zero, sub_mod, h1, sub_eq_zero]

theorem isPrimeLoop_spec {p : (ZMod 2)[X]} (hd : 1 ≤ p.natDegree) (N : ℕ) (L : List ℕ)
    (hL : ∀ q ∈ L, q ≠ 0) :
    ∃ b, isPrimeLoop p N L = some b ∧ (b = true ↔ ∀ q ∈ L, ¬ p ∣ X ^ (N / q) - 1) := by
  induction L with
  | nil => exact ⟨true, rfl, by simp⟩
  | cons q L ih =>
    obtain ⟨b, h1, h2⟩ := ih (fun r hr => hL r (List.mem_cons_of_mem _ hr))
    unfold isPrimeLoop
    rw [if_neg (hL q List.mem_cons_self)]
    by_cases h3 : X ^ (N / q) % p = 1
    · rw [if_pos h3]
      refine ⟨false, rfl, ?_⟩
      rw [mod_eq_one_iff hd] at h3
      simp [h3]
    · rw [if_neg h3]
      rw [mod_eq_one_iff hd] at h3
      exact ⟨b, h1, by simp [h2, h3]⟩

/-- **C26.**  With the complete list of the prime divisors of `2^degree-1`, in any order and with any
repetitions, and for `degree ≥ 2`, `isPrime(poly, degree, factors)` returns (never divides by zero), and
returns true exactly if `poly` is primitive of that degree. -/
theorem isPrimeVec_correct (poly : (ZMod 2)[X]) {degree : ℕ} (hdeg : 2 ≤ degree) {L : List ℕ}
    (hL : IsFactorList L (2 ^ degree - 1)) :
    ∃ b, isPrimeVec poly degree L = some b ∧ (b = true ↔ Primitive2 poly degree) := by
  have hpos := one_le_two_pow_sub (n := degree) (by omega)
  unfold isPrimeVec
  by_cases h1 : deg poly = degree
  · rw [if_neg (not_not.2 h1)]
    rw [deg_eq_iff (by omega)] at h1
    by_cases h2 : Irreducible poly
    · rw [if_neg (by simp [isIrreducible, h2])]
      obtain ⟨b, h3, h4⟩ := isPrimeLoop_spec (p := poly) (by omega) (2 ^ degree - 1) L
        (fun q hq => ((hL q).1 hq).1.ne_zero)
      refine ⟨b, h3, h4.trans ⟨fun h => ?_, fun h q hq => ?_⟩⟩
      · exact primitive_of_tests h2 h1 hdeg fun q hq hq2 => h q ((hL q).2 ⟨hq, hq2⟩)
      · obtain ⟨hq1, hq2⟩ := (hL q).1 hq
        rw [h.2]
        intro hdvd
        have hlt : (2 ^ degree - 1) / q < 2 ^ degree - 1 := Nat.div_lt_self hpos hq1.one_lt
        have := Nat.eq_zero_of_dvd_of_lt hdvd hlt
        have := Nat.div_pos (Nat.le_of_dvd hpos hq2) hq1.pos
        omega
    · rw [if_pos (by simp [isIrreducible, h2])]
      exact ⟨false, rfl, by simpa using fun h => h2 (Primitive2.irreducible (by omega) h)⟩
  · rw [if_pos h1]
    refine ⟨false, rfl, ?_⟩
    rw [deg_eq_iff (by omega)] at h1
    simpa using fun h : Primitive2 poly degree => h1 h.1

/-- The restriction to `degree ≥ 2` is needed: for degree one the test accepts `X`, of which no power is
congruent to one. -/
theorem isPrimeVec_degree_one : isPrimeVec X 1 [] = some true ∧ ¬ Primitive2 X 1 := by
  constructor
  · unfold isPrimeVec
    rw [if_neg (by simp [deg]), if_neg (by simp [isIrreducible, irreducible_X])]
    rfl
  · intro h
    have := (h.2 1).2 (by simp)
    rw [pow_one] at this
    have h2 : (X : (ZMod 2)[X]) ∣ 1 := by
      have := dvd_sub (dvd_refl X) this
      simpa using this
    exact not_isUnit_X (isUnit_of_dvd_one h2)

/-- **C26** for `AlgorithmPrimitivity::operator()` of an object constructed with a factor table. -/
theorem primitivityOp_correct (poly : (ZMod 2)[X]) {degree : ℕ} (hdeg : 2 ≤ degree) {L : List ℕ}
    (hL : IsFactorList L (2 ^ degree - 1)) :
    ∃ b, primitivityOp (some L) degree poly = some b ∧ (b = true ↔ Primitive2 poly degree) := by
  obtain ⟨b, h1, h2⟩ := isPrimeVec_correct poly hdeg hL
  refine ⟨b, ?_, h2⟩
  unfold primitivityOp
  by_cases h3 : deg poly = degree
  · rw [if_neg (by simp [h3])]
    by_cases h4 : (!isIrreducible poly) = true
    · rw [if_pos h4]
      unfold isPrimeVec at h1
      rwa [if_neg (not_not.2 h3), if_pos h4] at h1
    · rw [if_neg h4]
      exact h1
  · rw [if_pos (Ne.symm h3)]
    unfold isPrimeVec at h1
    rwa [if_pos h3] at h1

/-- Irreducible of degree a Mersenne exponent: primitive. -/
theorem primitive_of_mersenne {p : (ZMod 2)[X]} (hp : Irreducible p) (hm : (2 ^ p.natDegree - 1).Prime) :
    Primitive2 p p.natDegree := by
  have h2 : 2 ≤ p.natDegree := by
    rcases Nat.lt_or_ge p.natDegree 2 with h | h
    · have : p.natDegree = 0 ∨ p.natDegree = 1 := by omega
      rcases this with h0 | h0 <;> rw [h0] at hm <;> exact absurd hm (by decide)
    · exact h
  apply primitive_of_tests hp rfl h2
  intro q hq hq2 hdvd
  rw [(Nat.prime_dvd_prime_iff_eq hq hm).1 hq2, Nat.div_self hm.pos, pow_one] at hdvd
  have hne : (X - 1 : (ZMod 2)[X]) ≠ 0 := X_sub_C_ne_zero (1 : ZMod 2)
  have h3 := natDegree_le_of_dvd hdvd hne
  have h4 : (X - 1 : (ZMod 2)[X]).natDegree = 1 := natDegree_X_sub_C (1 : ZMod 2)
  omega

/-- **C27** for the object `MersennePrimitivity` (default constructor): when the requested degree is a
Mersenne exponent, `operator()` returns true exactly for the primitive polynomials of that degree. -/
theorem primitivityOp_mersenne (poly : (ZMod 2)[X]) {degree : ℕ} (hm : (2 ^ degree - 1).Prime) :
    ∃ b, primitivityOp none degree poly = some b ∧ (b = true ↔ Primitive2 poly degree) := by
  have h1 : 1 ≤ degree := by
    rcases Nat.eq_zero_or_pos degree with h | h
    · subst h; exact absurd hm (by decide)
    · exact h
  unfold primitivityOp
  by_cases h3 : deg poly = degree
  · rw [if_neg (by simp [h3])]
    rw [deg_eq_iff h1] at h3
    by_cases h4 : Irreducible poly
    · rw [if_neg (by simp [isIrreducible, h4])]
      have := primitive_of_mersenne h4 (by rw [h3]; exact hm)
      rw [h3] at this
      exact ⟨true, rfl, by simpa using this⟩
    · rw [if_pos (by simp [isIrreducible, h4])]
      exact ⟨false, rfl, by simpa using fun h => h4 (Primitive2.irreducible h1 h)⟩
  · rw [if_pos (Ne.symm h3)]
    rw [deg_eq_iff h1] at h3
    exact ⟨false, rfl, by simpa using fun h : Primitive2 poly degree => h3 h.1⟩

/-- What `isMexp` decides. -/
theorem isMexp_iff (d : BitVec 32) : isMexp d = true ↔ ∃ e ∈ mersenneExponent, d = BitVec.ofNat 32 e := by
  have hsmall : ∀ e ∈ mersenneExponent, (BitVec.ofNat 32 e).toInt = (e : ℤ) := by decide
  unfold isMexp
  rw [List.any_eq_true]
  constructor
  · rintro ⟨e, he, h⟩
    refine ⟨e, he, ?_⟩
    rw [beq_iff_eq, ← hsmall e he] at h
    exact BitVec.eq_of_toInt_eq h
  · rintro ⟨e, he, rfl⟩
    exact ⟨e, he, by rw [hsmall e he, beq_self_eq_true]⟩

theorem isMexp_iff_nat {n : ℕ} (hn : n < 2 ^ 32) :
    isMexp (BitVec.ofNat 32 n) = true ↔ n ∈ mersenneExponent := by
  have hsmall : ∀ e ∈ mersenneExponent, e < 2 ^ 32 := by decide
  rw [isMexp_iff]
  constructor
  · rintro ⟨e, he, h⟩
    have := congrArg BitVec.toNat h
    rw [BitVec.toNat_ofNat, BitVec.toNat_ofNat, Nat.mod_eq_of_lt hn, Nat.mod_eq_of_lt (hsmall e he)] at this
    rwa [this]
  · intro h
    exact ⟨n, h, rfl⟩

/-- **C27.**  `isPrime(poly)` accepts exactly the irreducible polynomials whose degree is in the table (for
degrees that fit in 32 bits; the degree is converted to `uint32_t`). -/
theorem isPrime1_iff (poly : (ZMod 2)[X]) (hd : poly.natDegree < 2 ^ 32) :
    isPrime1 poly = true ↔ Irreducible poly ∧ poly.natDegree ∈ mersenneExponent := by
  unfold isPrime1
  by_cases h : Irreducible poly
  · have h1 : deg poly = poly.natDegree := if_neg h.ne_zero
    rw [if_neg (by simp [isIrreducible, h]), h1]
    simp only [BitVec.ofInt_natCast, Bool.if_false_right, Bool.and_true, Bool.decide_eq_true, h, true_and]
    exact isMexp_iff_nat hd
  · rw [if_pos (by simp [isIrreducible, h])]
    simp [h]

/-- **C27.**  `isPrime(poly)` returning true implies that `poly` is primitive of its degree, provided every
tabulated exponent is a Mersenne exponent (see C28 for that proviso). -/
theorem isPrime1_primitive (htab : ∀ e ∈ mersenneExponent, (2 ^ e - 1).Prime) (poly : (ZMod 2)[X])
    (hd : poly.natDegree < 2 ^ 32) (h : isPrime1 poly = true) : Primitive2 poly poly.natDegree := by
  obtain ⟨h1, h2⟩ := (isPrime1_iff poly hd).1 h
  exact primitive_of_mersenne h1 (htab _ h2)

theorem not_prime_even {d : ℕ} (h2 : 2 ∣ d) (hd : 3 ≤ d) : ¬ (2 ^ d - 1).Prime := by
  intro hp
  have h3 : (2 ^ 2 - 1 : ℕ) ∣ 2 ^ d - 1 := Nat.pow_sub_one_dvd_pow_sub_one 2 h2
  have h6 : (2 ^ 2 - 1 : ℕ) = 3 := by norm_num
  rw [h6] at h3
  have h5 : 2 ^ 3 ≤ 2 ^ d := Nat.pow_le_pow_right (by norm_num) hd
  rcases (Nat.dvd_prime hp).1 h3 with h4 | h4 <;> omega

/-- The restriction on the degree is needed: the degree is truncated to 32 bits, so for an irreducible
polynomial of degree `2^32 + 2` (not a Mersenne exponent, as it is even) the table is asked for 2, and the
answer is true. -/
theorem isPrime1_truncates (poly : (ZMod 2)[X]) (h : Irreducible poly)
    (hd : poly.natDegree = 2 ^ 32 + 2) : isPrime1 poly = true ∧ ¬ (2 ^ poly.natDegree - 1).Prime := by
  constructor
  · unfold isPrime1
    have h1 : deg poly = poly.natDegree := if_neg h.ne_zero
    rw [if_neg (by simp [isIrreducible, h]), h1, hd]
    have h2 : BitVec.ofInt 32 ((2 ^ 32 + 2 : ℕ) : ℤ) = BitVec.ofNat 32 2 := by decide
    have h3 : isMexp (BitVec.ofNat 32 2) = true := by decide
    rw [h2]
    simp only [h3, if_true]
  · exact not_prime_even (by omega) (by omega)

/-! ### C29: decimal parsing -/

theorem parseLoop_append (w : ℤ) (a b : List Char) (ha : ∀ c ∈ a, c.isDigit) :
    parseLoop w (a ++ b) = parseLoop (parseLoop w a) b := by
  induction a generalizing w with
  | nil => rfl
  | cons c cs ih =>
    have hc : c.isDigit = true := ha c List.mem_cons_self
    simp only [List.cons_append, parseLoop, hc, if_true]
    exact ih _ fun d hd => ha d (List.mem_cons_of_mem _ hd)

theorem parseLoop_stop (w : ℤ) (rest : List Char) (h : ∀ c, rest.head? = some c → c.isDigit = false) :
    parseLoop w rest = w := by
  cases rest with
  | nil => rfl
  | cons c cs => simp [parseLoop, h c rfl]

theorem parse_toDigits (n : ℕ) : parseLoop 0 (Nat.toDigits 10 n) = n := by
  have hc : ∀ d < 10, (Nat.digitChar d).isDigit = true ∧ ((Nat.digitChar d).toNat : ℤ) - 48 = d := by decide
  induction n using Nat.strong_induction_on with
  | _ n ih =>
    by_cases h : n < 10
    · rw [Nat.toDigits_of_lt_base h]
      obtain ⟨h1, h2⟩ := hc n h
      simp only [parseLoop, h1, if_true, zero_mul, zero_add]
      exact h2
    · rw [Nat.toDigits_of_base_le (by norm_num) (by omega), parseLoop_append _ _ _ (fun c hcm =>
        Nat.isDigit_of_mem_toDigits (by norm_num) (by norm_num) hcm), ih (n / 10) (by omega)]
      obtain ⟨h1, h2⟩ := hc (n % 10) (by omega)
      simp only [parseLoop, h1, if_true]
      omega

/-- **C29.**  The decimal notation of any number, of any length, possibly followed by anything that does
not start with a digit, is read as that number. -/
theorem parse_correct (n : ℕ) (rest : List Char)
    (h : ∀ c, rest.head? = some c → c.isDigit = false) :
    parseZZ ((toString n).toList ++ rest) = n := by
  have e : (toString n).toList = Nat.toDigits 10 n := Nat.toList_repr
  unfold parseZZ
  rw [e, parseLoop_append _ _ _ (fun c hcm =>
    Nat.isDigit_of_mem_toDigits (by norm_num) (by norm_num) hcm), parse_toDigits, parseLoop_stop _ _ h]

/-- **C29.**  A table of decimal notations ending with `NULL` is read as the list of the numbers, whatever
follows the `NULL`; so the string version of `isPrime` is the version with numbers. -/
theorem isPrimeStr_correct (poly : (ZMod 2)[X]) (degree : ℕ) (L : List ℕ)
    (junk : List (Option (List Char))) :
    isPrimeStr poly degree ((L.map fun n => some (toString n).toList) ++ none :: junk) =
      isPrimeVec poly degree L := by
  have h : readTable ((L.map fun n => some (toString n).toList) ++ none :: junk) =
      some (L.map Int.ofNat) := by
    induction L with
    | nil => rfl
    | cons n L ih =>
      have := parse_correct n [] (by simp)
      rw [List.append_nil] at this
      simp only [List.map_cons, List.cons_append, readTable, ih, Option.map_some, this]
      rfl
  unfold isPrimeStr
  rw [h]
  simp [List.map_map, Function.comp_def]

/-! ### Non-vacuity -/

/-- `[3, 7]`-style lists: the factor list of `2^6-1 = 63` with a repetition. -/
example : IsFactorList [7, 3, 7] (2 ^ 6 - 1) := by
  intro q
  constructor
  · intro h
    have : q = 7 ∨ q = 3 ∨ q = 7 := by simpa using h
    rcases this with rfl | rfl | rfl <;> decide
  · rintro ⟨h1, h2⟩
    have h3 : q ∣ 7 * (3 * 3) := by simpa using h2
    rcases (Nat.Prime.dvd_mul h1).1 h3 with h | h
    · rw [(Nat.prime_dvd_prime_iff_eq h1 (by decide)).1 h]; simp
    · have : q ∣ 3 := by rcases (Nat.Prime.dvd_mul h1).1 h with h | h <;> exact h
      rw [(Nat.prime_dvd_prime_iff_eq h1 (by decide)).1 this]; simp

example : parseZZ "67280421310721 ".toList = 67280421310721 := by decide

example : readTable [some "3".toList, some "5x".toList, none, some "9".toList] = some [3, 5] := by decide

end MTT.Period
