import Verif.Mexp.Check
import Verif.Period.Props

/-!
# Properties of the Mersenne exponent table (C28)
-/

namespace MTT.Mexp

open MTT.Period

/-- The entries of the table up to 216091 are Mersenne exponents. -/
theorem table_prime : ∀ e ∈ mersenneExponent, e ≤ 216091 → (2 ^ e - 1).Prime := by
  intro e he hle
  have h2 : (2 ^ 2 - 1).Prime := by decide
  unfold mersenneExponent at he
  simp only [List.mem_cons, List.not_mem_nil, or_false] at he
  rcases he with h | h | h | h | h | h | h | h | h | h | h | h | h | h | h | h | h | h | h | h | h | h | h | h | h | h |
    h | h | h | h | h | h | h | h | h | h | h | h | h | h | h
  exacts [h ▸ h2, h ▸ prime3, h ▸ prime5, h ▸ prime7, h ▸ prime13, h ▸ prime17, h ▸ prime19, h ▸ prime31, h ▸ prime61,
    h ▸ prime89, h ▸ prime107, h ▸ prime127, h ▸ prime521, h ▸ prime607, h ▸ prime1279, h ▸ prime2203, h ▸ prime2281,
    h ▸ prime3217, h ▸ prime4253, h ▸ prime4423, h ▸ prime9689, h ▸ prime9941, h ▸ prime11213, h ▸ prime19937,
    h ▸ prime21701, h ▸ prime23209, h ▸ E44497.prime, h ▸ E86243.prime, h ▸ E110503.prime, h ▸ E132049.prime,
    h ▸ E216091.prime, by omega, by omega, by omega, by omega, by omega, by omega, by omega, by omega, by omega,
    by omega]

/-- **C28**, soundness: an exponent that is accepted is a Mersenne exponent, up to 216091.
Missing: the ten entries from 756839 on, whose test is too long for the kernel. -/
theorem isMexp_sound_partial (d : BitVec 32) (hd : d.toNat ≤ 216091) (h : isMexp d = true) :
    (2 ^ d.toNat - 1).Prime := by
  have h2 : isMexp (BitVec.ofNat 32 d.toNat) = true := by rwa [BitVec.ofNat_toNat, BitVec.setWidth_eq]
  exact table_prime _ ((isMexp_iff_nat d.isLt).mp h2) hd

/-- **C28**, exactness up to 11213: an exponent is accepted if and only if it is a Mersenne exponent.
Missing: completeness between 11213 and 25964951, which is false: `isMexp_missing`. -/
theorem isMexp_correct_partial (d : BitVec 32) (hd : d.toNat ≤ 11213) :
    isMexp d = true ↔ (2 ^ d.toNat - 1).Prime := by
  refine ⟨isMexp_sound_partial d (by omega), fun h => ?_⟩
  have h1 := mersenne_mem hd h
  have h2 : d.toNat ∈ mersenneExponent := by
    revert h1; generalize d.toNat = n
    unfold mersenneExponent
    simp only [List.mem_cons, List.not_mem_nil, or_false]
    tauto
  have h3 := (isMexp_iff_nat d.isLt).mpr h2
  rwa [BitVec.ofNat_toNat, BitVec.setWidth_eq] at h3

/-- The entry that the table lacks. -/
theorem isMexp_missing : isMexp 24036583#32 = false := by decide +kernel

/-- If `2^24036583 - 1` is prime, as it is reported to be, the table is incomplete. -/
theorem isMexp_incomplete {p : ℕ} (hp : p = 24036583) (h : (2 ^ p - 1).Prime) :
    ∃ d : BitVec 32, d.toNat ≤ 25964951 ∧ (2 ^ d.toNat - 1).Prime ∧ isMexp d = false := by
  have h1 : (BitVec.ofNat 32 p).toNat = p := by rw [BitVec.toNat_ofNat]; exact Nat.mod_eq_of_lt (by omega)
  refine ⟨BitVec.ofNat 32 p, by omega, by rw [h1]; exact h, ?_⟩
  rw [hp]
  exact isMexp_missing

/-- **C27** without an assumption on the table: a polynomial of degree up to 216091 that `isPrime(poly)` accepts is
primitive. -/
theorem isPrime1_primitive_bounded (poly : Polynomial (ZMod 2)) (hd : poly.natDegree ≤ 216091)
    (h : isPrime1 poly = true) : Primitive2 poly poly.natDegree := by
  have h1 := (isPrime1_iff poly (by omega)).mp h
  exact primitive_of_mersenne h1.1 (table_prime _ h1.2 hd)

/-- The hypotheses are met on both sides. -/
example : isMexp 19937#32 = true ∧ isMexp 19939#32 = false := by decide +kernel

end MTT.Mexp
