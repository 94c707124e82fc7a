import Verif.Period.Tables
import Verif.Period.Certs
import Verif.Period.Props

/-!
# C30: the built-in factor tables
-/

namespace MTT.Period

/-- Check that a list consists of divisors of `2^N-1` that have certificates, and that all prime divisors of
`2^N-1` are among them. -/
def checkTable (N : ℕ) (L : List ℕ) : Bool :=
  (L.all fun q => (certs.any fun c => c.1 == q) && decide ((2 ^ N - 1) % q = 0)) &&
    decide (L.prod ^ 8 % (2 ^ N - 1) = 0)

theorem checkTable_sound {N : ℕ} {L : List ℕ} (h : checkTable N L = true) :
    IsFactorList L (2 ^ N - 1) := by
  simp only [checkTable, Bool.and_eq_true, List.all_eq_true, decide_eq_true_eq, List.any_eq_true,
    beq_iff_eq] at h
  obtain ⟨h1, h2⟩ := h
  have hprime : ∀ q ∈ L, q.Prime := fun q hq => by
    obtain ⟨⟨c, hc, e⟩, _⟩ := h1 q hq
    rw [← e]; exact certs_prime c hc
  intro q
  constructor
  · intro hq
    exact ⟨hprime q hq, Nat.dvd_of_mod_eq_zero (h1 q hq).2⟩
  · rintro ⟨hp, hd⟩
    have h3 := hp.dvd_of_dvd_pow (hd.trans (Nat.dvd_of_mod_eq_zero h2))
    obtain ⟨a, ha, hqa⟩ := (Prime.dvd_prod_iff hp.prime).1 h3
    rwa [(Nat.prime_dvd_prime_iff_eq hp (hprime a ha)).1 hqa]

/-- Check of an array of strings, read both by the constructor and by `isPrime(poly, degree, char*[])`. -/
def checkStrings (N : ℕ) (t : List (Option (List Char))) : Bool :=
  match ctor t with
  | none => false
  | some zs => zs.all (fun z => decide (0 ≤ z)) && decide (readTable t = some zs) &&
      checkTable N (zs.map Int.toNat)

theorem tables_ok : (allTables.all fun t => checkStrings t.1 t.2) = true := by decide +kernel

/-- **C30.**  For every built-in table `prime_factors2_N_1`: both ways of reading it (the constructor of
`AlgorithmPrimitivity` and `isPrime` with a string table) give the same list of non-negative numbers, and
this list consists of exactly the prime divisors of `2^N-1`. -/
theorem tables_correct : ∀ t ∈ allTables, ∃ L : List ℕ, ctor t.2 = some (L.map Int.ofNat) ∧
    readTable t.2 = some (L.map Int.ofNat) ∧ IsFactorList L (2 ^ t.1 - 1) := by
  intro t ht
  have h := List.all_eq_true.1 tables_ok t ht
  unfold checkStrings at h
  cases hc : ctor t.2 with
  | none => rw [hc] at h; cases h
  | some zs =>
    rw [hc] at h
    simp only [Bool.and_eq_true, List.all_eq_true, decide_eq_true_eq] at h
    obtain ⟨⟨h1, h2⟩, h3⟩ := h
    have e : (zs.map Int.toNat).map Int.ofNat = zs := by
      rw [List.map_map]
      conv_rhs => rw [← List.map_id zs]
      apply List.map_congr_left
      intro z hz
      exact Int.toNat_of_nonneg (h1 z hz)
    exact ⟨zs.map Int.toNat, by rw [e], by rw [h2, e], checkTable_sound h3⟩

/-- **C30 with C26.**  A polynomial test built from any of the tables decides primitivity of degree `N`: the
constructor reads the table, and `operator()` then never fails and is exact. -/
theorem tables_primitive (t : ℕ × List (Option (List Char))) (ht : t ∈ allTables)
    (poly : Polynomial (ZMod 2)) :
    ∃ (L : List ℕ) (b : Bool), ctor t.2 = some (L.map Int.ofNat) ∧
      primitivityOp (some L) t.1 poly = some b ∧ (b = true ↔ Primitive2 poly t.1) ∧
      isPrimeStr poly t.1 t.2 = some b := by
  obtain ⟨L, h1, h2, h3⟩ := tables_correct t ht
  have hN : 2 ≤ t.1 := by
    have : ∀ t ∈ allTables, 2 ≤ t.1 := by decide +kernel
    exact this t ht
  obtain ⟨b, h4, h5⟩ := primitivityOp_correct poly hN h3
  obtain ⟨b', h6, h7⟩ := isPrimeVec_correct poly hN h3
  have hbb : b' = b := by
    rw [Bool.eq_iff_iff, h5, h7]
  refine ⟨L, b, h1, h4, h5, ?_⟩
  unfold isPrimeStr
  rw [h2, Option.bind_some, List.map_map]
  have e : (Int.toNat ∘ Int.ofNat) = id := by funext n; simp
  rw [e, List.map_id, h6, hbb]

/-- The list of the tables: the 17 degrees of AlgorithmPrimitivity.cpp. -/
example : allTables.map Prod.fst =
    [128, 160, 192, 224, 256, 288, 320, 352, 384, 416, 448, 480, 512, 544, 640, 800, 960] := rfl

end MTT.Period
