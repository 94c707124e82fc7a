import Verif.Tests.RTinyTest
import Verif.Tests.PeriodProps

/-!
# The factor table of the tests and `test_rtiny` (C93)
-/

namespace MTT.Tests

open PIS Polynomial Search GF2

/-! ## The factor table -/

/-- **C93.**  `isPrime(poly, 128, table)` with the table of the tests accepts every primitive polynomial of degree 128. -/
theorem testTable_complete {p : (ZMod 2)[X]} (hp : Primitive2 p 128) : Period.isPrimeStr p 128 testTable = some true :=
  isPrimeStr_primitive (by decide) hp readTable_test (by decide)

/-- The prime factors of `2^128-1` that are in the table. -/
theorem table_primes : ∀ q ∈ [3, 5, 17, 257, 641, 65537, 274177, 6700417], Nat.Prime q ∧ q ∣ 2 ^ 128 - 1 := by
  have h := (Period.checkTable_sound (N := 128) (L := [3, 5, 17, 257, 641, 65537, 274177, 6700417, 67280421310721]) (by decide +kernel))
  intro q hq
  exact (h q).1 (by simp only [List.mem_cons, List.not_mem_nil, or_false] at hq ⊢; tauto)

/-- **C93.**  The result is always defined, and it is true only for an irreducible polynomial of degree 128 for which the order of `X` is a
multiple of `(2^128-1)/67280421310721`.  (That the order is `2^128-1` does not follow: see `testTable_wrong`.) -/
theorem testTable_sound_partial (p : (ZMod 2)[X]) : ∃ b, Period.isPrimeStr p 128 testTable = some b ∧
    (b = true → Irreducible p ∧ p.natDegree = 128 ∧ ∀ k, p ∣ X ^ k - 1 → (2 ^ 128 - 1) / 67280421310721 ∣ k) := by
  unfold Period.isPrimeStr
  rw [readTable_test]
  show ∃ b, Period.isPrimeVec p 128 [3, 5, 17, 257, 641, 65537, 274177, 6700417, 672804213107211] = _ ∧ _
  unfold Period.isPrimeVec
  by_cases h1 : Period.deg p ≠ (128 : ℕ)
  · exact ⟨false, if_pos h1, fun h => absurd h (by decide)⟩
  · rw [if_neg h1]
    rw [not_not] at h1
    have hd := (Period.deg_eq_iff (by decide)).1 h1
    by_cases h2 : (!Period.isIrreducible p) = true
    · exact ⟨false, if_pos h2, fun h => absurd h (by decide)⟩
    · rw [if_neg h2]
      have hirr : Irreducible p := by
        simpa [Period.isIrreducible] using h2
      obtain ⟨b, h3, h4⟩ := Period.isPrimeLoop_spec (p := p) (by rw [hd]; decide) (2 ^ 128 - 1)
        [3, 5, 17, 257, 641, 65537, 274177, 6700417, 672804213107211] (by decide)
      refine ⟨b, h3, fun hb => ⟨hirr, hd, fun k hk => ?_⟩⟩
      have h5 := h4.1 hb
      have hN : orderOf (AdjoinRoot.root p) ∣ 2 ^ 128 - 1 := by
        rw [orderOf_dvd_iff_pow_eq_one, root_pow_eq_one]
        have := irreducible_pow hirr (by rw [hd]; decide)
        rwa [hd] at this
      have hq : ∀ q ∈ [3, 5, 17, 257, 641, 65537, 274177, 6700417], q ∣ orderOf (AdjoinRoot.root p) := by
        intro q hq
        obtain ⟨g1, g2⟩ := table_primes q hq
        by_contra hc
        have hcop := (Nat.Prime.coprime_iff_not_dvd g1).2 hc
        have h6 : orderOf (AdjoinRoot.root p) ∣ (2 ^ 128 - 1) / q := by
          have e := Nat.mul_div_cancel' g2
          rw [← e] at hN
          exact hcop.symm.dvd_of_dvd_mul_left hN
        rw [orderOf_dvd_iff_pow_eq_one, root_pow_eq_one] at h6
        refine h5 q ?_ h6
        simp only [List.mem_cons, List.not_mem_nil, or_false] at hq ⊢
        tauto
      have hk : orderOf (AdjoinRoot.root p) ∣ k := by
        rw [orderOf_dvd_iff_pow_eq_one, root_pow_eq_one]; exact hk
      refine dvd_trans ?_ hk
      have e : (2 ^ 128 - 1) / 67280421310721 = 3 * 5 * 17 * 257 * 641 * 65537 * 274177 * 6700417 := by norm_num
      rw [e]
      generalize orderOf (AdjoinRoot.root p) = o at hq
      have d := fun q h => hq q h
      refine Nat.Coprime.mul_dvd_of_dvd_of_dvd (by norm_num) ?_ (d 6700417 (by decide))
      refine Nat.Coprime.mul_dvd_of_dvd_of_dvd (by norm_num) ?_ (d 274177 (by decide))
      refine Nat.Coprime.mul_dvd_of_dvd_of_dvd (by norm_num) ?_ (d 65537 (by decide))
      refine Nat.Coprime.mul_dvd_of_dvd_of_dvd (by norm_num) ?_ (d 641 (by decide))
      refine Nat.Coprime.mul_dvd_of_dvd_of_dvd (by norm_num) ?_ (d 257 (by decide))
      refine Nat.Coprime.mul_dvd_of_dvd_of_dvd (by norm_num) ?_ (d 17 (by decide))
      exact Nat.Coprime.mul_dvd_of_dvd_of_dvd (by norm_num) (d 3 (by decide)) (d 5 (by decide))

/-- A polynomial. -/
abbrev PW : ℕ := 0x14fc15090f7607f68c554bdab0162bdf1

theorem irrW : Irreducible (bitPoly (128 + 1) PW) ∧ (bitPoly (128 + 1) PW).natDegree = 128 :=
  irreducible_of_check (s := 8) (mu := 0x15a244eb3e3762664336e1b507cd30a04) (m := 64)
    (u := 0x346d47fe120499af2a928e986613bba6) (by decide) (by decide) (by decide)
    (fun d hd hne => by
      obtain ⟨k, hk, rfl⟩ := (Nat.dvd_prime_pow Nat.prime_two).1 (show d ∣ 2 ^ 7 from hd)
      have : k ≤ 6 := by
        by_contra h
        exact hne (by rw [show k = 7 by omega]; rfl)
      exact pow_dvd_pow 2 this) (by decide +kernel)

theorem ordW : bitPoly (128 + 1) PW ∣ X ^ ((2 ^ 128 - 1) / 67280421310721) - 1 :=
  pow_one_of_check (s := 8) (mu := 0x15a244eb3e3762664336e1b507cd30a04) (k := 128) (by decide) (by decide) (by decide)
    (by decide) (by decide +kernel)

theorem checksW : ∀ q ∈ [3, 5, 17, 257, 641, 65537, 274177, 6700417, 672804213107211], (2 ^ 128 - 1) / q < 2 ^ 128 ∧
    powCheck 8 128 0x15a244eb3e3762664336e1b507cd30a04 PW 128 ((2 ^ 128 - 1) / q) ≠ 0 ∧
    powCheck 8 128 0x15a244eb3e3762664336e1b507cd30a04 PW 128 ((2 ^ 128 - 1) / q) ≠ 1 := by decide +kernel

theorem neW (q : ℕ) (hq : q ∈ [3, 5, 17, 257, 641, 65537, 274177, 6700417, 672804213107211]) :
    ¬ bitPoly (128 + 1) PW ∣ X ^ ((2 ^ 128 - 1) / q) - 1 :=
  pow_ne_one_of_check (s := 8) (by decide) (by decide) (by decide) (by decide +kernel) (checksW q hq).1 (checksW q hq).2.1 (checksW q hq).2.2

/-- What the table of the tests accepts. -/
theorem testTable_accepts {p : (ZMod 2)[X]} (hi : Irreducible p) (hd : p.natDegree = 128)
    (hn : ∀ q ∈ [3, 5, 17, 257, 641, 65537, 274177, 6700417, 672804213107211], ¬ p ∣ X ^ ((2 ^ 128 - 1) / q) - 1) :
    Period.isPrimeStr p 128 testTable = some true := by
  unfold Period.isPrimeStr
  rw [readTable_test]
  show Period.isPrimeVec p 128 [3, 5, 17, 257, 641, 65537, 274177, 6700417, 672804213107211] = _
  unfold Period.isPrimeVec
  rw [if_neg (by rw [not_not]; exact (Period.deg_eq_iff (by decide)).2 hd), if_neg (by simp [Period.isIrreducible, hi])]
  obtain ⟨b, h3, h4⟩ := Period.isPrimeLoop_spec (p := p) (by rw [hd]; decide) (2 ^ 128 - 1)
    [3, 5, 17, 257, 641, 65537, 274177, 6700417, 672804213107211] (by decide)
  rw [h3, h4.2 hn]

/-- **C93.**  The last number of the table, 672804213107211, is not the prime factor 67280421310721 of `2^128-1`, it does not even divide
that number; and `isPrime(poly, 128, table)` returns true for a polynomial that is not primitive. -/
theorem testTable_wrong : ¬ 672804213107211 ∣ 2 ^ 128 - 1 ∧ Nat.Prime 67280421310721 ∧ 67280421310721 ∣ 2 ^ 128 - 1 ∧
    ∃ p : (ZMod 2)[X], Period.isPrimeStr p 128 testTable = some true ∧ ¬ Primitive2 p 128 := by
  have h := (Period.checkTable_sound (N := 128) (L := [3, 5, 17, 257, 641, 65537, 274177, 6700417, 67280421310721]) (by decide +kernel)
    67280421310721).1 (by decide)
  refine ⟨by decide, h.1, h.2, bitPoly (128 + 1) PW, ?_, ?_⟩
  · exact testTable_accepts irrW.1 irrW.2 neW
  · intro hp
    have := (hp.2 _).1 ordW
    revert this
    decide

/-! ## test_rtiny -/

variable {mps : MPS}

/-- The object at the beginning of the turn number `i`: the new parameters come from the numbers `6i`, …, `6i+5` of `mt`, the state is
that left by the 256 calls of `minpoly`. -/
def rtAt (f : ℕ → BitVec 32) : ℕ → RT
  | 0 => rtDefault 1234
  | i + 1 => rtSetUp (fun j => f (6 * i + j)) (stateAt rtOps (rtAt f i) 256)

open Classical in
/-- What one turn should print for the object `r`: `q` is the minimal polynomial of the low bits of its outputs. -/
def TurnSpec (r : RT) (t : List Char) : Prop := ∃ q, IsSeqMinpoly q (bitAt rtOps r 0) ∧
  (q.natDegree ≠ 128 → t = []) ∧
  (q.natDegree = 128 → Irreducible q → ∃ b : Bool,
    t = "irreducible\n".toList ++ rtParam r.par ++ "\n".toList ++ (if b then "prime\n".toList ++ rtParam r.par ++ "\n".toList else []) ∧
    (Primitive2 q 128 → b = true) ∧ (b = true → ∀ k, q ∣ X ^ k - 1 → (2 ^ 128 - 1) / 67280421310721 ∣ k)) ∧
  (q.natDegree = 128 → ¬ Irreducible q →
    t = "reducible\n".toList ++ rtParam r.par ++ "\n".toList ++
      (if ∃ g, Irreducible g ∧ g.natDegree = 127 ∧ g ∣ q then "has a factor of degree 127\n".toList ++ rtParam r.par ++ "\n".toList else []))

theorem rtState_par (r : RT) (n : ℕ) : (stateAt rtOps r n).par = r.par := by
  induction n with
  | zero => rfl
  | succ n ih => exact ((rtOps_linGen r.par).gen_inv _ ih)

theorem rtinyLoop_spec (hm : MinPolySeqSpec mps) {fuel : ℕ} (hf : 129 ≤ fuel) (f : ℕ → BitVec 32) (n : ℕ) :
    ∀ (i : ℕ) (fl : Flags) (out : List Char), fl.prime = false →
    ∃ T : ℕ → List Char, (∀ j < n, TurnSpec (rtAt f (i + j)) (T j)) ∧
      rtinyLoop mps fuel f n (6 * i) (rtAt f i) fl out = some (6 * (i + n), out ++ (List.range n).flatMap T) := by
  induction n with
  | zero =>
    intro i fl out _
    exact ⟨fun _ => [], fun j hj => absurd hj (by omega), by simp [rtinyLoop]⟩
  | succ n ih =>
    intro i fl out hfl
    obtain ⟨q, h1, h2⟩ := minpoly_dim hm (rtOps_linGen (rtAt f i).par) (s := rtAt f i) rfl (pos := 0) (by decide) finrank_SR.le
    have h1 : minpoly mps rtOps 0 0 (rtAt f i) = some (stateAt rtOps (rtAt f i) 256, q) := h1
    have hpar := rtState_par (rtAt f i) 256
    have hnext : rtSetUp (fun j => f (6 * i + j)) (stateAt rtOps (rtAt f i) 256) = rtAt f (i + 1) := rfl
    -- one turn that prints `t`
    have step : ∀ (t : List Char) (fl' : Flags), fl'.prime = false → TurnSpec (rtAt f i) t →
        rtinyLoop mps fuel f (n + 1) (6 * i) (rtAt f i) fl out = rtinyLoop mps fuel f n (6 * i + 6) (rtAt f (i + 1)) fl' (out ++ t) →
        ∃ T : ℕ → List Char, (∀ j < n + 1, TurnSpec (rtAt f (i + j)) (T j)) ∧
          rtinyLoop mps fuel f (n + 1) (6 * i) (rtAt f i) fl out = some (6 * (i + (n + 1)), out ++ (List.range (n + 1)).flatMap T) := by
      intro t fl' hfl' ht e
      obtain ⟨T, g1, g2⟩ := ih (i + 1) fl' (out ++ t) hfl'
      refine ⟨fun j => if j = 0 then t else T (j - 1), fun j hj => ?_, ?_⟩
      · cases j with
        | zero => exact ht
        | succ j =>
          have := g1 j (by omega)
          rw [show i + 1 + j = i + (j + 1) by omega] at this
          simpa using this
      · rw [e, show 6 * i + 6 = 6 * (i + 1) by omega, g2, List.range_succ_eq_map, List.flatMap_cons, List.flatMap_map]
        simp only [Nat.succ_ne_zero, if_false, if_true, Nat.succ_sub_one, List.append_assoc]
        rw [show 6 * (i + 1 + n) = 6 * (i + (n + 1)) by omega]
    by_cases hd : q.natDegree = 128
    · have hdeg : ¬ Period.deg q ≠ 128 := by
        rw [not_not]; exact (Period.deg_eq_iff (n := 128) (by decide)).2 hd
      by_cases hi : Irreducible q
      · obtain ⟨b, h3, h4⟩ := testTable_sound_partial q
        refine step ("irreducible\n".toList ++ rtParam (rtAt f i).par ++ "\n".toList ++
          (if b then "prime\n".toList ++ rtParam (rtAt f i).par ++ "\n".toList else [])) { fl with irreducible := true } hfl ?_ ?_
        · refine ⟨q, h2, fun h => absurd hd h, fun _ _ => ⟨b, rfl, fun hp => ?_, fun hb => (h4 hb).2.2⟩, fun _ h => absurd hi h⟩
          rw [testTable_complete hp] at h3
          exact (Option.some.inj h3).symm
        · rw [rtinyLoop, h1]
          have hii : Period.isIrreducible q = true := by simp [Period.isIrreducible, hi]
          simp only [Option.bind_eq_bind, Option.bind_some, if_neg hdeg, hii, if_true, h3, hpar, hfl, hnext, Bool.and_false, Bool.false_and,
            Bool.false_eq_true, if_false]
          cases b <;> simp
      · obtain ⟨b, r, h3, h4, h5, h6⟩ := Period.hasFactorOfDegree_correct q (degree := 127) (fuel := fuel) (by decide) (by omega)
        have hb : b = true ↔ ∃ g, Irreducible g ∧ g.natDegree = 127 ∧ g ∣ q := by
          constructor
          · intro hb
            exact ⟨r, (h5 hb).1, (h5 hb).2, h4⟩
          · rintro ⟨g, g1, g2, g3⟩
            have := Period.hasFactorOfDegree_half q g h2.1 (degree := 127) (fuel := fuel) (by decide) (by omega) g1 g3 g2 (by omega)
            rw [h3] at this
            exact (congrArg Prod.fst (Option.some.inj this))
        refine step ("reducible\n".toList ++ rtParam (rtAt f i).par ++ "\n".toList ++
          (if b then "has a factor of degree 127\n".toList ++ rtParam (rtAt f i).par ++ "\n".toList else []))
          (if b then { fl with reducible := true, factor := true } else { fl with reducible := true }) (by split <;> exact hfl) ?_ ?_
        · refine ⟨q, h2, fun h => absurd hd h, fun _ h => absurd h hi, fun _ _ => ?_⟩
          by_cases hbb : b = true
          · rw [if_pos hbb, if_pos (hb.1 hbb)]
          · rw [if_neg hbb, if_neg (fun h => hbb (hb.2 h))]
        · rw [rtinyLoop, h1]
          have hii : Period.isIrreducible q = false := by simp [Period.isIrreducible, hi]
          simp only [Option.bind_eq_bind, Option.bind_some, if_neg hdeg, hii, Bool.false_eq_true, if_false, h3, hpar, hnext]
          cases b <;> simp [hfl]
    · refine step [] fl hfl ⟨q, h2, fun _ => rfl, fun h => absurd h hd, fun h => absurd h hd⟩ ?_
      have hdeg : Period.deg q ≠ 128 := fun h => hd ((Period.deg_eq_iff (n := 128) (by decide)).1 h)
      rw [rtinyLoop, h1]
      simp only [Option.bind_eq_bind, Option.bind_some, if_pos hdeg, hnext, List.append_nil]

/-- **C93.**  `test_rtiny`: for every stream of numbers the program prints, turn by turn, what the specification says, and it never leaves
the loop early: the variable `prime` is never set, so that all turns (10000000 in the program) are made and six numbers are drawn in each
of them. -/
theorem rtinyMain_spec (hm : MinPolySeqSpec mps) {fuel : ℕ} (hf : 129 ≤ fuel) (f : ℕ → BitVec 32) (turns : ℕ) :
    ∃ T : ℕ → List Char, (∀ j < turns, TurnSpec (rtAt f j) (T j)) ∧
      rtinyMain mps fuel f turns = some (6 * turns, (List.range turns).flatMap T) := by
  obtain ⟨T, h1, h2⟩ := rtinyLoop_spec hm hf f turns 0 ⟨false, false, false, true⟩ [] rfl
  refine ⟨T, fun j hj => ?_, ?_⟩
  · have := h1 j hj
    rwa [Nat.zero_add] at this
  · rw [Nat.zero_add] at h2
    exact h2

/-! ## Concrete cases -/

-- the first turn of the program prints both messages
example (hm : MinPolySeqSpec mps) (f : ℕ → BitVec 32) : ∃ t, TurnSpec (rtAt f 0) t ∧
    t = "irreducible\n".toList ++ rtParam pA ++ "\n".toList ++ ("prime\n".toList ++ rtParam pA ++ "\n".toList) := by
  obtain ⟨q, h1, h2⟩ := rtDefault_minpoly hm 1234
  obtain ⟨q', h3, h4⟩ := minpoly_dim hm (rtOps_linGen pA) (s := rtDefault 1234) rfl (pos := 0) (by decide) finrank_SR.le
  have h3 : minpoly mps rtOps 0 0 (rtDefault 1234) = _ := h3
  have e : q' = q := by
    unfold mp at h1
    rw [h3] at h1
    exact Option.some.inj h1
  rw [e] at h4
  have hi := Primitive2.irreducible (by decide) h2
  refine ⟨_, ⟨q, h4, fun h => absurd h2.1 h, fun _ _ => ⟨true, rfl, fun _ => rfl, fun _ k hk => ?_⟩, fun _ h => absurd hi h⟩, rfl⟩
  exact dvd_trans (by decide) ((h2.2 k).1 hk)

example : rtParam pA = "mat1:7c9e604d\nmat2:e91ac974\nsh1:2\nsh2:16\nsh3:24\nsh4:23\n".toList := by decide +kernel

end MTT.Tests
