import Verif.Mexp.Certs
import Verif.Mexp.P110503
import Verif.Mexp.P216091z

/-!
# The exponents up to 11213

Every exponent up to 11213 is a Mersenne exponent if and only if it is one of the first 23 entries of the table.
-/

namespace MTT.Mexp

/-- Primes that are enough for trial division up to 11213. -/
def smallPrimes : List Nat :=
  [2, 3, 5, 7, 11, 13, 17, 19, 23, 29, 31, 37, 41, 43, 47, 53, 59, 61, 67, 71, 73, 79, 83, 89, 97, 101, 103]

/-- `p` has a divisor among the small primes. -/
def divided (p : Nat) : Bool := smallPrimes.any fun d => Nat.blt d p && Nat.beq (p % d) 0

/-- The `k` numbers from `p` are in the list or have a proper divisor. -/
def covers (l : List (Nat × Nat)) (p k : Nat) : Bool :=
  Nat.rec (motive := fun _ => List (Nat × Nat) → Nat → Bool) (fun _ _ => true)
    (fun _ ih l p =>
      List.casesOn (motive := fun _ => Bool) l
        (bif divided p then force (p + 1) fun q => ih [] q else false)
        (fun c l' => bif Nat.beq c.1 p then force (p + 1) fun q => ih l' q
          else bif divided p then force (p + 1) fun q => ih (c :: l') q else false)) k l p

theorem covers_nil (p k : Nat) : covers [] p (k + 1) = (bif divided p then covers [] (p + 1) k else false) := by
  show (bif divided p then force (p + 1) fun q => covers [] q k else false) = _
  rw [force_eq]

theorem covers_cons (c : Nat × Nat) (l : List (Nat × Nat)) (p k : Nat) : covers (c :: l) p (k + 1) =
    (bif Nat.beq c.1 p then covers l (p + 1) k else bif divided p then covers (c :: l) (p + 1) k else false) := by
  show (bif Nat.beq c.1 p then force (p + 1) fun q => covers l q k
    else bif divided p then force (p + 1) fun q => covers (c :: l) q k else false) = _
  rw [force_eq, force_eq]

theorem divided_not_prime {p : Nat} (h : divided p = true) : ¬ p.Prime := by
  unfold divided at h
  rw [List.any_eq_true] at h
  obtain ⟨d, hd, h⟩ := h
  rw [Bool.and_eq_true] at h
  have h1 : d < p := Nat.le_of_ble_eq_true h.1
  have h2 : p % d = 0 := Nat.eq_of_beq_eq_true h.2
  have h3 : ∀ d ∈ smallPrimes, 2 ≤ d := by decide
  intro hp
  rcases (Nat.dvd_prime hp).mp (Nat.dvd_of_mod_eq_zero h2) with h4 | h4
  · have := h3 d hd; omega
  · omega

theorem covers_sound (k : Nat) : ∀ (l : List (Nat × Nat)) (p : Nat), covers l p k = true →
    ∀ n, p ≤ n → n < p + k → n.Prime → ∃ c ∈ l, c.1 = n := by
  induction k with
  | zero => intro l p _ n h1 h2; omega
  | succ k ih =>
    intro l p h n h1 h2 hn
    cases l with
    | nil =>
      rw [covers_nil] at h
      cases hd : divided p with
      | false => rw [hd] at h; exact absurd h (by simp)
      | true =>
        rw [hd] at h
        rcases Nat.eq_or_lt_of_le h1 with e | e
        · subst e; exact absurd hn (divided_not_prime hd)
        · exact ih _ _ h n e (by omega) hn
    | cons c l =>
      rw [covers_cons] at h
      cases hb : Nat.beq c.1 p with
      | true =>
        rw [hb] at h
        rcases Nat.eq_or_lt_of_le h1 with e | e
        · exact ⟨c, List.mem_cons_self, (Nat.eq_of_beq_eq_true hb).trans e⟩
        · obtain ⟨c', hc, e'⟩ := ih _ _ h n e (by omega) hn
          exact ⟨c', List.mem_cons_of_mem _ hc, e'⟩
      | false =>
        rw [hb] at h
        cases hd : divided p with
        | false => rw [hd] at h; exact absurd h (by simp)
        | true =>
          rw [hd] at h
          rcases Nat.eq_or_lt_of_le h1 with e | e
          · subst e; exact absurd hn (divided_not_prime hd)
          · exact ih _ _ h n e (by omega) hn

theorem covers_certs : covers certs 2 11212 = true := by decide +kernel

/-- The exponents with a Lucas–Lehmer test that fails. -/
def compLists : List (List Nat) := compList1 ++ (compList2 ++ (compList3 ++ compList4))

theorem compLists_ok : ∀ l ∈ compLists, ∀ p ∈ l, Nat.beq (residue p) 0 = false := by
  intro l hl p hp
  have h : (l.all fun p => !Nat.beq (residue p) 0) = true := by
    unfold compLists at hl
    rw [List.mem_append, List.mem_append, List.mem_append] at hl
    rcases hl with h | h | h | h
    exacts [compList1_ok l h, compList2_ok l h, compList3_ok l h, compList4_ok l h]
  have h2 := List.all_eq_true.mp h p hp
  simpa using h2

/-- Marked 1: tested. -/
theorem certs_tested : ((certs.filter fun c => Nat.beq c.2 1).map fun c => c.1) = compLists.flatten := by decide +kernel

/-- Marked 0: in the table. -/
theorem certs_table : ((certs.filter fun c => Nat.beq c.2 0).map fun c => c.1) =
    [2, 3, 5, 7, 13, 17, 19, 31, 61, 89, 107, 127, 521, 607, 1279,
      2203, 2281, 3217, 4253, 4423, 9689, 9941, 11213] := by decide +kernel

/-- The others have a factor. -/
theorem certs_factor : (certs.all fun c => Nat.ble c.2 1 ||
    (Nat.ble 2 c.2 && Nat.ble (c.2 + 1) (2 ^ c.1 - 1) && Nat.beq ((2 ^ c.1 - 1) % c.2) 0)) = true := by decide +kernel

theorem tested_ge : (compLists.flatten.all fun p => Nat.ble 3 p) = true := by decide +kernel

/-- A Mersenne exponent up to 11213 is one of the first 23 entries. -/
theorem mersenne_mem {p : Nat} (hp : p ≤ 11213) (h : (2 ^ p - 1).Prime) :
    p ∈ [2, 3, 5, 7, 13, 17, 19, 31, 61, 89, 107, 127, 521, 607, 1279,
      2203, 2281, 3217, 4253, 4423, 9689, 9941, 11213] := by
  have hpp : p.Prime := Nat.Prime.of_mersenne h
  obtain ⟨c, hc, e⟩ := covers_sound _ _ _ covers_certs p hpp.two_le (by omega) hpp
  subst e
  cases h0 : Nat.beq c.2 0 with
  | true =>
    rw [← certs_table]
    exact List.mem_map.mpr ⟨c, List.mem_filter.mpr ⟨hc, h0⟩, rfl⟩
  | false =>
    cases h1 : Nat.beq c.2 1 with
    | true =>
      have hm : c.1 ∈ compLists.flatten := by
        rw [← certs_tested]
        exact List.mem_map.mpr ⟨c, List.mem_filter.mpr ⟨hc, h1⟩, rfl⟩
      have h3 := List.all_eq_true.mp tested_ge _ hm
      obtain ⟨l, hl, hcl⟩ := List.mem_flatten.mp hm
      exact absurd h (not_prime_of_residue h3 (compLists_ok l hl _ hcl))
    | false =>
      have h2 := List.all_eq_true.mp certs_factor c hc
      rw [Bool.or_eq_true] at h2
      rcases h2 with h2 | h2
      · have h3 := Nat.le_of_ble_eq_true h2
        have h4 := Nat.ne_of_beq_eq_false h0
        have h5 := Nat.ne_of_beq_eq_false h1
        omega
      · exact absurd h (not_prime_of_factor h2)

end MTT.Mexp
