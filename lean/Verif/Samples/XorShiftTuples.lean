import Verif.Samples.XorShiftFixedProps

/-!
# C137: every quadruple of consecutive numbers of a maximal xorshift occurs exactly once in a period
-/

namespace MTT.XorShift

open PIS Search

/-- Four consecutive numbers. -/
def quad (s : St) (k : ℕ) : BitVec 32 × BitVec 32 × BitVec 32 × BitVec 32 :=
  (outAt ops s k, outAt ops s (k + 1), outAt ops s (k + 2), outAt ops s (k + 3))

theorem den_quad (s : St) (k : ℕ) :
    den (stateAt ops s (k + 4)) = (Wd.of (quad s k).1, Wd.of (quad s k).2.1, Wd.of (quad s k).2.2.1, Wd.of (quad s k).2.2.2) := rfl

theorem pow_den {p : Par} {s : St} (hp : par s = p) (k : ℕ) : den (stateAt ops s k) = ((T (parSt p)) ^ k) (den s) :=
  (stateAt_spec (family.lin p) (g := s) ⟨trivial, hp⟩ k).2

theorem par_stateAt (s : St) (k : ℕ) : par (stateAt ops s k) = par s := by
  induction k with
  | zero => rfl
  | succ k ih => exact ih

theorem stateAt_add (s : St) (i k : ℕ) : stateAt ops (stateAt ops s i) k = stateAt ops s (i + k) := by
  induction k with
  | zero => rfl
  | succ k ih =>
    show (ops.generate (stateAt ops (stateAt ops s i) k)).1 = (ops.generate (stateAt ops s (i + k))).1
    rw [ih]

/-- **C137.**  If the parameters are maximal, then from every non-zero state every quadruple of numbers other than
`0, 0, 0, 0` is returned at exactly one place of the period. -/
theorem quad_once {s : St} (h : Maximal (par s)) (hs : isZero s = false)
    (q : BitVec 32 × BitVec 32 × BitVec 32 × BitVec 32) (hq : q ≠ 0) : ∃! k, k < 2 ^ 128 - 1 ∧ quad s k = q := by
  generalize hN : 2 ^ 128 - 1 = N at *
  have hN4 : 4 ≤ 2 ^ 128 - 1 := by norm_num
  have hpos : 0 < N := by omega
  have h4 : isZero (stateAt ops s 4) = false := stateAt_ne_zero h rfl hs hN4
  have hper : ∀ t : St, par t = par s → isZero t = false → ∀ k, den (stateAt ops t k) = den t ↔ N ∣ k := by
    rw [← hN]; exact h
  have hy : ((Wd.of q.1, Wd.of q.2.1, Wd.of q.2.2.1, Wd.of q.2.2.2) : S) ≠ 0 := fun e => hq (by
    refine Prod.ext ?_ (Prod.ext ?_ (Prod.ext ?_ ?_))
    · exact congrArg (fun y : S => y.1.val) e
    · exact congrArg (fun y : S => y.2.1.val) e
    · exact congrArg (fun y : S => y.2.2.1.val) e
    · exact congrArg (fun y : S => y.2.2.2.val) e)
  have hval : ∀ k, den (stateAt ops s (k + 4)) = (Wd.of q.1, Wd.of q.2.1, Wd.of q.2.2.1, Wd.of q.2.2.2) ↔ quad s k = q := by
    intro k
    rw [den_quad]
    constructor
    · intro e
      refine Prod.ext ?_ (Prod.ext ?_ (Prod.ext ?_ ?_))
      · exact congrArg (fun y : S => y.1.val) e
      · exact congrArg (fun y : S => y.2.1.val) e
      · exact congrArg (fun y : S => y.2.2.1.val) e
      · exact congrArg (fun y : S => y.2.2.2.val) e
    · intro e; rw [e]
  obtain ⟨k, -, hk⟩ := orbit_of_maximal h (par_stateAt s 4) h4 hy
  rw [stateAt_add, Nat.add_comm] at hk
  -- the place below the period
  have hmod : den (stateAt ops s (k % N + 4)) = den (stateAt ops s (k + 4)) := by
    have e1 : den (stateAt ops s (N * (k / N))) = den s := (hper s rfl hs _).2 (Dvd.intro _ rfl)
    rw [pow_den rfl] at e1
    rw [pow_den rfl, pow_den rfl]
    conv_rhs => rw [← Nat.mod_add_div k N, Nat.add_right_comm, pow_add, Module.End.mul_apply, e1]
  refine ⟨k % N, ⟨Nat.mod_lt _ hpos, (hval _).1 (hmod.trans hk)⟩, ?_⟩
  -- no second place
  have key : ∀ i j, i ≤ j → j < N → quad s i = quad s j → i = j := by
    intro i j hij hj e
    have e1 : den (stateAt ops s (j + 4)) = den (stateAt ops s (i + 4)) := by rw [den_quad, den_quad, e]
    have hz : isZero (stateAt ops s (i + 4)) = false := by
      by_contra hc
      rw [Bool.not_eq_false, isZero_iff] at hc
      have e2 := (hper (stateAt ops s 4) (par_stateAt s 4) h4 N).2 dvd_rfl
      rw [stateAt_add, pow_den rfl, show 4 + N = (N - i) + (i + 4) by omega, pow_add, Module.End.mul_apply, ← pow_den rfl,
        hc, map_zero] at e2
      rw [eq_comm, ← isZero_iff, h4] at e2
      cases e2
    have e3 : den (stateAt ops (stateAt ops s (i + 4)) (j - i)) = den (stateAt ops s (i + 4)) := by
      rw [stateAt_add, show i + 4 + (j - i) = j + 4 by omega, e1]
    have hd := (hper _ (par_stateAt s (i + 4)) hz _).1 e3
    have := Nat.eq_zero_of_dvd_of_lt hd (by omega)
    omega
  rintro j ⟨hj, e⟩
  have e' : quad s j = quad s (k % N) := e.trans ((hval _).1 (hmod.trans hk)).symm
  rcases le_total j (k % N) with hle | hle
  · exact key j _ hle (Nat.mod_lt _ hpos) e'
  · exact (key _ j hle hj e'.symm).symm

/-- **C137.**  Four zeros are never returned in a row. -/
theorem quad_ne_zero {s : St} (h : Maximal (par s)) (hs : isZero s = false) (k : ℕ) : quad s k ≠ 0 := by
  intro e
  have hz : den (stateAt ops s (k + 4)) = 0 := by rw [den_quad, e]; rfl
  -- the zero state stays
  have h1 := (h s rfl hs ((2 ^ 128 - 1) * (k + 4))).2 (Dvd.intro _ rfl)
  have hle : k + 4 ≤ (2 ^ 128 - 1) * (k + 4) := Nat.le_mul_of_pos_left _ (by norm_num)
  generalize (2 ^ 128 - 1) * (k + 4) = m at *
  rw [pow_den rfl, show m = (m - (k + 4)) + (k + 4) by omega, pow_add, Module.End.mul_apply, ← pow_den rfl, hz, map_zero] at h1
  rw [eq_comm, ← isZero_iff, hs] at h1
  cases h1

/-- **C137.**  During one period, quadruples with any given property are returned as often as there are such quadruples
other than `0, 0, 0, 0`. -/
theorem quad_count {s : St} (h : Maximal (par s)) (hs : isZero s = false)
    (Q : BitVec 32 × BitVec 32 × BitVec 32 × BitVec 32 → Prop) :
    Nat.card {k : ℕ // k < 2 ^ 128 - 1 ∧ Q (quad s k)} =
      Nat.card {q : BitVec 32 × BitVec 32 × BitVec 32 × BitVec 32 // q ≠ 0 ∧ Q q} := by
  refine Nat.card_congr (Equiv.ofBijective (fun k => ⟨quad s k.1, quad_ne_zero h hs _, k.2.2⟩) ⟨?_, ?_⟩)
  · rintro ⟨i, hi, hi'⟩ ⟨j, hj, hj'⟩ e
    have e' : quad s i = quad s j := congrArg Subtype.val e
    exact Subtype.ext ((quad_once h hs _ (quad_ne_zero h hs j)).unique ⟨hi, e'⟩ ⟨hj, rfl⟩)
  · rintro ⟨q, hq, hQ⟩
    obtain ⟨k, ⟨hk, e⟩, -⟩ := quad_once h hs q hq
    exact ⟨⟨k, hk, e.symm ▸ hQ⟩, Subtype.ext e⟩

/-- **C137.**  Four consecutive numbers determine all later ones, whatever the parameters and the states are. -/
theorem quad_predicts {s s' : St} (hp : par s = par s') {k k' : ℕ} (e : quad s k = quad s' k') (j : ℕ) :
    outAt ops s (k + j) = outAt ops s' (k' + j) := by
  have h4 : den (stateAt ops s (k + 4)) = den (stateAt ops s' (k' + 4)) := by rw [den_quad, den_quad, e]
  rcases Nat.lt_or_ge j 4 with hj | hj
  · obtain rfl | rfl | rfl | rfl : j = 0 ∨ j = 1 ∨ j = 2 ∨ j = 3 := by omega
    · exact congrArg (fun q => q.1) e
    · exact congrArg (fun q => q.2.1) e
    · exact congrArg (fun q => q.2.2.1) e
    · exact congrArg (fun q => q.2.2.2) e
  · have h1 : den (stateAt ops s (k + j + 1)) = den (stateAt ops s' (k' + j + 1)) := by
      rw [pow_den rfl] at h4 ⊢
      rw [pow_den hp.symm] at h4 ⊢
      rw [show k + j + 1 = (j - 3) + (k + 4) by omega, show k' + j + 1 = (j - 3) + (k' + 4) by omega, pow_add _ (j - 3) (k + 4),
        pow_add _ (j - 3) (k' + 4), Module.End.mul_apply, Module.End.mul_apply, h4]
    exact congrArg (fun y : S => y.2.2.2.val) h1

/-- **C137.**  With maximal parameters the numbers from any two non-zero states are one sequence, entered at places whose
distance below the period is unique. -/
theorem one_stream {s s' : St} (h : Maximal (par s)) (hp : par s' = par s) (hs : isZero s = false) (hs' : isZero s' = false) :
    ∃! K, K < 2 ^ 128 - 1 ∧ ∀ j, outAt ops s (K + j) = outAt ops s' j := by
  obtain ⟨K, ⟨hK, e⟩, hu⟩ := quad_once h hs _ (quad_ne_zero (by rw [hp]; exact h) hs' 0)
  refine ⟨K, ⟨hK, fun j => ?_⟩, fun K' hK' => hu K' ⟨hK'.1, ?_⟩⟩
  · have := quad_predicts hp.symm e j
    rwa [Nat.zero_add] at this
  · exact Prod.ext (hK'.2 0) (Prod.ext (hK'.2 1) (Prod.ext (hK'.2 2) (hK'.2 3)))

/-- **C137.**  The quadruples make out the maximal parameter sets: they are those with which every quadruple other than
`0, 0, 0, 0` is returned at exactly one place below `2^128-1`, from every non-zero state. -/
theorem maximal_iff_quads (p : Par) : Maximal p ↔ ∀ s : St, par s = p → isZero s = false →
    ∀ q : BitVec 32 × BitVec 32 × BitVec 32 × BitVec 32, q ≠ 0 → ∃! k, k < 2 ^ 128 - 1 ∧ quad s k = q := by
  refine ⟨fun h s hp hs q hq => quad_once (by rw [hp]; exact h) hs q hq, fun h s hp hs k => ?_⟩
  have h := h s hp hs
  have hN : 0 < 2 ^ 128 - 1 := by norm_num
  generalize 2 ^ 128 - 1 = N at *
  have hden : den s ≠ 0 := by rw [Ne, ← isZero_iff, hs]; simp
  have hadd : ∀ a b c, den (stateAt ops s a) = den (stateAt ops s b) → den (stateAt ops s (a + c)) = den (stateAt ops s (b + c)) := by
    intro a b c e
    rw [pow_den hp] at e ⊢
    rw [pow_den hp] at e ⊢
    rw [Nat.add_comm a, Nat.add_comm b, pow_add, pow_add, Module.End.mul_apply, Module.End.mul_apply, e]
  have hof : ∀ k (y : S), den (stateAt ops s (k + 4)) = y ↔ quad s k = (y.1.val, y.2.1.val, y.2.2.1.val, y.2.2.2.val) := by
    intro k y
    rw [den_quad]
    constructor
    · rintro rfl; rfl
    · intro e; rw [e]; rfl
  have hne : ∀ y : S, y ≠ 0 → ((y.1.val, y.2.1.val, y.2.2.1.val, y.2.2.2.val) : BitVec 32 × BitVec 32 × BitVec 32 × BitVec 32) ≠ 0 := by
    intro y hy e
    apply hy
    refine Prod.ext (Wd.ext ?_) (Prod.ext (Wd.ext ?_) (Prod.ext (Wd.ext ?_) (Wd.ext ?_)))
    · exact congrArg (fun y => y.1) e
    · exact congrArg (fun y => y.2.1) e
    · exact congrArg (fun y => y.2.2.1) e
    · exact congrArg (fun y => y.2.2.2) e
  -- the state comes back
  obtain ⟨d, ⟨-, hd⟩, -⟩ := h _ (hne _ hden)
  rw [← hof] at hd
  have hback : ∀ a, den (stateAt ops s (a + (d + 4))) = den (stateAt ops s a) := by
    intro a
    have := hadd (d + 4) 0 a hd
    rwa [Nat.add_comm, Nat.zero_add] at this
  have hsub : ∀ c a b, den (stateAt ops s (a + c)) = den (stateAt ops s (b + c)) → den (stateAt ops s a) = den (stateAt ops s b) := by
    intro c
    induction c with
    | zero => exact fun a b e => e
    | succ c ih =>
      intro a b e
      apply ih
      rw [← hback (a + c), ← hback (b + c), show a + c + (d + 4) = a + (c + 1) + (d + 3) by omega,
        show b + c + (d + 4) = b + (c + 1) + (d + 3) by omega]
      exact hadd _ _ _ e
  -- so it is never zero
  have hnz : ∀ a, den (stateAt ops s a) ≠ 0 := by
    intro a e
    apply hden
    have e1 : ∀ m, den (stateAt ops s (m * (d + 4))) = den s := by
      intro m
      induction m with
      | zero => rw [Nat.zero_mul]; rfl
      | succ m ih => rw [Nat.succ_mul, hback, ih]
    have e2 := e1 a
    have hle : a ≤ a * (d + 4) := Nat.le_mul_of_pos_right _ (by omega)
    rw [pow_den hp, show a * (d + 4) = (a * (d + 4) - a) + a by omega, pow_add, Module.End.mul_apply, ← pow_den hp, e,
      map_zero] at e2
    exact e2.symm
  have hinj : ∀ r, r < N → den (stateAt ops s r) = den s → r = 0 := by
    intro r hr e
    have e4 : den (stateAt ops s (r + 4)) = den (stateAt ops s (0 + 4)) := hadd r 0 4 e
    have q1 := (hof r _).1 e4
    have q2 := (hof 0 _).1 rfl
    exact (h _ (hne _ (hnz (0 + 4)))).unique ⟨hr, q1⟩ ⟨hN, q2⟩
  have hfull : den (stateAt ops s N) = den s := by
    obtain ⟨j, ⟨hj, e⟩, -⟩ := h _ (hne _ (hnz (N + 4)))
    rw [← hof] at e
    have e1 : den (stateAt ops s j) = den (stateAt ops s N) := hsub 4 _ _ e
    by_cases h0 : j = 0
    · subst h0; exact e1.symm
    · exfalso
      have e2 : den (stateAt ops s (N - j)) = den (stateAt ops s 0) :=
        hsub j _ _ (by rw [Nat.sub_add_cancel hj.le, Nat.zero_add]; exact e1.symm)
      have := hinj (N - j) (by omega) e2
      omega
  have hmul : ∀ r m, den (stateAt ops s (r + N * m)) = den (stateAt ops s r) := by
    intro r m
    induction m with
    | zero => rfl
    | succ m ih =>
      have := hadd N 0 (r + N * m) hfull
      rw [Nat.zero_add] at this
      rw [show r + N * (m + 1) = N + (r + N * m) by rw [Nat.mul_succ]; omega, this, ih]
  rw [← Nat.mod_add_div k N, hmul]
  constructor
  · intro e
    rw [hinj _ (Nat.mod_lt _ hN) e, Nat.zero_add]
    exact Dvd.intro _ rfl
  · intro hk
    have : k % N = 0 := by
      rw [Nat.mod_add_div] at hk
      exact Nat.mod_eq_zero_of_dvd hk
    rw [this]; rfl

/-- **C137.**  The program xorshift-4.cpp prints exactly the parameter sets with this property. -/
theorem prints_quads {mps : MPS} (hm : MinPolySeqSpec mps) (junkPat : ℕ) (junkVeq : ℕ → ℕ) {fuel : ℕ} (hfuel : 2 ^ 18 < fuel) :
    ∃ L : List ℕ, Period.ctor Period.factors128 = some (L.map Int.ofNat) ∧
      ∃ out, mainLoop mps (Period.primitivityOp (some L)) 0x3ffff junkPat junkVeq fuel (Seq.make2 0 0x3ffff) = some out ∧
        ∀ p : Par, p ∈ out.map Prod.fst ↔ (p.1 < 8 ∧ p.2.1 < 32 ∧ p.2.2.1 < 32 ∧ p.2.2.2 < 32) ∧
          ∀ s : St, par s = p → isZero s = false →
            ∀ q : BitVec 32 × BitVec 32 × BitVec 32 × BitVec 32, q ≠ 0 → ∃! k, k < 2 ^ 128 - 1 ∧ quad s k = q := by
  obtain ⟨L, h1, out, h2, h3, -⟩ := main_correct_table hm junkPat junkVeq hfuel
  refine ⟨L, h1, out, h2, fun p => ?_⟩
  rw [h3, (expected_complete p).2, maximal_iff_quads, and_comm]

/-- The published parameters: `1, 2, 3, 4` is returned exactly once in a period, from the constructed state. -/
example (v : BitVec 32) : ∃! k, k < 2 ^ 128 - 1 ∧ quad (seed v ⟨7, 20, 11, 7, 0, 0, 0, 0⟩) k = (1, 2, 3, 4) :=
  quad_once (s := seed v ⟨7, 20, 11, 7, 0, 0, 0, 0⟩) (maximal_fixed par5 (Or.inr rfl)) (seed_not_zero _ _) _ (by decide)

/-- With all shift amounts 0 a state can become zero, so these parameters are not maximal. -/
example : ¬ Maximal (0, 0, 0, 0) := by
  intro h
  have h1 := (h ⟨0, 0, 0, 0, 1, 0, 0, 0⟩ rfl rfl (2 ^ 128 - 1)).2 dvd_rfl
  obtain ⟨m, hm⟩ : ∃ m, 2 ^ 128 - 1 = m + 1 := ⟨2 ^ 128 - 2, by norm_num⟩
  rw [hm] at h1
  have hz : den (stateAt ops ⟨0, 0, 0, 0, 1, 0, 0, 0⟩ 1) = 0 := by decide
  rw [pow_den rfl] at h1 hz
  rw [pow_add, Module.End.mul_apply, hz, map_zero] at h1
  exact absurd h1 (by decide)

end MTT.XorShift
