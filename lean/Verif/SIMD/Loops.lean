import Verif.SIMD.Equidist
import Mathlib.Algebra.BigOperators.Intervals

/-!
# The loops of `calc_SIMD_equidistribution` (helper lemmas)
-/

namespace MTT.SIMD

open W128 PIS Polynomial

theorem foldlM_ok {α β ε : Type} {f : β → α → Except ε β} {g : β → α → β} (l : List α)
    (h : ∀ z ∈ l, ∀ st, f st z = .ok (g st z)) (st : β) : l.foldlM f st = .ok (l.foldl g st) := by
  induction l generalizing st with
  | nil => rfl
  | cons z l ih =>
    rw [List.foldlM_cons, h z (List.mem_cons_self ..), List.foldl_cons]
    exact ih (fun y hy => h y (List.mem_cons_of_mem _ hy)) _

theorem fold_point {β : Type} {c : β → β → Bool} (F : ℕ → β) (n : ℕ) (v : ℕ → β) (i : ℕ) :
    (List.range n).foldl (fun (v : ℕ → β) i => if c (F i) (v i) then Function.update v i (F i) else v) v i =
      if i < n then (if c (F i) (v i) then F i else v i) else v i := by
  induction n with
  | zero => rw [if_neg (by omega)]; rfl
  | succ n ih =>
    rw [List.range_succ, List.foldl_append, List.foldl_cons, List.foldl_nil]
    have hn : ∀ m ≥ n, (List.range n).foldl
        (fun (v : ℕ → β) i => if c (F i) (v i) then Function.update v i (F i) else v) v m = v m := by
      clear ih
      induction n with
      | zero => intro m _; rfl
      | succ n ih =>
        intro m hm
        rw [List.range_succ, List.foldl_append, List.foldl_cons, List.foldl_nil]
        split_ifs
        · rw [Function.update_of_ne (by omega)]; exact ih m (by omega)
        · exact ih m (by omega)
    rw [hn n le_rfl]
    by_cases h1 : i = n
    · subst h1
      rw [if_pos (show i < i + 1 by omega)]
      by_cases h2 : c (F i) (v i) = true
      · rw [if_pos h2, if_pos h2, Function.update_self]
      · rw [if_neg h2, if_neg h2, hn i le_rfl]
    · have : (if c (F n) (v n) = true then Function.update ((List.range n).foldl
          (fun (v : ℕ → β) i => if c (F i) (v i) then Function.update v i (F i) else v) v) n (F n)
          else (List.range n).foldl
          (fun (v : ℕ → β) i => if c (F i) (v i) then Function.update v i (F i) else v) v) i =
          (List.range n).foldl (fun (v : ℕ → β) i => if c (F i) (v i) then Function.update v i (F i) else v) v i := by
        split_ifs
        · exact Function.update_of_ne h1 _ _
        · rfl
      rw [this, ih]
      by_cases h2 : i < n
      · rw [if_pos h2, if_pos (show i < n + 1 by omega)]
      · rw [if_neg h2, if_neg (show ¬ i < n + 1 by omega)]

theorem fold_max (g : ℕ → ℤ) (z : ℤ) (n : ℕ) :
    (∀ j < n, g j ≤ (List.range n).foldl (fun z j => max z (g j)) z) ∧
    ((List.range n).foldl (fun z j => max z (g j)) z = z ∨
      ∃ j < n, (List.range n).foldl (fun z j => max z (g j)) z = g j) := by
  induction n with
  | zero => exact ⟨fun j hj => by omega, Or.inl rfl⟩
  | succ n ih =>
    rw [List.range_succ, List.foldl_append, List.foldl_cons, List.foldl_nil]
    refine ⟨fun j hj => ?_, ?_⟩
    · by_cases h : j = n
      · rw [h]; exact le_max_right _ _
      · exact (ih.1 j (by omega)).trans (le_max_left _ _)
    · rcases max_choice ((List.range n).foldl (fun z j => max z (g j)) z) (g n) with h | h
      · rw [h]
        rcases ih.2 with h2 | ⟨j, hj, h2⟩
        · exact Or.inl h2
        · exact Or.inr ⟨j, by omega, h2⟩
      · exact Or.inr ⟨n, by omega, h⟩

theorem fold_min (g : ℕ → ℤ) (z : ℤ) (n : ℕ) :
    (∀ j < n, (List.range n).foldl (fun z j => min z (g j)) z ≤ g j) ∧
    ((List.range n).foldl (fun z j => min z (g j)) z = z ∨
      ∃ j < n, (List.range n).foldl (fun z j => min z (g j)) z = g j) := by
  induction n with
  | zero => exact ⟨fun j hj => by omega, Or.inl rfl⟩
  | succ n ih =>
    rw [List.range_succ, List.foldl_append, List.foldl_cons, List.foldl_nil]
    refine ⟨fun j hj => ?_, ?_⟩
    · by_cases h : j = n
      · rw [h]; exact min_le_right _ _
      · exact (min_le_left _ _).trans (ih.1 j (by omega))
    · rcases min_choice ((List.range n).foldl (fun z j => min z (g j)) z) (g n) with h | h
      · rw [h]
        rcases ih.2 with h2 | ⟨j, hj, h2⟩
        · exact Or.inl h2
        · exact Or.inr ⟨j, by omega, h2⟩
      · exact Or.inr ⟨n, by omega, h⟩

theorem Layout.words {A : Alg} {lsb : Bool} {L E q : ℕ} {pos : ℕ → ℕ → ℕ} (h : Layout A lsb L E q pos) (b e : ℕ) :
    A.words (q * b) e = (E : ℤ) * e - (E - b) := by
  rcases h with _ | _ | -
  · show SIMD.words info32 _ _ = _
    unfold SIMD.words
    rw [if_pos (show info32.bitMode = 32 from rfl)]
    show (e : ℤ) * 4 - (4 - ((1 * b : ℕ) : ℤ)) = 4 * e - (4 - b)
    push_cast; ring
  · show SIMD.words info64 _ _ = _
    unfold SIMD.words
    rw [if_neg (show ¬ info64.bitMode = 32 by decide)]
    show (e : ℤ) * 2 - (2 - ((2 * b : ℕ) : ℤ) / 2) = 2 * e - (2 - b)
    push_cast
    rw [Int.mul_ediv_cancel_left _ (by decide)]; ring
  · show (e : ℤ) * 2 - (2 - ((1 * b : ℕ) : ℤ)) = 2 * e - (2 - b)
    push_cast; ring

theorem Layout.starts {A : Alg} {lsb : Bool} {L E q : ℕ} {pos : ℕ → ℕ → ℕ} (h : Layout A lsb L E q pos) :
    A.starts = (List.range E).map (q * ·) := by
  rcases h with _ | _ | - <;> rfl

theorem Layout.weights {A : Alg} {lsb : Bool} {L E q : ℕ} {pos : ℕ → ℕ → ℕ} (h : Layout A lsb L E q pos) :
    A.weights = (List.range E).map fun i => q * (i + 1) := by
  rcases h with _ | _ | - <;> rfl

section
variable {S : Type} [AddCommGroup S] [Module (ZMod 2) S] {T : S →ₗ[ZMod 2] S} {s0 : S} {y : ℕ → S →ₗ[ZMod 2] V}

/-- The number of bits is at most the degree. -/
theorem eqd_deg {χ : (ZMod 2)[X]} (hχ : χ.Monic) (hc : aeval T χ s0 = 0) {v j k : ℕ}
    (h : Eqd y (cyc T s0) v j k) : k * v ≤ χ.natDegree := by
  have hfin : Module.Finite (ZMod 2) (cyc T s0) := by
    rw [cyc_finrank hχ hc]
    exact Module.Finite.span_of_finite _ (Set.finite_range _)
  refine (eqd_bound h).trans ?_
  rw [cyc_finrank hχ hc]
  have := finrank_range_le_card (R := ZMod 2) (fun j : Fin χ.natDegree => (T ^ (j : ℕ)) s0)
  rwa [Fintype.card_fin] at this

/-- The numbers that one mode contributes. -/
def part (E b k : ℕ) : ℤ := (E : ℤ) * k - ((E : ℤ) - b)

variable {E : ℕ}

theorem part_le (H : Blocks y (cyc T s0) T E) {χ : (ZMod 2)[X]} (hχ : χ.Monic) (hc : aeval T χ s0 = 0) {mexp : ℕ}
    (hm : χ.natDegree ≤ mexp) {v a b k : ℕ} (h0 : 0 < v) (hb : b ≤ E) (h : Eqd y (cyc T s0) v (a + b) (E * k)) :
    part E b k ≤ (mexp / v : ℕ) := by
  unfold part
  by_cases hn : E - b ≤ E * k
  · have hl : Eqd y (cyc T s0) v a (E * k - (E - b)) := H.lower hb h (by omega)
    have h2 := eqd_deg hχ hc hl
    have h3 : E * k - (E - b) ≤ mexp / v := by rw [Nat.le_div_iff_mul_le h0]; omega
    have h4 : ((E * k - (E - b) : ℕ) : ℤ) ≤ (mexp / v : ℕ) := by exact_mod_cast h3
    rw [Nat.cast_sub hn, Nat.cast_mul, Nat.cast_sub hb] at h4
    exact h4
  · have : ((E * k : ℕ) : ℤ) ≤ ((E - b : ℕ) : ℤ) := by exact_mod_cast (by omega)
    rw [Nat.cast_mul, Nat.cast_sub hb] at this
    have h2 : (0 : ℤ) ≤ ((mexp / v : ℕ) : ℤ) := Int.natCast_nonneg _
    omega

variable {σ : Type} {G : SIMDOps σ} {A : Alg} {lsb : Bool} {L q : ℕ} {pos : ℕ → ℕ → ℕ} {x : ℕ → S →ₗ[ZMod 2] V}

/-- The loop over `v` for one mode. -/
theorem vLoop_spec (hl : Layout A lsb L E q pos) (H : Blocks x (cyc T s0) T E) {work : σ} {a b : ℕ} (hb : b ≤ E)
    (hM : Mode G.gen L E pos work a b x T s0)
    {χ : (ZMod 2)[X]} (hχ : χ.Monic) (hc : aeval T χ s0 = 0) (hB : χ.natDegree ≤ G.gen.bitSize)
    {calc1pos : W128 → Int} (h1 : IsCalc1pos calc1pos) {fuel : ℕ} (hf : 128 * (129 * χ.natDegree) + 129 ≤ fuel)
    {mexp : ℕ} (hm : χ.natDegree ≤ mexp) {bitLen : ℕ} (hbl : bitLen ≤ L) {K : ℕ → ℕ → ℕ}
    (hK : ∀ v j, 0 < v → IsGreatest {k | Eqd (fun k => (flip L lsb).comp (x k)) (cyc T s0) v j (E * k)} (K v j))
    (vw : ℕ → ℤ) :
    vLoop G A calc1pos fuel mexp bitLen (q * b) work vw =
      .ok fun i => if i < bitLen then max (vw i) (part E b (K (i + 1) (a + b))) else vw i := by
  unfold vLoop
  rw [foldlM_ok (g := fun (vw : ℕ → ℤ) i => if decide (part E b (K (i + 1) (a + b)) > vw i) then
    Function.update vw i (part E b (K (i + 1) (a + b))) else vw)]
  · congr 1
    funext i
    rw [fold_point (c := fun p q => decide (p > q)) (fun i => part E b (K (i + 1) (a + b)))]
    split_ifs with h2 h3
    · rw [max_eq_right (le_of_lt (by simpa using h3))]
    · rw [max_eq_left (by simpa using h3)]
    · rfl
  · intro i hi st
    have hi' := List.mem_range.1 hi
    obtain ⟨k, e1, e2⟩ := getEquidist_mode hl (v := i + 1) (by omega) (by omega) H hb hM hχ hc hB h1 hf
    have hk : k = K (i + 1) (a + b) := e2.unique (hK (i + 1) (a + b) (by omega))
    have hw : A.words (q * b) k = part E b (K (i + 1) (a + b)) := by rw [hl.words, hk]; rfl
    rw [e1]
    dsimp only
    rw [hw, if_neg]
    · simp only [decide_eq_true_eq]
    · rw [not_lt]
      exact part_le (H.flip L lsb) hχ hc hm (by omega) hb (hK (i + 1) (a + b) (by omega)).1

/-- The loop over the weight modes. -/
theorem wLoop_spec (hl : Layout A lsb L E q pos) (H : Blocks x (cyc T s0) T E) {rand : σ} {a : ℕ}
    (hM : ∀ b, 1 ≤ b → b ≤ E → Mode G.gen L E pos
      (G.gen.generate (G.setWeight (q * b : ℕ) (G.setStart (q * a : ℕ) rand))).1 a b x T s0)
    {χ : (ZMod 2)[X]} (hχ : χ.Monic) (hc : aeval T χ s0 = 0) (hB : χ.natDegree ≤ G.gen.bitSize)
    {calc1pos : W128 → Int} (h1 : IsCalc1pos calc1pos) {fuel : ℕ} (hf : 128 * (129 * χ.natDegree) + 129 ≤ fuel)
    {mexp : ℕ} (hm : χ.natDegree ≤ mexp) {bitLen : ℕ} (hbl : bitLen ≤ L) {K : ℕ → ℕ → ℕ}
    (hK : ∀ v j, 0 < v → IsGreatest {k | Eqd (fun k => (flip L lsb).comp (x k)) (cyc T s0) v j (E * k)} (K v j))
    (vw : ℕ → ℤ) :
    wLoop G A calc1pos fuel mexp bitLen (q * a) rand A.weights vw =
      .ok fun i => if i < bitLen then
        (List.range E).foldl (fun z j => max z (part E (j + 1) (K (i + 1) (a + (j + 1))))) (vw i) else vw i := by
  unfold wLoop
  rw [hl.weights, List.foldlM_map, foldlM_ok (g := fun (vw : ℕ → ℤ) j => fun i =>
    if i < bitLen then max (vw i) (part E (j + 1) (K (i + 1) (a + (j + 1)))) else vw i)]
  · congr 1
    funext i
    generalize List.range E = l
    induction l generalizing vw with
    | nil => rw [List.foldl_nil, List.foldl_nil, ite_self]
    | cons j l ih =>
      rw [List.foldl_cons, List.foldl_cons, ih]
      by_cases hi : i < bitLen
      · simp only [if_pos hi]
      · simp only [if_neg hi]
  · intro j hj st
    have hj' := List.mem_range.1 hj
    exact vLoop_spec hl H (by omega) (hM (j + 1) (by omega) (by omega)) hχ hc hB h1 hf hm hbl hK st

/-- The number for one start mode. -/
def best (E : ℕ) (K : ℕ → ℕ) (a : ℕ) : ℤ := (List.range E).foldl (fun z j => max z (part E (j + 1) (K (a + (j + 1))))) (-1)

theorem best_spec (hE : 0 < E) (K : ℕ → ℕ) (a : ℕ) :
    IsGreatest {z | ∃ b, 1 ≤ b ∧ b ≤ E ∧ z = part E b (K (a + b))} (best E K a) := by
  obtain ⟨m1, m2⟩ := fold_max (fun j => part E (j + 1) (K (a + (j + 1)))) (-1) E
  change ∀ j < E, part E (j + 1) (K (a + (j + 1))) ≤ best E K a at m1
  change best E K a = -1 ∨ ∃ j < E, best E K a = part E (j + 1) (K (a + (j + 1))) at m2
  constructor
  · rcases m2 with h | ⟨j, hj, h⟩
    · exfalso
      have h2 := m1 (E - 1) (by omega)
      rw [h] at h2
      unfold part at h2
      rw [show E - 1 + 1 = E by omega] at h2
      have : (0 : ℤ) ≤ (E : ℤ) * (K (a + E) : ℤ) := by positivity
      omega
    · exact ⟨j + 1, by omega, by omega, h⟩
  · rintro z ⟨b, h1, h2, rfl⟩
    have := m1 (b - 1) (by omega)
    rwa [show b - 1 + 1 = b by omega] at this

/-- The loop over the start modes. -/
theorem sLoop_spec (hl : Layout A lsb L E q pos) (H : Blocks x (cyc T s0) T E) {rand : σ}
    (hM : ∀ a < E, ∀ b, 1 ≤ b → b ≤ E → Mode G.gen L E pos
      (G.gen.generate (G.setWeight (q * b : ℕ) (G.setStart (q * a : ℕ) rand))).1 a b x T s0)
    {χ : (ZMod 2)[X]} (hχ : χ.Monic) (hc : aeval T χ s0 = 0) (hB : χ.natDegree ≤ G.gen.bitSize)
    {calc1pos : W128 → Int} (h1 : IsCalc1pos calc1pos) {fuel : ℕ} (hf : 128 * (129 * χ.natDegree) + 129 ≤ fuel)
    {mexp : ℕ} (hm : χ.natDegree ≤ mexp) {bitLen : ℕ} (hbl : bitLen ≤ L) {K : ℕ → ℕ → ℕ}
    (hK : ∀ v j, 0 < v → IsGreatest {k | Eqd (fun k => (flip L lsb).comp (x k)) (cyc T s0) v j (E * k)} (K v j))
    (veq : ℕ → ℤ) :
    sLoop G A calc1pos fuel mexp bitLen rand A.starts veq =
      .ok fun i => if i < bitLen then
        (List.range E).foldl (fun z a => min z (best E (K (i + 1)) a)) (veq i) else veq i := by
  unfold sLoop
  rw [hl.starts, List.foldlM_map, foldlM_ok (g := fun (vw : ℕ → ℤ) a => fun i =>
    if i < bitLen then min (vw i) (best E (K (i + 1)) a) else vw i)]
  · congr 1
    funext i
    generalize List.range E = l
    induction l generalizing veq with
    | nil => rw [List.foldl_nil, List.foldl_nil, ite_self]
    | cons j l ih =>
      rw [List.foldl_cons, List.foldl_cons, ih]
      by_cases hi : i < bitLen
      · simp only [if_pos hi]
      · simp only [if_neg hi]
  · intro a ha st
    have ha' := List.mem_range.1 ha
    rw [wLoop_spec hl H (hM a ha') hχ hc hB h1 hf hm hbl hK]
    dsimp only
    congr 1
    funext i
    have hcg : ∀ (n : ℕ) (st : ℕ → ℤ), n ≤ bitLen → (List.range n).foldl (fun (veq : ℕ → ℤ) i =>
        if veq i > (if i < bitLen then (List.range E).foldl (fun z j => max z (part E (j + 1) (K (i + 1) (a + (j + 1)))))
            (if i < bitLen then -1 else 0) else if i < bitLen then -1 else 0) then
          Function.update veq i (if i < bitLen then (List.range E).foldl
            (fun z j => max z (part E (j + 1) (K (i + 1) (a + (j + 1)))))
            (if i < bitLen then -1 else 0) else if i < bitLen then -1 else 0) else veq) st =
        (List.range n).foldl (fun (veq : ℕ → ℤ) i => if decide (veq i > best E (K (i + 1)) a) then
          Function.update veq i (best E (K (i + 1)) a) else veq) st := by
      intro n
      induction n with
      | zero => intro st _; rfl
      | succ n ih =>
        intro st hn
        rw [List.range_succ, List.foldl_append, List.foldl_append, ih st (by omega)]
        simp only [List.foldl_cons, List.foldl_nil, if_pos (show n < bitLen by omega), decide_eq_true_eq]
        rfl
    rw [hcg bitLen st le_rfl, fold_point (c := fun p q => decide (q > p)) (fun i => best E (K (i + 1)) a)]
    split_ifs with h2 h3
    · rw [min_eq_right (le_of_lt (by simpa using h3))]
    · rw [min_eq_left (by simpa using h3)]
    · rfl

/-- A greatest number of blocks exists. -/
theorem exists_K (hE : 0 < E) {χ : (ZMod 2)[X]} (hχ : χ.Monic) (hc : aeval T χ s0 = 0) :
    ∃ K : ℕ → ℕ → ℕ, ∀ v j, 0 < v → IsGreatest {k | Eqd y (cyc T s0) v j (E * k)} (K v j) := by
  classical
  refine ⟨fun v j => Nat.findGreatest (fun k => Eqd y (cyc T s0) v j (E * k)) χ.natDegree, fun v j h0 => ⟨?_, ?_⟩⟩
  · exact Nat.findGreatest_spec (P := fun k => Eqd y (cyc T s0) v j (E * k)) (Nat.zero_le _)
      (by rw [Nat.mul_zero]; exact eqd_zero)
  · intro k hk
    have := eqd_deg hχ hc hk
    apply Nat.le_findGreatest _ hk
    refine le_trans ?_ this
    calc k = 1 * k * 1 := by ring
      _ ≤ E * k * v := Nat.mul_le_mul (Nat.mul_le_mul_right _ hE) h0

end

end MTT.SIMD
