import Verif.Samples.XorShiftFixed
import Verif.Samples.XorShiftSearch
import Verif.GF2.Small
import Verif.MT.Orbit

/-!
# C83: the exact period of the fixed xorshift generators
-/

namespace MTT.XorShift

open Polynomial PIS Search

/-- The parameters of xorshift-1.cpp and xorshift-2.cpp in the notation of xorshift-4.cpp. -/
abbrev par1 : Par := (5, 1, 5, 14)

/-- The parameters of xorshift-5.cpp and xorshift128.c in the notation of xorshift-4.cpp. -/
abbrev par5 : Par := (7, 20, 11, 7)

theorem finS : Module.Finite (ZMod 2) S := inferInstance

/-- Common part of the contracts. -/
theorem linGen_fixed {G : GenOps St 32} (p : Par) (gen : St → St × BitVec 32) (hg : G.generate = gen)
    (hV : ∀ v s, G.generateV v s = ((gen s).1, (gen s).2 &&& ((~~~ (0 : BitVec 32)) <<< (32 - v))))
    (ha : G.add = add) (hz : G.setZero = setZero)
    (h1 : ∀ s, den (gen s).1 = T (parSt p) (den s)) (h2 : ∀ s, bits (gen s).2 = O (parSt p) (den s)) :
    LinGen G (fun _ => True) den (T (parSt p)) (O (parSt p)) where
  gen_inv _ _ := trivial
  gen_den s _ := by rw [hg]; exact h1 s
  gen_out s _ := by rw [hg]; exact h2 s
  genV_inv _ _ _ _ _ := trivial
  genV_den v s _ _ _ := by rw [hV]; exact h1 s
  genV_out v s _ hv _ := by
    have e : (~~~ (0 : BitVec 32)) = BitVec.allOnes 32 := by decide
    rw [hV, e, bits_and_mask _ hv, h2]
  add_inv _ _ _ _ := trivial
  add_den a b _ _ := by rw [ha]; simp only [add, den, Wd.of_xor, Prod.mk_add_mk]
  zero_inv _ _ := trivial
  zero_den s _ := by rw [hz]; rfl

/-- **C83.**  The class of xorshift-1.cpp and xorshift-2.cpp satisfies the contract of a linear generator. -/
theorem linGen1 : LinGen ops1 (fun _ => True) den (T (parSt par1)) (O (parSt par1)) :=
  linGen_fixed par1 generate1 rfl (fun _ _ => rfl) rfl rfl
    (fun s => by simp [generate1, den, T, parSt, g, h])
    (fun s => by simp [generate1, O, den, T, parSt, g, h])

/-- **C83.**  The class of xorshift-5.cpp satisfies the contract of a linear generator. -/
theorem linGen5 : LinGen ops5 (fun _ => True) den (T (parSt par5)) (O (parSt par5)) :=
  linGen_fixed par5 generate5 rfl (fun _ _ => rfl) rfl rfl
    (fun s => by simp [generate5, den, T, parSt, g, h])
    (fun s => by simp [generate5, O, den, T, parSt, g, h])

/-! ### The two characteristic polynomials -/

theorem exists_prim (p : Par) (hp : p = par1 ∨ p = par5) :
    ∃ χ, Primitive2 χ 128 ∧ ∀ s : S, aeval (T (parSt p)) χ s = 0 := by
  rcases hp with rfl | rfl
  · exact ⟨_, GF2.prim_x1, GF2.ann_x1⟩
  · exact ⟨_, GF2.prim_x5, GF2.ann_x5⟩

/-- The last word of the state after a step. -/
theorem O_ne_zero (p : Par) (hp : p = par1 ∨ p = par5) : O (parSt p) ≠ 0 := by
  intro h0
  have h1 := LinearMap.congr_fun h0 ((0, 0, 0, Wd.of 0x80000000) : S)
  have h2 := congrFun h1 0
  rcases hp with rfl | rfl
  · exact absurd h2 (by decide)
  · exact absurd h2 (by decide)

theorem iter_den {gen : St → St × BitVec 32} {p : Par} (h1 : ∀ s, den (gen s).1 = T (parSt p) (den s)) (s : St)
    (k : ℕ) : den ((fun t => (gen t).1)^[k] s) = ((T (parSt p)) ^ k) (den s) := by
  induction k with
  | zero => rfl
  | succ k ih => rw [Function.iterate_succ_apply', h1, ih, pow_succ', Module.End.mul_apply]

theorem pow_zero_of {S : Type} [AddCommGroup S] [Module (ZMod 2) S] {T : S →ₗ[ZMod 2] S} {s : S} {i n : ℕ}
    (h : (T ^ i) s = 0) (hi : i ≤ n) : (T ^ n) s = 0 := by
  rw [← Nat.sub_add_cancel hi, pow_add, Module.End.mul_apply, h, map_zero]

/-- The minimal polynomial of a sequence that is not zero and satisfies a primitive recurrence. -/
theorem primitive_minpoly {χ q : (ZMod 2)[X]} {n : ℕ} (hn : 1 ≤ n) (hχ : Primitive2 χ n) {a : BitSeq} (ha : a ≠ 0)
    (h : Ann χ a) (hq : IsSeqMinpoly q a) : Primitive2 q n := by
  rcases (Primitive2.irreducible hn hχ).dvd_iff.1 (hq.2.2 _ h) with h1 | h1
  · exfalso
    rw [isUnit_iff_one] at h1
    have h2 := hq.2.1
    rw [h1, ann_iff, map_one, Module.End.one_apply] at h2
    exact ha h2
  · rw [← eq_of_associated h1]; exact hχ

/-- Everything the theorems below say, for one generator. -/
structure Full (gen : St → St × BitVec 32) (s : St) : Prop where
  /-- The stream of returned words has least period `2^128-1`, from every time on. -/
  period : HasPeriod (stream gen s) (2 ^ 128 - 1)
  /-- Within one period every 4-tuple of words that is not zero is returned exactly once, the zero tuple never. -/
  tuples : ∀ v : ℕ → BitVec 32, occurrences (stream gen s) (2 ^ 128 - 1) 4 v =
    if v 0 = 0 ∧ v 1 = 0 ∧ v 2 = 0 ∧ v 3 = 0 then 0 else 1
  /-- Every state that is not zero is reached. -/
  states : ∀ x y z w : BitVec 32, ¬ (x = 0 ∧ y = 0 ∧ z = 0 ∧ w = 0) →
    ∃ k, k < 2 ^ 128 - 1 ∧ ((fun t => (gen t).1)^[k] s) = { s with x := x, y := y, z := z, w := w }

theorem full_of {gen : St → St × BitVec 32} {p : Par} (hp : p = par1 ∨ p = par5)
    (h1 : ∀ s, den (gen s).1 = T (parSt p) (den s)) (h2 : ∀ s, bits (gen s).2 = O (parSt p) (den s))
    (h3 : ∀ s, (gen s).1 = { s with x := s.y, y := s.z, z := s.w, w := (gen s).2 })
    {s : St} (hs : isZero s = false) : Full gen s := by
  obtain ⟨χ, hχ, hT⟩ := exists_prim p hp
  have hden : den s ≠ 0 := by rw [Ne, ← isZero_iff, hs]; simp
  have hst : ∀ k, stream gen s k = ((fun t => (gen t).1)^[k + 1] s).w := by
    intro k
    rw [Function.iterate_succ_apply', h3]
    rfl
  have hz : ∀ k, ((fun t => (gen t).1)^[k + 1] s).z = ((fun t => (gen t).1)^[k] s).w := by
    intro k; rw [Function.iterate_succ_apply', h3]
  have hy : ∀ k, ((fun t => (gen t).1)^[k + 1] s).y = ((fun t => (gen t).1)^[k] s).z := by
    intro k; rw [Function.iterate_succ_apply', h3]
  have hx : ∀ k, ((fun t => (gen t).1)^[k + 1] s).x = ((fun t => (gen t).1)^[k] s).y := by
    intro k; rw [Function.iterate_succ_apply', h3]
  constructor
  · have := lin_period (by omega) finrank_S hχ hT (O_ne_zero p hp) hden
    intro K N
    rw [← this K N]
    refine forall_congr' fun k => imp_congr_right fun _ => ?_
    dsimp only
    rw [← iter_den h1, ← iter_den h1, ← h2, ← h2]
    exact ⟨fun h => congrArg bits h, bits_inj⟩
  · intro v
    have hne : ((T (parSt p)) ^ 4) (den s) ≠ 0 := by
      intro h0
      have h5 := (period_of_primitive (by omega) hχ (hT _) hden (2 ^ 128 - 1)).2 dvd_rfl
      exact hden (h5.symm.trans (pow_zero_of h0 (by norm_num)))
    have e : occurrences (stream gen s) (2 ^ 128 - 1) 4 v =
        Nat.card {y : S // y ≠ 0 ∧ y = (Wd.of (v 0), Wd.of (v 1), Wd.of (v 2), Wd.of (v 3))} := by
      rw [← orbit_count (by omega) finrank_S hχ hT hne]
      refine Nat.card_congr (Equiv.subtypeEquivRight fun k => and_congr_right fun _ => ?_)
      rw [← Module.End.mul_apply, ← pow_add, ← iter_den h1]
      have e0 : ((fun t => (gen t).1)^[k + 4] s).x = stream gen s (k + 0) := by
        rw [hst, hx, hy, hz]
      have e1 : ((fun t => (gen t).1)^[k + 4] s).y = stream gen s (k + 1) := by
        rw [hst, hy, hz]
      have e2 : ((fun t => (gen t).1)^[k + 4] s).z = stream gen s (k + 2) := by
        rw [hst, hz]
      have e3 : ((fun t => (gen t).1)^[k + 4] s).w = stream gen s (k + 3) := by
        rw [hst]
      unfold den
      rw [e0, e1, e2, e3]
      constructor
      · intro h
        rw [h 0 (by omega), h 1 (by omega), h 2 (by omega), h 3 (by omega)]
      · intro h j hj
        simp only [Prod.mk.injEq] at h
        obtain ⟨a0, a1, a2, a3⟩ := h
        have : j = 0 ∨ j = 1 ∨ j = 2 ∨ j = 3 := by omega
        rcases this with rfl | rfl | rfl | rfl
        · exact congrArg Wd.val a0
        · exact congrArg Wd.val a1
        · exact congrArg Wd.val a2
        · exact congrArg Wd.val a3
    rw [e]
    split_ifs with hv
    · obtain ⟨v0, v1, v2, v3⟩ := hv
      rw [v0, v1, v2, v3]
      have : IsEmpty {y : S // y ≠ 0 ∧ y = (Wd.of (0 : BitVec 32), Wd.of (0 : BitVec 32), Wd.of (0 : BitVec 32), Wd.of (0 : BitVec 32))} :=
        ⟨fun y => y.2.1 y.2.2⟩
      exact Nat.card_of_isEmpty
    · rw [Nat.card_eq_one_iff_unique]
      refine ⟨⟨fun a b => Subtype.ext (a.2.2.trans b.2.2.symm)⟩, ⟨⟨_, ?_, rfl⟩⟩⟩
      intro h0
      simp only [Prod.mk_eq_zero] at h0
      exact hv ⟨congrArg Wd.val h0.1, congrArg Wd.val h0.2.1, congrArg Wd.val h0.2.2.1, congrArg Wd.val h0.2.2.2⟩
  · intro x y z w hne
    have hne' : den { s with x := x, y := y, z := z, w := w } ≠ 0 := by
      intro h0
      simp only [den, Prod.mk_eq_zero] at h0
      exact hne ⟨congrArg Wd.val h0.1, congrArg Wd.val h0.2.1, congrArg Wd.val h0.2.2.1, congrArg Wd.val h0.2.2.2⟩
    obtain ⟨k, hk, e⟩ := orbit_surj (by omega) finrank_S hχ hT hden hne'
    refine ⟨k, hk, ?_⟩
    rw [← iter_den h1] at e
    have hpar : ∀ k, SamePar s ((fun t => (gen t).1)^[k] s) := by
      intro k
      induction k with
      | zero => exact ⟨rfl, rfl, rfl, rfl⟩
      | succ k ih => rw [Function.iterate_succ_apply', h3]; exact ih
    obtain ⟨p1, p2, p3, p4⟩ := hpar k
    simp only [den, Prod.mk.injEq] at e
    obtain ⟨e1, e2, e3, e4⟩ := e
    have f1 := congrArg Wd.val e1
    have f2 := congrArg Wd.val e2
    have f3 := congrArg Wd.val e3
    have f4 := congrArg Wd.val e4
    generalize (fun t => (gen t).1)^[k] s = t at *
    cases t
    simp only [Wd.val_of] at f1 f2 f3 f4
    simp only at p1 p2 p3 p4
    rw [p1, p2, p3, p4, f1, f2, f3, f4]

/-- **C83.**  The generator of xorshift-1.cpp and xorshift-2.cpp, from every state that is not zero. -/
theorem generate1_full {s : St} (hs : isZero s = false) : Full generate1 s :=
  full_of (p := par1) (Or.inl rfl) (fun s => linGen1.gen_den s trivial) (fun s => linGen1.gen_out s trivial)
    (fun _ => rfl) hs

/-- **C83.**  The generator of xorshift-5.cpp, from every state that is not zero. -/
theorem generate5_full {s : St} (hs : isZero s = false) : Full generate5 s :=
  full_of (p := par5) (Or.inr rfl) (fun s => linGen5.gen_den s trivial) (fun s => linGen5.gen_out s trivial)
    (fun _ => rfl) hs

/-- **C83.**  In particular from every object the constructors make, for every seed. -/
theorem constructed_full (v : BitVec 32) (junk : St) :
    Full generate1 (seed v junk) ∧ Full generate5 (seed v junk) :=
  ⟨generate1_full (seed_not_zero v junk), generate5_full (seed_not_zero v junk)⟩

/-! ### xorshift128.c -/

/-- The struct of xorshift128.c with unused parameter fields. -/
def toSt (s : X128) : St := ⟨0, 0, 0, 0, s.x, s.y, s.z, s.w⟩

theorem generate128_eq (s : X128) : (toSt (generate128 s).1, (generate128 s).2) = generate5 (toSt s) := rfl

theorem stream128 (s : X128) : stream generate128 s = stream generate5 (toSt s) := by
  have key : ∀ k, toSt ((fun t => (generate128 t).1)^[k] s) = (fun t => (generate5 t).1)^[k] (toSt s) := by
    intro k
    induction k with
    | zero => rfl
    | succ k ih => rw [Function.iterate_succ_apply', Function.iterate_succ_apply', ← ih]; rfl
  funext k
  show (generate128 _).2 = (generate5 _).2
  rw [← key]; rfl

/-- **C83.**  `xorshift128_generate` returns, from every state that is not zero, a stream of least period
`2^128-1`, in which every 4-tuple of words that is not zero occurs exactly once per period. -/
theorem generate128_full {s : X128} (hs : ¬ (s.x = 0 ∧ s.y = 0 ∧ s.z = 0 ∧ s.w = 0)) :
    HasPeriod (stream generate128 s) (2 ^ 128 - 1) ∧
    ∀ v : ℕ → BitVec 32, occurrences (stream generate128 s) (2 ^ 128 - 1) 4 v =
      if v 0 = 0 ∧ v 1 = 0 ∧ v 2 = 0 ∧ v 3 = 0 then 0 else 1 := by
  have h0 : isZero (toSt s) = false := by
    rw [← Bool.not_eq_true]
    intro h
    apply hs
    simpa [isZero, toSt, and_assoc] using h
  have := generate5_full h0
  rw [stream128]
  exact ⟨this.period, this.tuples⟩

/-- **C83.**  In particular after `xorshift128_init` with any seed, and after `xorshift128_init_by_array` with
any key on any struct. -/
theorem init128_full (junk : Fin 4 → BitVec 32) (sd : BitVec 32) (key : List (BitVec 32)) (s : X128) :
    HasPeriod (stream generate128 (init junk sd)) (2 ^ 128 - 1) ∧
    HasPeriod (stream generate128 (initByArray key s)) (2 ^ 128 - 1) :=
  ⟨(generate128_full (init_ne_zero junk sd)).1, (generate128_full (initByArray_ne_zero_partial key s)).1⟩

/-! ### The programs -/

theorem maximal_fixed (p : Par) (hp : p = par1 ∨ p = par5) : Maximal p := by
  obtain ⟨χ, hχ, hT⟩ := exists_prim p hp
  intro s h1 h2 k
  have hden : den s ≠ 0 := by rw [Ne, ← isZero_iff, h2]; simp
  have hst := (stateAt_spec (family.lin p) (g := s) ⟨trivial, h1⟩ k).2
  have hst' : den (stateAt ops s k) = (T (parSt p) ^ k) (den s) := hst
  rw [hst']
  exact period_of_primitive (by omega) hχ (hT _) hden k

/-- **C83.**  The search program xorshift-4.cpp finds both published parameter sets: they are in the list that
it prints (`main_correct`). -/
theorem published_found : par1 ∈ expected (2 ^ 18) ∧ par5 ∈ expected (2 ^ 18) := by
  rw [(expected_complete par1).2, (expected_complete par5).2]
  exact ⟨⟨maximal_fixed _ (Or.inl rfl), by decide, by decide, by decide, by decide⟩,
    ⟨maximal_fixed _ (Or.inr rfl), by decide, by decide, by decide, by decide⟩⟩

/-- **C83.**  xorshift-1.cpp prints `degree = 128` and `period is 2^128 -1.`, whatever the object held before. -/
theorem main1_prints {mps : MPS} (hm : MinPolySeqSpec mps) (junk : St) : main1 mps junk = some (128, true) := by
  obtain ⟨q, e1, e2⟩ := minpoly_dim hm linGen1 (s := seed 1 junk) trivial (pos := 0) (by omega) finrank_S.le
  have hne : bitAt ops1 (seed 1 junk) 0 ≠ 0 := by
    intro h0
    have := congrFun h0 1
    exact absurd this (by
      show ¬ ((if ((generate1 (generate1 (seed 1 junk)).1).2).getLsbD 0 then (1 : ZMod 2) else 0) = 0)
      have : (generate1 (generate1 (seed 1 junk)).1).2 = 0xc0000011 := by
        simp only [generate1, seed]; decide
      rw [this]; decide)
  have hprim : Primitive2 q 128 := by
    refine primitive_minpoly (by omega) GF2.prim_x1 hne ?_ e2
    rw [bitAt_eq linGen1 trivial (by omega)]
    exact ann_outSeq _ _ (GF2.ann_x1 _)
  obtain ⟨L, b, -, -, h3, h4⟩ := Period.tables_primitive (128, Period.factors128) List.mem_cons_self q
  unfold main1
  have e1' : minpoly mps ops1 0 0 (seed 1 junk) = some (stateAt ops1 (seed 1 junk) (2 * ops1.bitSize), q) := e1
  rw [e1']
  dsimp only
  have h4' : Period.isPrimeStr q 128 Period.factors128 = some b := h4
  rw [h4', h3.2 hprim, Option.map_some, (Period.deg_eq_iff (by omega)).2 hprim.1]
  rfl

/-- Specification of what xorshift-2.cpp and xorshift-5.cpp print for the parameters `p`: for `v = 1..32` the
greatest `k` such that the `k`-tuples of the `v` most significant bits are equidistributed over the whole state
space, and the sum of the differences to `128 / v`. -/
def Report (p : Par) (k : ℕ → ℕ) (delta : ℤ) : Prop :=
  (∀ v, 1 ≤ v → v ≤ 32 → IsGreatest {k | Equidist (T (parSt p)) (O (parSt p)) ⊤ v k} (k (v - 1))) ∧
    delta = ∑ v ∈ Finset.Icc 1 32, ((128 / v : ℕ) - (k (v - 1) : ℤ))

theorem report_of {G : GenOps St 32} (hb : G.bitSize = 128) {p : Par} (hp : p = par1 ∨ p = par5)
    (hG : LinGen G (fun _ => True) den (T (parSt p)) (O (parSt p))) (junk : St) (veq0 : ℕ → ℕ) :
    ∃ r, getAllEquidist G Util.calc1posWrap32 (seed 1 junk) 32 128 (32 * (33 * 128) + 33) veq0 = .ok r ∧
      Report p r.veq r.sum := by
  obtain ⟨hm, h0, hd⟩ := charpoly_hyps (T (parSt p)) (den (seed 1 junk))
  rw [finrank_S] at hd
  obtain ⟨r, e1, e2, _, e4⟩ := getAllEquidist_correct hG (g := seed 1 junk) trivial hm h0
    (by rw [hd, hb]; decide) (stateBitSize := 128) (by omega) Util.isCalc1pos_32 (bitLen := 32) (by omega)
    (by omega) (fuel := 32 * (33 * 128) + 33) (by rw [hd]) veq0
  obtain ⟨χ, hχ, hT⟩ := exists_prim p hp
  have hden : den (seed 1 junk) ≠ 0 := by rw [Ne, ← isZero_iff, seed_not_zero]; simp
  have hc : cyc (T (parSt p)) (den (seed 1 junk)) = ⊤ := cyc_top (n := 128) (by omega) finrank_S hden
    (fun k => period_of_primitive (by omega) hχ (hT _) hden k)
  refine ⟨r, e1, fun v h1 h2 => ?_, e4⟩
  have := e2 v h1 h2
  rwa [hc] at this

/-- **C83.**  xorshift-2.cpp:61-74 and xorshift-5.cpp:62-75: the calculation succeeds, and the printed
dimensions and the printed delta are exact over the whole state space. -/
theorem main25_prints (junk : St) (veq0 : ℕ → ℕ) :
    (∃ r, getAllEquidist ops1 Util.calc1posWrap32 (seed 1 junk) 32 128 (32 * (33 * 128) + 33) veq0 = .ok r ∧
      Report par1 r.veq r.sum) ∧
    (∃ r, getAllEquidist ops5 Util.calc1posWrap32 (seed 1 junk) 32 128 (32 * (33 * 128) + 33) veq0 = .ok r ∧
      Report par5 r.veq r.sum) :=
  ⟨report_of rfl (Or.inl rfl) linGen1 junk veq0, report_of rfl (Or.inr rfl) linGen5 junk veq0⟩

/-! ### Non-vacuity -/

/-- A state that is not zero, its successor, and the stream of a seeded object. -/
example : isZero ⟨0, 0, 0, 0, 1, 0, 0, 0⟩ = false ∧
    (generate1 ⟨0, 0, 0, 0, 1, 0, 0, 0⟩).2 = 33 ∧ (generate5 ⟨0, 0, 0, 0, 1, 0, 0, 0⟩).2 = 2065 := by decide

example : (stream generate1 (seed 1 ⟨0, 0, 0, 0, 0, 0, 0, 0⟩) 1) = 0xc0000011 := by decide

example : ¬ ((init (fun _ => 0) 1).x = 0 ∧ (init (fun _ => 0) 1).y = 0 ∧ (init (fun _ => 0) 1).z = 0 ∧
    (init (fun _ => 0) 1).w = 0) ∧ stream generate128 ⟨1, 2, 3, 4⟩ 0 = 0x400815 := by decide

/-- The zero state is the exception: its stream is constant. -/
example : isZero ⟨0, 0, 0, 0, 0, 0, 0, 0⟩ = true ∧ (generate1 ⟨0, 0, 0, 0, 0, 0, 0, 0⟩) = (⟨0, 0, 0, 0, 0, 0, 0, 0⟩, 0) := by
  decide

end MTT.XorShift
