import Verif.Samples.XorShift3
import Verif.Samples.XorShiftSearch
import Verif.Samples.XorShiftFixedProps
import Verif.PIS.Bounds

/-!
# C84: the exhaustive search of samples/XORSHIFT/xorshift-3.cpp
-/

namespace MTT.XorShift3

open Polynomial PIS Search
open XorShift (S T O den finrank_S IsRem next_isRem_zero next_isRem_succ)

/-- The same generator in the notation of xorshift-4.cpp: pattern 5 with `c, a, b`. -/
def parSt (p : Par) : St := ⟨5, p.2.2, p.1, p.2.1, 0, 0, 0, 0⟩

theorem gen_den (s : St) : den (generate s).1 = T (parSt (par s)) (den s) := by
  simp [generate, den, T, parSt, par, XorShift.g, XorShift.h]

theorem gen_out (s : St) : bits (generate s).2 = O (parSt (par s)) (den s) := by
  simp [generate, O, den, T, parSt, par, XorShift.g, XorShift.h]

/-- **C84.**  For all shift amounts the class satisfies the contract of a linear generator. -/
theorem linGen (p : Par) : LinGen ops (fun s => True ∧ par s = p) den (T (parSt p)) (O (parSt p)) where
  gen_inv s hs := hs
  gen_den s hs := by rw [← hs.2]; exact gen_den s
  gen_out s hs := by rw [← hs.2]; exact gen_out s
  genV_inv _ _ _ _ hs := hs
  genV_den v s _ _ hs := by rw [← hs.2]; exact gen_den s
  genV_out v s _ hv hs := by
    have e : (~~~ (0 : BitVec 32)) = BitVec.allOnes 32 := by decide
    simp only [ops, generateV, e]
    rw [bits_and_mask _ hv, gen_out, hs.2]
  add_inv _ _ ha _ := ha
  add_den a b _ _ := by simp only [ops, add, den, Wd.of_xor, Prod.mk_add_mk]
  zero_inv _ hs := hs
  zero_den s _ := rfl

theorem isZero_iff (s : St) : isZero s = true ↔ den s = 0 := XorShift.isZero_iff s

theorem seed_not_zero (v : BitVec 32) (s : St) : isZero (seed v s) = false := XorShift.seed_not_zero v s

/-- For every object the calculation of xorshift-3.cpp:110-112 succeeds and is exact. -/
theorem equidist (s : St) (veq0 : ℕ → ℕ) :
    ∃ r, getAllEquidist ops Util.calc1posWrap32 s 32 128 (32 * (33 * 128) + 33) veq0 = .ok r ∧
      (∀ v, 1 ≤ v → v ≤ 32 → IsGreatest {k | Equidist (T (parSt (par s))) (O (parSt (par s)))
        (cyc (T (parSt (par s))) (den s)) v k} (r.veq (v - 1))) ∧
      r.sum = ∑ v ∈ Finset.Icc 1 32, ((128 / v : ℕ) - (r.veq (v - 1) : ℤ)) := by
  obtain ⟨hm, h0, hd⟩ := charpoly_hyps (T (parSt (par s))) (den s)
  rw [finrank_S] at hd
  obtain ⟨r, e1, e2, _, e4⟩ := getAllEquidist_correct (linGen (par s)) (g := s) ⟨trivial, rfl⟩ hm h0
    (by rw [hd]; decide) (stateBitSize := 128) (by omega) Util.isCalc1pos_32 (bitLen := 32) (by omega)
    (by omega) (fuel := 32 * (33 * 128) + 33) (by rw [hd]) veq0
  exact ⟨r, e1, e2, e4⟩

/-- **C33 for xorshift-3.cpp.**  The class satisfies the contract of the search. -/
theorem family : Family searchOps (fun _ => True) par den (fun p => T (parSt p)) (fun p => O (parSt p)) where
  lin p := linGen p
  dim := finrank_S
  pos := by show 1 ≤ 128; omega
  wpos := by omega
  setUp_inv := fun _ _ _ _ _ _ => trivial
  seed_inv := fun _ _ => trivial
  seed_par := fun _ _ => rfl

/-- Specification of what the program looks for: with these parameters every non-zero state has period
`2^128-1`. -/
def Maximal (p : Par) : Prop :=
  ∀ s : St, par s = p → isZero s = false → ∀ k, den (stateAt ops s k) = den s ↔ 2 ^ 128 - 1 ∣ k

theorem maximal_iff (p : Par) :
    Maximal p ↔ MaxPeriod searchOps (fun _ => True) par den p 128 := by
  unfold Maximal MaxPeriod
  refine forall_congr' fun s => ⟨fun h _ hp h0 => h hp ?_, fun h hp h0 => h trivial hp ?_⟩
  · rw [← Bool.not_eq_true, isZero_iff]; exact h0
  · rw [Ne, ← isZero_iff, h0]; simp

theorem orbit_of_maximal {p : Par} (h : Maximal p) {s : St} (hp : par s = p) (hs : isZero s = false)
    {y : S} (hy : y ≠ 0) : ∃ k, 1 ≤ k ∧ den (stateAt ops s k) = y := by
  have hden : den s ≠ 0 := by rw [Ne, ← isZero_iff, hs]; simp
  have hst := fun k => (stateAt_spec (family.lin p) (g := s) ⟨trivial, hp⟩ k).2
  obtain ⟨k, h1, h2⟩ := orbit_all (T := T (parSt p)) (n := 128) (by omega) finrank_S hden (fun k => by
    have := h s hp hs k
    rw [← this]
    exact (hst k ▸ Iff.rfl)) hy
  exact ⟨k, h1, (hst k).trans h2⟩

/-- The second condition of `tryOnce_correct` (the lowest output bit is not constantly zero) follows from the
maximal period. -/
theorem bit_of_maximal {p : Par} (h : Maximal p) {s : St} (hp : par s = p) (hs : isZero s = false) :
    ∃ i, (outAt ops s i).getLsbD 0 = true := by
  obtain ⟨k, h1, h2⟩ := orbit_of_maximal h hp hs (y := (0, 0, 0, Wd.of 1)) (by
    intro h0
    have : (1 : BitVec 32) = 0 := congrArg (fun y : S => y.2.2.2.val) h0
    exact absurd this (by decide))
  obtain ⟨j, rfl⟩ : ∃ j, k = j + 1 := ⟨k - 1, by omega⟩
  refine ⟨j, ?_⟩
  have h3 : (stateAt ops s (j + 1)).w = 1 := congrArg (fun y : S => y.2.2.2.val) h2
  have h4 : outAt ops s j = (stateAt ops s (j + 1)).w := rfl
  rw [h4, h3]; rfl

theorem stateAt_ne_zero {p : Par} (h : Maximal p) {s : St} (hp : par s = p) (hs : isZero s = false)
    {k : ℕ} (hk : k ≤ 2 ^ 128 - 1) : isZero (stateAt ops s k) = false := by
  by_contra h0
  rw [Bool.not_eq_false, isZero_iff] at h0
  have h1 := (h s hp hs (2 ^ 128 - 1)).2 (dvd_refl _)
  have hst := fun k => (stateAt_spec (family.lin p) (g := s) ⟨trivial, hp⟩ k).2
  have h2 : ∀ k, den (stateAt ops s k) = ((T (parSt p)) ^ k) (den s) := hst
  rw [h2] at h0 h1
  rw [← Nat.sub_add_cancel hk, pow_add, Module.End.mul_apply, h0, map_zero] at h1
  rw [eq_comm, ← isZero_iff, hs] at h1
  cases h1

/-- Parameters of the word `r` (fields of xorshift-3.cpp:74-81). -/
def wordPar (r : ℕ) : Par := (r % 32, r / 2 ^ 5 % 32, r / 2 ^ 10 % 32)

theorem par_setUp (m : ℕ) (hm : m < 2 ^ 32) (s : St) :
    par (setUpParam (BitVec.ofNat 32 m) s) = wordPar m := by
  have e5 : ∀ n : ℕ, n &&& 31 = n % 32 := fun n => Nat.and_two_pow_sub_one_eq_mod n 5
  have hmod : m % 4294967296 = m := Nat.mod_eq_of_lt hm
  simp only [par, wordPar, setUpParam, BitVec.toNat_and, BitVec.toNat_ushiftRight, BitVec.reduceToNat, e5,
    Nat.shiftRight_eq_div_pow, BitVec.toNat_ofNat, Nat.reducePow, hmod,
    Nat.div_div_eq_div_mul]

open Classical in
/-- Specification of the output: the parameters of the words `m-1, …, 0` that are maximal, in this order. -/
noncomputable def expected (m : ℕ) : List Par :=
  ((List.range m).reverse.map wordPar).filter fun p => decide (Maximal p)

theorem expected_pos {m : ℕ} (h : Maximal (wordPar m)) : expected (m + 1) = wordPar m :: expected m := by
  unfold expected
  rw [List.range_succ, List.reverse_append, List.map_append, List.filter_append]
  simp [h]

theorem expected_neg {m : ℕ} (h : ¬ Maximal (wordPar m)) : expected (m + 1) = expected m := by
  unfold expected
  rw [List.range_succ, List.reverse_append, List.map_append, List.filter_append]
  simp [h]

variable {mps : MPS} {prim : ℕ → (ZMod 2)[X] → Option Bool}

theorem tryOnce_rem (hm : MinPolySeqSpec mps) (hprim : PrimOK prim 128) (st : Search.St St (Seq.St 32))
    {m : ℕ} (hrem : IsRem st.src (m + 1)) :
    ∃ b st', tryOnce mps searchOps prim st = .ret b st' ∧ IsRem st'.src m ∧
      par st'.rand = wordPar m ∧ (b = true ↔ Maximal (wordPar m)) ∧
      (b = true → isZero st'.rand = false) := by
  obtain ⟨src', e1, e2⟩ := next_isRem_succ hrem
  have hlt : m < 2 ^ 32 := by have := (hrem.2.2 (by omega)).2.2; omega
  have hsu : searchOps.setUp st.rand st.src =
      some (setUpParam (BitVec.ofNat 32 m) st.rand, src') := by
    show (match Seq.getUint32 st.src with
      | (src', some r) => some (setUpParam r st.rand, src') | (_, none) => none) = _
    rw [e1]
  rcases tryOnce_correct hm family hprim st trivial with ⟨h1, _⟩ |
    ⟨r, src, st', b, h1, h2, -, h4, h5, -, h6, h7, -⟩
  · rw [hsu] at h1; cases h1
  · rw [hsu] at h1
    injection h1 with h1
    injection h1 with h1 h1'
    subst h1 h1'
    have hp := par_setUp m hlt st.rand
    have hiff : b = true ↔ Maximal (wordPar m) := by
      rw [h7, hp, maximal_iff]
      refine ⟨fun h => h.1, fun h => ⟨h, ?_⟩⟩
      exact bit_of_maximal ((maximal_iff _).2 h) (s := seed 1 (setUpParam (BitVec.ofNat 32 m) st.rand)) hp
        (seed_not_zero _ _)
    refine ⟨b, st', h2, by rw [h4]; exact e2, by rw [h6, hp], hiff, fun hb => ?_⟩
    rw [h5]
    exact stateAt_ne_zero (hiff.1 hb) (s := seed 1 (setUpParam (BitVec.ofNat 32 m) st.rand)) hp
      (seed_not_zero _ _) (k := 2 * searchOps.gen.bitSize) (by show 256 ≤ _; norm_num)

theorem start_rem (hm : MinPolySeqSpec mps) (hprim : PrimOK prim 128) (n : ℕ)
    (st : Search.St St (Seq.St 32)) {m : ℕ} (hrem : IsRem st.src m) :
    (∃ m' st', start mps searchOps prim n st = .ret true st' ∧ IsRem st'.src m' ∧ m' < m ∧
      par st'.rand = wordPar m' ∧ Maximal (wordPar m') ∧ isZero st'.rand = false ∧ expected m = wordPar m' :: expected m') ∨
    (∃ m' st', start mps searchOps prim n st = .ret false st' ∧ IsRem st'.src m' ∧ m' + n = m ∧
      expected m = expected m') ∨
    (∃ st', start mps searchOps prim n st = .threw st' ∧ expected m = []) := by
  induction n generalizing st m with
  | zero => right; left; exact ⟨m, st, rfl, hrem, rfl, rfl⟩
  | succ n ih =>
    cases m with
    | zero =>
      right; right
      have hsu : searchOps.setUp st.rand st.src = none := by
        show (match Seq.getUint32 st.src with
          | (src', some r) => some (setUpParam r st.rand, src') | (_, none) => none) = none
        rw [next_isRem_zero hrem]
      refine ⟨st, ?_, rfl⟩
      simp only [start, tryOnce, hsu]
    | succ m =>
      obtain ⟨b, st1, h1, h2, h3, h4, h5⟩ := tryOnce_rem hm hprim st hrem
      cases b with
      | true =>
        left
        have hM := h4.1 rfl
        refine ⟨m, st1, by simp only [start, h1], h2, by omega, h3, hM, h5 rfl, expected_pos hM⟩
      | false =>
        have hM : ¬ Maximal (wordPar m) := fun h => absurd (h4.2 h) (by simp)
        have hstart : start mps searchOps prim (n + 1) st = start mps searchOps prim n st1 := by
          simp only [start, h1]
        rw [hstart, expected_neg hM]
        rcases ih st1 h2 with ⟨m', st', g1, g2, g3, g4⟩ | ⟨m', st', g1, g2, g3, g4⟩ | ⟨st', g1, g2⟩
        · left; exact ⟨m', st', g1, g2, by omega, g4⟩
        · right; left; exact ⟨m', st', g1, g2, by omega, g4⟩
        · right; right; exact ⟨st', g1, g2⟩

/-- Specification of delta: the sum of the dimension defects of the generator with parameters `p` over its
whole state space. -/
def IsDelta (p : Par) (d : ℤ) : Prop :=
  ∃ k : ℕ → ℕ, (∀ v, 1 ≤ v → v ≤ 32 →
      IsGreatest {k | Equidist (T (parSt p)) (O (parSt p)) ⊤ v k} (k v)) ∧
    d = ∑ v ∈ Finset.Icc 1 32, ((128 / v : ℕ) - (k v : ℤ))

theorem delta_correct {s : St} (hM : Maximal (par s)) (hs : isZero s = false) (junkVeq : ℕ → ℕ) :
    ∃ r, getAllEquidist ops Util.calc1posWrap32 s 32 128 (32 * (33 * 128) + 33) junkVeq = .ok r ∧
      IsDelta (par s) r.sum := by
  obtain ⟨r, e1, e2, e3⟩ := equidist s junkVeq
  have hden : den s ≠ 0 := by rw [Ne, ← isZero_iff, hs]; simp
  have hst := fun k => (stateAt_spec (linGen (par s)) (g := s) ⟨trivial, rfl⟩ k).2
  have hc : cyc (T (parSt (par s))) (den s) = ⊤ := cyc_top (n := 128) (by omega) finrank_S hden (fun k => by
    rw [← hM s rfl hs k, hst])
  refine ⟨r, e1, fun v => r.veq (v - 1), fun v h1 h2 => ?_, e3⟩
  have := e2 v h1 h2
  rw [hc] at this
  exact this

/-- **C84.**  The program started on a parameter source that will deliver the words `m-1, …, 0`: for every
positive number of tries per call of `start`, it ends with the exception of the parameter source, and prints
exactly the parameter sets that give every non-zero state the maximal period, each once, in the order of the
parameter words, with the exact delta. -/
theorem main_correct_from (hm : MinPolySeqSpec mps) (hprim : PrimOK prim 128) {tries : ℕ} (ht : 1 ≤ tries)
    (junkVeq : ℕ → ℕ) (fuel m : ℕ) (seq : Seq.St 32) (hrem : IsRem seq m)
    (hfuel : m < fuel) :
    ∃ L, mainLoop mps prim tries junkVeq fuel seq = some L ∧ L.map Prod.fst = expected m ∧
      ∀ q ∈ L, IsDelta q.1 q.2 := by
  induction fuel generalizing seq m with
  | zero => omega
  | succ fuel ih =>
    unfold mainLoop
    rcases start_rem hm hprim tries ⟨make 1, seq, 0, 0⟩ hrem with
      ⟨m', st', g1, g2, g3, g4, g5, hz, g6⟩ | ⟨m', st', g1, g2, g3, g4⟩ | ⟨st', g1, g2⟩
    · rw [g1]
      obtain ⟨r, e1, e2⟩ := delta_correct (s := st'.rand) (by rw [g4]; exact g5) hz junkVeq
      obtain ⟨L, f1, f2, f3⟩ := ih m' st'.src g2 (by omega)
      simp only [e1, f1, Option.map_some]
      refine ⟨_, rfl, ?_, ?_⟩
      · rw [List.map_cons, f2, g4, g6]
      · intro q hq
        rcases List.mem_cons.1 hq with rfl | hq
        · exact e2
        · exact f3 q hq
    · rw [g1, g4]
      exact ih m' st'.src g2 (by omega)
    · rw [g1, g2]
      exact ⟨[], rfl, rfl, by simp⟩

/-- **C84.**  `main` of xorshift-3.cpp with `Sequential<uint32_t> seq(0, 0x7fff)`, the test
`AlgorithmPrimitivity` with a table of the prime divisors of `2^128-1`, and any number `tries ≥ 1` of tries
per call (the source has 0x7fff): the program ends, and the list of the printed parameters is
`expected (2^15)`, that is, the 2^15 parameter words in decreasing order without those that do not have the
maximal period. -/
theorem main_correct (hm : MinPolySeqSpec mps) {L : List ℕ} (hL : Period.IsFactorList L (2 ^ 128 - 1))
    {tries : ℕ} (ht : 1 ≤ tries) (junkVeq : ℕ → ℕ) {fuel : ℕ} (hfuel : 2 ^ 15 < fuel) :
    ∃ out, mainLoop mps (Period.primitivityOp (some L)) tries junkVeq fuel
        (Seq.make2 0 0x7fff) = some out ∧
      out.map Prod.fst = expected (2 ^ 15) ∧ ∀ q ∈ out, IsDelta q.1 q.2 := by
  refine main_correct_from hm (primOK_table (by omega) hL) ht junkVeq fuel (2 ^ 15) _ ?_ hfuel
  exact ⟨rfl, fun h => absurd h (by norm_num), fun _ => ⟨rfl, rfl, by norm_num⟩⟩

/-- **C84.**  The same with the table `prime_factors2_128_1` that the program passes to the constructor: no
hypothesis is left but that on NTL's `MinPolySeq`. -/
theorem main_correct_table (hm : MinPolySeqSpec mps) (junkVeq : ℕ → ℕ) {fuel : ℕ}
    (hfuel : 2 ^ 15 < fuel) :
    ∃ L : List ℕ, Period.ctor Period.factors128 = some (L.map Int.ofNat) ∧
      ∃ out, mainLoop mps (Period.primitivityOp (some L)) 0x7fff junkVeq fuel
          (Seq.make2 0 0x7fff) = some out ∧
        out.map Prod.fst = expected (2 ^ 15) ∧ ∀ q ∈ out, IsDelta q.1 q.2 := by
  obtain ⟨L, h1, -, h2⟩ := Period.tables_correct (128, Period.factors128) List.mem_cons_self
  exact ⟨L, h1, main_correct hm h2 (by norm_num) junkVeq hfuel⟩

/-- **C84.**  The words below `2^15` have pairwise different parameters, and every admissible parameter set
(shifts below 32) is the parameter set of one of them: so `expected (2^15)` lists every maximal
parameter set exactly once. -/
theorem expected_complete (p : Par) :
    (expected (2 ^ 15)).Nodup ∧
    (p ∈ expected (2 ^ 15) ↔ Maximal p ∧ p.1 < 32 ∧ p.2.1 < 32 ∧ p.2.2 < 32) := by
  constructor
  · unfold expected
    apply List.Nodup.filter
    rw [List.nodup_map_iff_inj_on (List.nodup_reverse.2 List.nodup_range)]
    intro a ha b hb h
    rw [List.mem_reverse, List.mem_range] at ha hb
    simp only [wordPar, Prod.mk.injEq] at h
    omega
  · unfold expected
    simp only [List.mem_filter, List.mem_map, List.mem_reverse, List.mem_range, decide_eq_true_eq]
    constructor
    · rintro ⟨⟨m, hm, rfl⟩, h⟩
      refine ⟨h, ?_⟩
      simp only [wordPar]
      omega
    · rintro ⟨h, h1, h2, h3⟩
      refine ⟨⟨p.1 + p.2.1 * 2 ^ 5 + p.2.2 * 2 ^ 10, by omega, ?_⟩, h⟩
      obtain ⟨p1, p2, p3⟩ := p
      simp only [wordPar, Prod.mk.injEq] at *
      omega

/-- **C84.**  The published parameters 5, 14, 1 of xorshift-1.cpp are found. -/
theorem published_found : (5, 14, 1) ∈ expected (2 ^ 15) := by
  rw [(expected_complete _).2]
  refine ⟨?_, by decide, by decide, by decide⟩
  have h1 := XorShift.maximal_fixed XorShift.par1 (Or.inl rfl)
  intro s hp hs k
  have hst := (stateAt_spec (linGen (5, 14, 1)) (g := s) ⟨trivial, hp⟩ k).2
  have hst' := (stateAt_spec (XorShift.linGen ⟨5, 1, 5, 14, s.x, s.y, s.z, s.w⟩)
    (g := ⟨5, 1, 5, 14, s.x, s.y, s.z, s.w⟩) ⟨rfl, rfl, rfl, rfl⟩ k).2
  have := h1 ⟨5, 1, 5, 14, s.x, s.y, s.z, s.w⟩ rfl hs k
  rw [hst'] at this
  rw [hst]
  exact this

/-- **C84.**  What xorshift-3.cpp finds is, in the notation of xorshift-4.cpp, exactly the part of what that
program finds that belongs to pattern 5. -/
theorem agrees_with_4 (a b c : ℕ) :
    (a, b, c) ∈ expected (2 ^ 15) ↔ ((5, c, a, b) : XorShift.Par) ∈ XorShift.expected (2 ^ 18) := by
  rw [(expected_complete _).2, (XorShift.expected_complete _).2]
  have key : Maximal (a, b, c) ↔ XorShift.Maximal (5, c, a, b) := by
    have e : ∀ s : St, par s = (a, b, c) → ∀ k, den (stateAt ops s k) =
        den (stateAt XorShift.ops ⟨5, c, a, b, s.x, s.y, s.z, s.w⟩ k) := by
      intro s hp k
      rw [(stateAt_spec (linGen (a, b, c)) (g := s) ⟨trivial, hp⟩ k).2,
        (stateAt_spec (XorShift.linGen ⟨5, c, a, b, s.x, s.y, s.z, s.w⟩)
          (g := ⟨5, c, a, b, s.x, s.y, s.z, s.w⟩) ⟨rfl, rfl, rfl, rfl⟩ k).2]
      rfl
    constructor
    · intro h s hp hs k
      have := h ⟨0, a, b, c, s.x, s.y, s.z, s.w⟩ rfl hs k
      rw [e _ rfl] at this
      simp only [XorShift.par, Prod.mk.injEq] at hp
      obtain ⟨p, a', b', c', x, y, z, w⟩ := s
      obtain ⟨rfl, rfl, rfl, rfl⟩ := hp
      exact this
    · intro h s hp hs k
      rw [e s hp]
      exact h ⟨5, c, a, b, s.x, s.y, s.z, s.w⟩ rfl hs k
  rw [key]
  simp only
  constructor
  · rintro ⟨h, h1, h2, h3⟩; exact ⟨h, by omega, h3, h1, h2⟩
  · rintro ⟨h, -, h3, h1, h2⟩; exact ⟨h, h1, h2, h3⟩

/-- **C86 for xorshift-3.cpp.**  For every maximal parameter set and every object that is not zero, the highest
bit is equidistributed in the full dimension 128. -/
theorem first_dimension {s : St} (hM : Maximal (par s)) (hs : isZero s = false) (junkVeq : ℕ → ℕ) :
    ∃ r, getAllEquidist ops Util.calc1posWrap32 s 32 128 (32 * (33 * 128) + 33) junkVeq = .ok r ∧
      r.veq 0 = 128 := by
  obtain ⟨k, h1, h2⟩ := orbit_of_maximal hM rfl hs (y := (0, 0, 0, Wd.of 0x80000000)) (by
    intro h0
    have : (0x80000000 : BitVec 32) = 0 := congrArg (fun y : S => y.2.2.2.val) h0
    exact absurd this (by decide))
  obtain ⟨j, rfl⟩ : ∃ j, k = j + 1 := ⟨k - 1, by omega⟩
  obtain ⟨r, e1, e2, -⟩ := PIS.first_dimension (linGen (par s)) (g := s) ⟨trivial, rfl⟩ (n := 128) (by omega)
    finrank_S rfl (hM s rfl hs) ⟨j, by
      have h3 : (stateAt ops s (j + 1)).w = 0x80000000 := congrArg (fun y : S => y.2.2.2.val) h2
      have h4 : outAt ops s j = (stateAt ops s (j + 1)).w := rfl
      rw [h4, h3]; rfl⟩ Util.isCalc1pos_32 (bitLen := 32) (by omega) (by omega)
    (fuel := 32 * (33 * 128) + 33) (by omega) junkVeq
  exact ⟨r, e1, e2⟩

/-! ### Non-vacuity -/

example (junkVeq : ℕ → ℕ) : ∃ r, getAllEquidist ops Util.calc1posWrap32 ⟨0, 5, 14, 1, 1, 2, 3, 4⟩ 32 128
    (32 * (33 * 128) + 33) junkVeq = .ok r ∧ r.veq 0 = 128 :=
  first_dimension (s := ⟨0, 5, 14, 1, 1, 2, 3, 4⟩) (((expected_complete _).2.1 published_found).1) (by decide) junkVeq

/-- A parameter set that is not maximal: with `a = b = c = 0` the state (1, 0, 0, 0) is turned into zero. -/
example : (generate ⟨0, 0, 0, 0, 1, 0, 0, 0⟩).1 = ⟨0, 0, 0, 0, 0, 0, 0, 0⟩ := by decide

example : IsRem (Seq.make2 (0 : BitVec 32) 0x7fff) (2 ^ 15) :=
  ⟨rfl, fun h => absurd h (by norm_num), fun _ => ⟨rfl, rfl, by norm_num⟩⟩

example : par (setUpParam 0x5c5 (make 1)) = (5, 14, 1) := by decide

end MTT.XorShift3
