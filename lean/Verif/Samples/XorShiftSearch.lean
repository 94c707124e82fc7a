import Verif.Samples.XorShiftProps
import Verif.Search.Orbit
import Verif.Util.SequentialProps
import Verif.Period.TablesProps

/-!
# C13: the exhaustive search of samples/XORSHIFT/xorshift-4.cpp
-/

namespace MTT.XorShift

open Polynomial PIS Search

/-- What the search uses of `class XorShift`: `setUpParam` reads one word from the `Sequential` object
(xorshift-4.cpp:126-138); `seed(getOne())`. -/
def searchOps : SearchOps St (Seq.St 32) 32 where
  gen := ops
  setUp s src := match Seq.getUint32 src with
    | (src', some r) => some (setUpParam r s, src')
    | (_, none) => none
  seedOne := seed 1

/-- Printed parameters `pat, a, b, c`. -/
abbrev Par := ℕ × ℕ × ℕ × ℕ

def par (s : St) : Par := (s.pat, s.a, s.b, s.c)

/-- `XorShift(uint32_t v)`, xorshift-4.cpp:22-27; `pat` stays uninitialised. -/
def make (junkPat : ℕ) (v : BitVec 32) : St := seed v ⟨junkPat, 0, 0, 0, 0, 0, 0, 0⟩

/-- `main` with its calls of `search`, xorshift-4.cpp:147-181.  `tries` is the argument of `rs.start`
(0x3ffff in the source).  The result is the list of the printed parameters with the printed delta; `none`: out
of fuel, undefined behaviour, or an exception other than that of the parameter source.  `seq` is the
`Sequential` object, shared by all calls of `search`. -/
noncomputable def mainLoop (mps : MPS) (prim : ℕ → (ZMod 2)[X] → Option Bool) (tries junkPat : ℕ)
    (junkVeq : ℕ → ℕ) : ℕ → Seq.St 32 → Option (List (Par × ℤ))
  | 0, _ => none
  | fuel + 1, seq =>
    match start mps searchOps prim tries ⟨make junkPat 1, seq, 0, 0⟩ with
    | .undef => none
    | .threw _ => some []
    | .ret false st => mainLoop mps prim tries junkPat junkVeq fuel st.src
    | .ret true st =>
      match getAllEquidist ops Util.calc1posWrap32 st.rand 32 128 (32 * (33 * 128) + 33) junkVeq with
      | .error _ => none
      | .ok r => (mainLoop mps prim tries junkPat junkVeq fuel st.src).map ((par st.rand, r.sum) :: ·)

/-- Object with given parameters. -/
def parSt (p : Par) : St := ⟨p.1, p.2.1, p.2.2.1, p.2.2.2, 0, 0, 0, 0⟩

theorem samePar_iff (p : Par) (s : St) : SamePar (parSt p) s ↔ par s = p := by
  obtain ⟨p1, p2, p3, p4⟩ := p
  simp [SamePar, parSt, par]

/-- **C33 for xorshift.**  The class satisfies the contract of the search. -/
theorem family : Family searchOps (fun _ => True) par den (fun p => T (parSt p)) (fun p => O (parSt p)) where
  lin p := by
    have : (fun s => True ∧ par s = p) = SamePar (parSt p) := by
      funext s; rw [samePar_iff, true_and]
    rw [this]
    exact linGen (parSt p)
  dim := finrank_S
  pos := by show 1 ≤ 128; omega
  wpos := by omega
  setUp_inv := fun _ _ _ _ _ _ => trivial
  seed_inv := fun _ _ => trivial
  seed_par := fun _ _ => rfl

/-- Specification of what the program looks for: with these parameters every non-zero state has period
`2^128-1`. -/
def Maximal (p : Par) : Prop :=
  ∀ s : St, par s = p → isZero s = false → ∀ k, den (stateAt ops s k) = den s ↔ 2 ^ 128 - 1 ∣ k

theorem maximal_iff (p : Par) :
    Maximal p ↔ MaxPeriod searchOps (fun _ => True) par den p 128 := by
  unfold Maximal MaxPeriod
  refine forall_congr' fun s => ⟨fun h _ hp h0 => h hp ?_, fun h hp h0 => h trivial hp ?_⟩
  · rw [← Bool.not_eq_true, isZero_iff]; exact h0
  · rw [Ne, ← isZero_iff, h0]; simp

theorem orbit_of_maximal {p : Par} (h : Maximal p) {s : St} (hp : par s = p) (hs : isZero s = false)
    {y : S} (hy : y ≠ 0) : ∃ k, 1 ≤ k ∧ den (stateAt ops s k) = y := by
  have hden : den s ≠ 0 := by rw [Ne, ← isZero_iff, hs]; simp
  have hst := fun k => (stateAt_spec (family.lin p) (g := s) ⟨trivial, hp⟩ k).2
  obtain ⟨k, h1, h2⟩ := orbit_all (T := T (parSt p)) (n := 128) (by omega) finrank_S hden (fun k => by
    have := h s hp hs k
    rw [← this]
    exact (hst k ▸ Iff.rfl)) hy
  exact ⟨k, h1, (hst k).trans h2⟩

/-- The second condition of `tryOnce_correct` (the lowest output bit is not constantly zero) follows from the
maximal period. -/
theorem bit_of_maximal {p : Par} (h : Maximal p) {s : St} (hp : par s = p) (hs : isZero s = false) :
    ∃ i, (outAt ops s i).getLsbD 0 = true := by
  obtain ⟨k, h1, h2⟩ := orbit_of_maximal h hp hs (y := (0, 0, 0, Wd.of 1)) (by
    intro h0
    have : (1 : BitVec 32) = 0 := congrArg (fun y : S => y.2.2.2.val) h0
    exact absurd this (by decide))
  obtain ⟨j, rfl⟩ : ∃ j, k = j + 1 := ⟨k - 1, by omega⟩
  refine ⟨j, ?_⟩
  have h3 : (stateAt ops s (j + 1)).w = 1 := congrArg (fun y : S => y.2.2.2.val) h2
  have h4 : outAt ops s j = (stateAt ops s (j + 1)).w := rfl
  rw [h4, h3]; rfl

theorem stateAt_ne_zero {p : Par} (h : Maximal p) {s : St} (hp : par s = p) (hs : isZero s = false)
    {k : ℕ} (hk : k ≤ 2 ^ 128 - 1) : isZero (stateAt ops s k) = false := by
  by_contra h0
  rw [Bool.not_eq_false, isZero_iff] at h0
  have h1 := (h s hp hs (2 ^ 128 - 1)).2 (dvd_refl _)
  have hst := fun k => (stateAt_spec (family.lin p) (g := s) ⟨trivial, hp⟩ k).2
  have h2 : ∀ k, den (stateAt ops s k) = ((T (parSt p)) ^ k) (den s) := hst
  rw [h2] at h0 h1
  rw [← Nat.sub_add_cancel hk, pow_add, Module.End.mul_apply, h0, map_zero] at h1
  rw [eq_comm, ← isZero_iff, hs] at h1
  cases h1

/-- `m` more words `m-1, …, 0` will be delivered. -/
def IsRem (s : Seq.St 32) (m : ℕ) : Prop :=
  s.mask = 0 ∧ (m = 0 → s.error = true) ∧
    (1 ≤ m → s.error = false ∧ s.status = BitVec.ofNat 32 (m - 1) ∧ m ≤ 2 ^ 32)

theorem next_isRem_zero {s : Seq.St 32} (h : IsRem s 0) : Seq.getUint32 s = (s, none) := by
  unfold Seq.getUint32
  rw [Seq.next_err (h.2.1 rfl)]
  rfl

theorem next_isRem_succ {s : Seq.St 32} {m : ℕ} (h : IsRem s (m + 1)) :
    ∃ s', Seq.getUint32 s = (s', some (BitVec.ofNat 32 m)) ∧ IsRem s' m := by
  obtain ⟨h1, -, h3⟩ := h
  obtain ⟨h4, h5, h6⟩ := h3 (by omega)
  rw [Nat.add_sub_cancel] at h5
  unfold Seq.getUint32
  have hx : (s.status ^^^ s.mask).setWidth 32 = BitVec.ofNat 32 m := by
    rw [h1, h5]; simp
  by_cases h0 : s.status = 0
  · rw [Seq.next_zero h4 h0]
    have hm : m = 0 := by
      rw [h0] at h5
      have := congrArg BitVec.toNat h5
      rw [BitVec.toNat_ofNat, Nat.mod_eq_of_lt (by omega)] at this
      exact this.symm
    refine ⟨⟨s.status - 1, s.mask, true⟩, by simp only [Option.map_some]; rw [hx], ?_⟩
    exact ⟨h1, fun _ => rfl, fun h => by omega⟩
  · rw [Seq.next_pos h4 h0]
    have hm : m ≠ 0 := by rintro rfl; exact h0 h5
    refine ⟨⟨s.status - 1, s.mask, s.error⟩, by simp only [Option.map_some]; rw [hx], ?_⟩
    refine ⟨h1, fun h => absurd h hm, fun _ => ⟨h4, ?_, by omega⟩⟩
    show s.status - 1 = _
    rw [h5]
    obtain ⟨j, rfl⟩ : ∃ j, m = j + 1 := ⟨m - 1, by omega⟩
    rw [Nat.add_sub_cancel, BitVec.ofNat_add]
    exact BitVec.add_sub_cancel _ _

/-- Parameters of the word `r` (fields of xorshift-4.cpp:126-138). -/
def wordPar (r : ℕ) : Par := (r / 2 ^ 15 % 8, r / 2 ^ 10 % 32, r / 2 ^ 5 % 32, r % 32)

theorem par_setUp (m : ℕ) (hm : m < 2 ^ 32) (s : St) :
    par (setUpParam (BitVec.ofNat 32 m) s) = wordPar m := by
  have e5 : ∀ n : ℕ, n &&& 31 = n % 32 := fun n => Nat.and_two_pow_sub_one_eq_mod n 5
  have e3 : ∀ n : ℕ, n &&& 7 = n % 8 := fun n => Nat.and_two_pow_sub_one_eq_mod n 3
  have hmod : m % 4294967296 = m := Nat.mod_eq_of_lt hm
  simp only [par, wordPar, setUpParam, BitVec.toNat_and, BitVec.toNat_ushiftRight, BitVec.reduceToNat, e5,
    e3, Nat.shiftRight_eq_div_pow, BitVec.toNat_ofNat, Nat.reducePow, hmod,
    Nat.div_div_eq_div_mul]

open Classical in
/-- Specification of the output: the parameters of the words `m-1, …, 0` that are maximal, in this order. -/
noncomputable def expected (m : ℕ) : List Par :=
  ((List.range m).reverse.map wordPar).filter fun p => decide (Maximal p)

theorem expected_pos {m : ℕ} (h : Maximal (wordPar m)) : expected (m + 1) = wordPar m :: expected m := by
  unfold expected
  rw [List.range_succ, List.reverse_append, List.map_append, List.filter_append]
  simp [h]

theorem expected_neg {m : ℕ} (h : ¬ Maximal (wordPar m)) : expected (m + 1) = expected m := by
  unfold expected
  rw [List.range_succ, List.reverse_append, List.map_append, List.filter_append]
  simp [h]

variable {mps : MPS} {prim : ℕ → (ZMod 2)[X] → Option Bool}

theorem tryOnce_rem (hm : MinPolySeqSpec mps) (hprim : PrimOK prim 128) (st : Search.St St (Seq.St 32))
    {m : ℕ} (hrem : IsRem st.src (m + 1)) :
    ∃ b st', tryOnce mps searchOps prim st = .ret b st' ∧ IsRem st'.src m ∧
      par st'.rand = wordPar m ∧ (b = true ↔ Maximal (wordPar m)) ∧
      (b = true → isZero st'.rand = false) := by
  obtain ⟨src', e1, e2⟩ := next_isRem_succ hrem
  have hlt : m < 2 ^ 32 := by have := (hrem.2.2 (by omega)).2.2; omega
  have hsu : searchOps.setUp st.rand st.src =
      some (setUpParam (BitVec.ofNat 32 m) st.rand, src') := by
    show (match Seq.getUint32 st.src with
      | (src', some r) => some (setUpParam r st.rand, src') | (_, none) => none) = _
    rw [e1]
  rcases tryOnce_correct hm family hprim st trivial with ⟨h1, _⟩ |
    ⟨r, src, st', b, h1, h2, -, h4, h5, -, h6, h7, -⟩
  · rw [hsu] at h1; cases h1
  · rw [hsu] at h1
    injection h1 with h1
    injection h1 with h1 h1'
    subst h1 h1'
    have hp := par_setUp m hlt st.rand
    have hiff : b = true ↔ Maximal (wordPar m) := by
      rw [h7, hp, maximal_iff]
      refine ⟨fun h => h.1, fun h => ⟨h, ?_⟩⟩
      exact bit_of_maximal ((maximal_iff _).2 h) (s := seed 1 (setUpParam (BitVec.ofNat 32 m) st.rand)) hp
        (seed_not_zero _ _)
    refine ⟨b, st', h2, by rw [h4]; exact e2, by rw [h6, hp], hiff, fun hb => ?_⟩
    rw [h5]
    exact stateAt_ne_zero (hiff.1 hb) (s := seed 1 (setUpParam (BitVec.ofNat 32 m) st.rand)) hp
      (seed_not_zero _ _) (k := 2 * searchOps.gen.bitSize) (by show 256 ≤ _; norm_num)

theorem start_rem (hm : MinPolySeqSpec mps) (hprim : PrimOK prim 128) (n : ℕ)
    (st : Search.St St (Seq.St 32)) {m : ℕ} (hrem : IsRem st.src m) :
    (∃ m' st', start mps searchOps prim n st = .ret true st' ∧ IsRem st'.src m' ∧ m' < m ∧
      par st'.rand = wordPar m' ∧ Maximal (wordPar m') ∧ isZero st'.rand = false ∧ expected m = wordPar m' :: expected m') ∨
    (∃ m' st', start mps searchOps prim n st = .ret false st' ∧ IsRem st'.src m' ∧ m' + n = m ∧
      expected m = expected m') ∨
    (∃ st', start mps searchOps prim n st = .threw st' ∧ expected m = []) := by
  induction n generalizing st m with
  | zero => right; left; exact ⟨m, st, rfl, hrem, rfl, rfl⟩
  | succ n ih =>
    cases m with
    | zero =>
      right; right
      have hsu : searchOps.setUp st.rand st.src = none := by
        show (match Seq.getUint32 st.src with
          | (src', some r) => some (setUpParam r st.rand, src') | (_, none) => none) = none
        rw [next_isRem_zero hrem]
      refine ⟨st, ?_, rfl⟩
      simp only [start, tryOnce, hsu]
    | succ m =>
      obtain ⟨b, st1, h1, h2, h3, h4, h5⟩ := tryOnce_rem hm hprim st hrem
      cases b with
      | true =>
        left
        have hM := h4.1 rfl
        refine ⟨m, st1, by simp only [start, h1], h2, by omega, h3, hM, h5 rfl, expected_pos hM⟩
      | false =>
        have hM : ¬ Maximal (wordPar m) := fun h => absurd (h4.2 h) (by simp)
        have hstart : start mps searchOps prim (n + 1) st = start mps searchOps prim n st1 := by
          simp only [start, h1]
        rw [hstart, expected_neg hM]
        rcases ih st1 h2 with ⟨m', st', g1, g2, g3, g4⟩ | ⟨m', st', g1, g2, g3, g4⟩ | ⟨st', g1, g2⟩
        · left; exact ⟨m', st', g1, g2, by omega, g4⟩
        · right; left; exact ⟨m', st', g1, g2, by omega, g4⟩
        · right; right; exact ⟨st', g1, g2⟩

/-- Specification of delta: the sum of the dimension defects of the generator with parameters `p` over its
whole state space. -/
def IsDelta (p : Par) (d : ℤ) : Prop :=
  ∃ k : ℕ → ℕ, (∀ v, 1 ≤ v → v ≤ 32 →
      IsGreatest {k | Equidist (T (parSt p)) (O (parSt p)) ⊤ v k} (k v)) ∧
    d = ∑ v ∈ Finset.Icc 1 32, ((128 / v : ℕ) - (k v : ℤ))

theorem delta_correct {s : St} (hM : Maximal (par s)) (hs : isZero s = false) (junkVeq : ℕ → ℕ) :
    ∃ r, getAllEquidist ops Util.calc1posWrap32 s 32 128 (32 * (33 * 128) + 33) junkVeq = .ok r ∧
      IsDelta (par s) r.sum := by
  obtain ⟨r, e1, e2, e3⟩ := equidist s junkVeq
  have hden : den s ≠ 0 := by rw [Ne, ← isZero_iff, hs]; simp
  have hTe : T s = T (parSt (par s)) := rfl
  have hst := fun k => (stateAt_spec (linGen s) (g := s) ⟨rfl, rfl, rfl, rfl⟩ k).2
  have hc : cyc (T s) (den s) = ⊤ := cyc_top (n := 128) (by omega) finrank_S hden (fun k => by
    rw [← hM s rfl hs k, hst])
  refine ⟨r, e1, fun v => r.veq (v - 1), fun v h1 h2 => ?_, e3⟩
  have := e2 v h1 h2
  rw [hc] at this
  exact this

/-- **C13.**  The program started on a parameter source that will deliver the words `m-1, …, 0`: for every
positive number of tries per call of `start`, it ends with the exception of the parameter source, and prints
exactly the parameter sets that give every non-zero state the maximal period, each once, in the order of the
parameter words, with the exact delta. -/
theorem main_correct_from (hm : MinPolySeqSpec mps) (hprim : PrimOK prim 128) {tries : ℕ} (ht : 1 ≤ tries)
    (junkPat : ℕ) (junkVeq : ℕ → ℕ) (fuel m : ℕ) (seq : Seq.St 32) (hrem : IsRem seq m)
    (hfuel : m < fuel) :
    ∃ L, mainLoop mps prim tries junkPat junkVeq fuel seq = some L ∧ L.map Prod.fst = expected m ∧
      ∀ q ∈ L, IsDelta q.1 q.2 := by
  induction fuel generalizing seq m with
  | zero => omega
  | succ fuel ih =>
    unfold mainLoop
    rcases start_rem hm hprim tries ⟨make junkPat 1, seq, 0, 0⟩ hrem with
      ⟨m', st', g1, g2, g3, g4, g5, hz, g6⟩ | ⟨m', st', g1, g2, g3, g4⟩ | ⟨st', g1, g2⟩
    · rw [g1]
      obtain ⟨r, e1, e2⟩ := delta_correct (s := st'.rand) (by rw [g4]; exact g5) hz junkVeq
      obtain ⟨L, f1, f2, f3⟩ := ih m' st'.src g2 (by omega)
      simp only [e1, f1, Option.map_some]
      refine ⟨_, rfl, ?_, ?_⟩
      · rw [List.map_cons, f2, g4, g6]
      · intro q hq
        rcases List.mem_cons.1 hq with rfl | hq
        · exact e2
        · exact f3 q hq
    · rw [g1, g4]
      exact ih m' st'.src g2 (by omega)
    · rw [g1, g2]
      exact ⟨[], rfl, rfl, by simp⟩

/-- **C13.**  `main` of xorshift-4.cpp with `Sequential<uint32_t> seq(0, 0x3ffff)`, the test
`AlgorithmPrimitivity` with a table of the prime divisors of `2^128-1`, and any number `tries ≥ 1` of tries
per call (the source has 0x3ffff): the program ends, and the list of the printed parameters is
`expected (2^18)`, that is, the 2^18 parameter words in decreasing order without those that do not have the
maximal period. -/
theorem main_correct (hm : MinPolySeqSpec mps) {L : List ℕ} (hL : Period.IsFactorList L (2 ^ 128 - 1))
    {tries : ℕ} (ht : 1 ≤ tries) (junkPat : ℕ) (junkVeq : ℕ → ℕ) {fuel : ℕ} (hfuel : 2 ^ 18 < fuel) :
    ∃ out, mainLoop mps (Period.primitivityOp (some L)) tries junkPat junkVeq fuel
        (Seq.make2 0 0x3ffff) = some out ∧
      out.map Prod.fst = expected (2 ^ 18) ∧ ∀ q ∈ out, IsDelta q.1 q.2 := by
  refine main_correct_from hm (primOK_table (by omega) hL) ht junkPat junkVeq fuel (2 ^ 18) _ ?_ hfuel
  exact ⟨rfl, fun h => absurd h (by norm_num), fun _ => ⟨rfl, rfl, by norm_num⟩⟩

/-- **C13.**  The same with the table `prime_factors2_128_1` that the program passes to the constructor: no
hypothesis is left but that on NTL's `MinPolySeq`. -/
theorem main_correct_table (hm : MinPolySeqSpec mps) (junkPat : ℕ) (junkVeq : ℕ → ℕ) {fuel : ℕ}
    (hfuel : 2 ^ 18 < fuel) :
    ∃ L : List ℕ, Period.ctor Period.factors128 = some (L.map Int.ofNat) ∧
      ∃ out, mainLoop mps (Period.primitivityOp (some L)) 0x3ffff junkPat junkVeq fuel
          (Seq.make2 0 0x3ffff) = some out ∧
        out.map Prod.fst = expected (2 ^ 18) ∧ ∀ q ∈ out, IsDelta q.1 q.2 := by
  obtain ⟨L, h1, -, h2⟩ := Period.tables_correct (128, Period.factors128) List.mem_cons_self
  exact ⟨L, h1, main_correct hm h2 (by norm_num) junkPat junkVeq hfuel⟩

/-- **C13.**  The words below `2^18` have pairwise different parameters, and every admissible parameter set
(`pat < 8`, shifts below 32) is the parameter set of one of them: so `expected (2^18)` lists every maximal
parameter set exactly once. -/
theorem expected_complete (p : Par) :
    (expected (2 ^ 18)).Nodup ∧
    (p ∈ expected (2 ^ 18) ↔ Maximal p ∧ p.1 < 8 ∧ p.2.1 < 32 ∧ p.2.2.1 < 32 ∧ p.2.2.2 < 32) := by
  constructor
  · unfold expected
    apply List.Nodup.filter
    rw [List.nodup_map_iff_inj_on (List.nodup_reverse.2 List.nodup_range)]
    intro a ha b hb h
    rw [List.mem_reverse, List.mem_range] at ha hb
    simp only [wordPar, Prod.mk.injEq] at h
    omega
  · unfold expected
    simp only [List.mem_filter, List.mem_map, List.mem_reverse, List.mem_range, decide_eq_true_eq]
    constructor
    · rintro ⟨⟨m, hm, rfl⟩, h⟩
      refine ⟨h, ?_⟩
      simp only [wordPar]
      omega
    · rintro ⟨h, h1, h2, h3, h4⟩
      refine ⟨⟨p.1 * 2 ^ 15 + p.2.1 * 2 ^ 10 + p.2.2.1 * 2 ^ 5 + p.2.2.2, by omega, ?_⟩, h⟩
      obtain ⟨p1, p2, p3, p4⟩ := p
      simp only [wordPar, Prod.mk.injEq] at *
      omega

end MTT.XorShift
