import Verif.Samples.MT1
import Verif.Samples.MTDCProps
import Verif.MT.PeriodProps
import Verif.PIS.Bounds

/-!
# C85: the class `MT19937` and the program samples/MTDC/mt1.cpp
-/

namespace MTT.MT1

open PIS MTRec Polynomial
open MT (P32 P32_ok)

/-- The same object as an object of the class of mt2.cpp. -/
def toSt (s : St) : MTDC.St :=
  ⟨19937, 624, s.index, s.state, 397, 0x9908b0df, 0, 0, 0x80000000, 0x7fffffff, 0, false⟩

theorem toSt_inv {s : St} (hs : s.index < 624) : MTDC.Inv 624 31 (toSt s) :=
  ⟨rfl, rfl, by omega, hs, by show (0x80000000 : BitVec 32) = MTRec.upper 32 31; decide,
    by show (0x7fffffff : BitVec 32) = ~~~ MTRec.upper 32 31; decide, by show 1 ≤ 397; omega,
    by show 397 < 624; omega⟩

/-- Effective state: the highest bit of the oldest word and all bits of the others. -/
def den (s : St) : State P32 := MTDC.den 624 31 (toSt s)

theorem toSt_generate (s : St) : toSt (generate s).1 = (MTDC.generate (toSt s)).1 := rfl

theorem generate_index (s : St) : (generate s).1.index < 624 := Nat.mod_lt _ (by omega)

theorem gen_den {s : St} (hs : s.index < 624) : den (generate s).1 = T P32 (den s) := by
  show MTDC.den 624 31 (toSt (generate s).1) = _
  rw [toSt_generate]
  exact MTDC.generate_den (toSt_inv hs)

theorem gen_out' {s : St} (hs : s.index < 624) : (generate s).2 = MT.temper32 (newWord (den s)) := by
  have h : (generate s).2 = MT.temper32 (MTDC.new (toSt s)) := by
    have e1 : s.state (((s.index + 1) % 624 + 1) % 624) = MTDC.words 624 (toSt s) 1 := by
      unfold MTDC.words Ring.rel; rw [Nat.mod_add_mod]; rfl
    have e2 : s.state (((s.index + 1) % 624 + 397) % 624) = MTDC.words 624 (toSt s) 397 := by
      unfold MTDC.words Ring.rel; rw [Nat.mod_add_mod]
      show _ = s.state ((s.index + (397 + 1)) % 624)
      rw [show s.index + 1 + 397 = s.index + (397 + 1) by omega]
    have e0 : s.state ((s.index + 1) % 624) = MTDC.words 624 (toSt s) 0 := rfl
    unfold generate
    dsimp only
    rw [e1, e2, e0]
    rfl
  rw [h, MTDC.new_den (toSt_inv hs)]
  rfl

theorem toSt_add (a b : St) : toSt (add a b) = MTDC.add (toSt a) (toSt b) := by
  simp only [toSt, add, MTDC.add]

theorem toSt_zero (s : St) : toSt (setZero s) = MTDC.setZero (toSt s) := by
  simp only [toSt, setZero, MTDC.setZero]

theorem add_den {a b : St} (ha : a.index < 624) : den (add a b) = den a + den b := by
  unfold den
  rw [toSt_add]
  exact MTDC.add_den (toSt_inv ha)

theorem zero_den {s : St} (hs : s.index < 624) : den (setZero s) = 0 := by
  unfold den
  rw [toSt_zero]
  exact MTDC.zero_den (toSt_inv hs)

/-- Output as a linear map. -/
def O : State P32 →ₗ[ZMod 2] V :=
  linOf (fun s => bits (MT.temper32 (newWord s))) (fun s t => by rw [newWord_add, MT.temper32_linear, bits_xor])

/-- **C85.**  The class satisfies the contract of a linear generator on 19937 effective bits, for all positions
of the indices. -/
theorem linGen : LinGen ops (fun s => s.index < 624) den (T P32) O where
  gen_inv s _ := generate_index s
  gen_den s hs := gen_den hs
  gen_out s hs := by
    show bits (generate s).2 = _
    rw [gen_out' hs]; rfl
  genV_inv _ s _ _ _ := generate_index s
  genV_den v s _ _ hs := gen_den hs
  genV_out v s _ hv hs := by
    have e : (~~~ (0 : BitVec 32)) = BitVec.allOnes 32 := by decide
    simp only [ops, generateV, e]
    rw [bits_and_mask _ hv, gen_out' hs]
    rfl
  add_inv a _ ha _ := by simp only [ops, add]; exact ha
  add_den a b ha _ := by simp only [ops]; exact add_den ha
  zero_inv s _ := by simp only [ops, setZero]; omega
  zero_den s hs := by simp only [ops]; exact zero_den hs

/-- Copies behave as the original. -/
theorem copy_den (junk : St) {s : St} (hs : s.index < 624) :
    (copy junk s).index < 624 ∧ den (copy junk s) = den s := by
  have key : ∀ m (a : ℕ → BitVec 32) i, i < m →
      (List.range m).foldl (fun a i => Function.update a i (s.state i)) a i = s.state i := by
    intro m
    induction m with
    | zero => intro a i h; omega
    | succ m ih =>
      intro a i h
      rw [List.range_succ, List.foldl_append, List.foldl_cons, List.foldl_nil]
      by_cases hm : i = m
      · rw [hm, Function.update_self]
      · rw [Function.update_of_ne hm]
        exact ih a i (by omega)
  refine ⟨by simp only [copy]; exact hs, ?_⟩
  have hw : ∀ j, MTDC.words 624 (toSt (copy junk s)) j = MTDC.words 624 (toSt s) j := fun j => by
    simp only [MTDC.words, Ring.rel, toSt, copy]
    generalize hi : (s.index + (j + 1)) % 624 = i
    have hi' : i < 624 := by rw [← hi]; exact Nat.mod_lt _ (by omega)
    generalize 624 = m at hi'
    exact key m junk.state i hi'
  unfold den MTDC.den
  simp only [hw]
  rfl

/-! ### Seeding -/

theorem seedLoop_spec (v : BitVec 32) (k : ℕ) : ∀ i (m : ℕ → BitVec 32), 1 ≤ i →
    (∀ j, j < i → m j = MTRef.seed32 v j) → ∀ j, j < i + k → seedLoop k i m j = MTRef.seed32 v j := by
  induction k with
  | zero => intro i m _ h j hj; exact h j hj
  | succ k ih =>
    intro i m h1 h j hj
    unfold seedLoop
    refine ih (i + 1) _ (by omega) (fun q hq => ?_) j (by omega)
    by_cases hqi : q = i
    · subst hqi
      rw [Function.update_self, h (q - 1) (by omega)]
      obtain ⟨p, rfl⟩ : ∃ p, q = p + 1 := ⟨q - 1, by omega⟩
      rw [Nat.add_sub_cancel]
      rfl
    · rw [Function.update_of_ne hqi]
      exact h q (by omega)

theorem make_index (junk : St) (v : BitVec 32) : (make junk v).index < 624 := by
  show 623 < 624; omega

theorem make_words (junk : St) (v : BitVec 32) {j : ℕ} (hj : j < 624) :
    MTDC.words 624 (toSt (make junk v)) j = MTRef.seed32 v j := by
  have e : MTDC.words 624 (toSt (make junk v)) j = seedLoop 623 1 (Function.update junk.state 0 v) j := by
    unfold MTDC.words Ring.rel toSt make seed
    dsimp only
    rw [show (623 + (j + 1)) % 624 = j by omega]
  rw [e]
  refine seedLoop_spec v 623 1 _ (by omega) (fun q hq => ?_) j (by omega)
  obtain rfl : q = 0 := by omega
  exact Function.update_self ..

/-- The state of a constructed object. -/
theorem make_den (junk : St) (v : BitVec 32) {x : ℕ → BitVec 32} (h0 : ∀ j, j < 624 → x j = MTRef.seed32 v j) :
    den (make junk v) = seqState P32 x 0 :=
  MTDC.den_seqState (n := 624) (r := 31) (p := MTDC.par (toSt (make junk v))) (x := x)
    (fun j hj => (make_words junk v hj).trans (h0 j hj).symm) (by omega)

theorem make_ne_zero (junk : St) (v : BitVec 32) : den (make junk v) ≠ 0 := by
  have h : ∀ j, j < 624 → MT.ext P32 (MT.refSeed MT.C32 v) j = MTRef.seed32 v j := fun j hj => by
    rw [← MT.refSeed32]; exact MT.ext_init (P := P32) _ hj
  rw [make_den junk v h]
  exact (MT.seed32_not_zero v _ (MT.ext_isSeq P32_ok _) fun j hj => MT.ext_init (P := P32) _ hj).1

theorem stream_spec {s : St} (hs : s.index < 624) (k : ℕ) :
    stream generate s k = MT.temper32 (newWord ((T P32 ^ k) (den s))) := by
  have key : ∀ k, ((fun t => (generate t).1)^[k] s) = stateAt ops s k := by
    intro k
    induction k with
    | zero => rfl
    | succ k ih => rw [Function.iterate_succ_apply', ih]; rfl
  unfold stream
  rw [key, gen_out' (stateAt_spec linGen hs k).1, (stateAt_spec linGen hs k).2]

/-- **C85.**  Whatever was in memory, an object constructed with the seed `v` delivers the published MT19937
sequence for this seed. -/
theorem published (junk : St) (v : BitVec 32) (x : ℕ → BitVec 32) (hx : MTRef.IsSeq32 x)
    (h0 : ∀ j, j < 624 → x j = MTRef.seed32 v j) (k : ℕ) :
    stream generate (make junk v) k = MTRef.temper32 (x (624 + k)) := by
  have hx' : IsSeq P32 x := (MT.isSeq32_iff x).2 hx
  rw [stream_spec (make_index junk v), make_den junk v h0, T_pow_seqState P32_ok hx',
    newWord_seqState P32_ok, ← hx', Nat.zero_add, Nat.add_comm k]
  rfl

/-- **C85.**  It delivers what the library class `MersenneTwister` delivers after `seed(v)`. -/
theorem agrees_with_library (junk : St) (s : MT.St 32) (v : BitVec 64) :
    MT.Delivers MT.step32 s (.seed v) .getNative
      (fun k => (stream generate (make junk (v.setWidth 32)) k).setWidth 64) := by
  intro n
  obtain ⟨x, h, _⟩ := MT.exists_seq P32_ok (MTRef.seed32 (v.setWidth 32))
  have hx := (MT.isSeq32_iff x).1 h.1
  obtain ⟨s', e⟩ := MT.mt19937_published s v n x hx h.2
  refine ⟨s', e.trans ?_⟩
  simp only [published junk (v.setWidth 32) x hx h.2]

theorem newest_eq (s : State P32) : newest P32 s = Wd.of (newWord s) := rfl

/-- **C85.**  From every object whose effective bits are not all zero, in particular for every seed, the least
period of the stream is `2^19937-1`. -/
theorem period {n : ℕ} (hn : n = 19937) {s : St} (hs : s.index < 624) (h0 : den s ≠ 0) :
    HasPeriod (stream generate s) (2 ^ n - 1) := by
  obtain ⟨x, hx, e⟩ := exists_seqState P32_ok (den s)
  intro K N
  rw [← MT.words32 hn hx (by rw [e]; exact h0) K N]
  refine forall_congr' fun k => imp_congr_right fun _ => ?_
  rw [stream_spec hs, stream_spec hs, ← e, T_pow_seqState P32_ok hx, T_pow_seqState P32_ok hx,
    newWord_seqState P32_ok, newWord_seqState P32_ok, ← hx, ← hx, MT.temper32_injective.eq_iff,
    Nat.zero_add, Nat.zero_add, Nat.add_comm 624, Nat.add_comm 624]
  rfl

theorem period_seed {n : ℕ} (hn : n = 19937) (junk : St) (v : BitVec 32) :
    HasPeriod (stream generate (make junk v)) (2 ^ n - 1) :=
  period hn (make_index junk v) (make_ne_zero junk v)

/-! ### Equidistribution -/

theorem finrank_S : Module.finrank (ZMod 2) (State P32) = 19937 := MT.dimension.1

theorem O_surj (y : BitVec 32) : ∃ s : State P32, O s = bits y := by
  obtain ⟨u, hu⟩ := MT.temper32_bijective.2 y
  obtain ⟨s, hs⟩ := newest_surjective P32_ok (by decide) (Wd.of u)
  refine ⟨s, ?_⟩
  show bits (MT.temper32 (newWord s)) = _
  have : newWord s = u := congrArg Wd.val hs
  rw [this, hu]

/-- The highest bit is equidistributed in dimension 19937. -/
theorem equidist_1 {n : ℕ} (hn : n = 19937) : Equidist (T P32) O ⊤ 1 n := by
  refine equidist_one (by omega) (finrank_S.trans hn.symm) (fun x hx y hy => ?_) ?_
  · exact (orbit_surj (by omega) (finrank_S.trans hn.symm) (GF2.MT32.primitive hn)
      (aeval_charPoly P32_ok (by decide) (by decide) (by decide)) hx hy).imp fun _ h => h.2
  · obtain ⟨s, hs⟩ := O_surj 0x80000000
    refine ⟨s, ?_⟩
    rw [hs]
    decide

theorem exists_word (w : ℕ) (f : ℕ → Bool) : ∃ y : BitVec w, ∀ i, i < w → y.getMsbD i = f i := by
  induction w generalizing f with
  | zero => exact ⟨0, fun i hi => by omega⟩
  | succ w ih =>
    obtain ⟨y, hy⟩ := ih fun i => f (i + 1)
    refine ⟨BitVec.cons (f 0) y, fun i hi => ?_⟩
    rw [BitVec.getMsbD_eq_getLsbD, BitVec.getLsbD_cons]
    rcases i with _ | i
    · simp
    · have := hy i (by omega)
      rw [BitVec.getMsbD_eq_getLsbD, decide_eq_true (show i < w by omega), Bool.true_and] at this
      rw [if_neg (by omega), ← this, decide_eq_true hi, Bool.true_and]
      congr 1; omega

/-- Words with prescribed bits. -/
theorem exists_bits (a : V) : ∃ y : BitVec 32, ∀ i, i < 32 → bits y i = a i := by
  obtain ⟨y, hy⟩ := exists_word 32 fun i => decide (a i = 1)
  have key : ∀ z : ZMod 2, (if (decide (z = 1)) = true then (1 : ZMod 2) else 0) = z := by decide
  refine ⟨y, fun i hi => ?_⟩
  unfold bits
  rw [hy i hi]
  exact key _

/-- The words are equidistributed in dimension 623 with full accuracy. -/
theorem equidist_32 : Equidist (T P32) O ⊤ 32 623 := by
  intro a
  choose y hy using fun t => exists_bits (a t)
  choose u hu using fun t => MT.temper32_bijective.2 (y t)
  have hb : ∀ k, Function.Surjective ((T P32 ^ k : State P32 →ₗ[ZMod 2] State P32)) := fun k => by
    rw [Module.End.coe_pow]
    exact Function.Surjective.iterate ((Finite.injective_iff_surjective (f := T P32)).1
      (T_injective P32_ok (by decide) (by decide))) k
  obtain ⟨s, hs⟩ := hb 623 ((0, fun j => Wd.of (u j)) : State P32)
  obtain ⟨x, hx, e⟩ := exists_seqState P32_ok s
  refine ⟨s, trivial, fun t ht i hi => ?_⟩
  have h1 : newWord ((T P32 ^ t) s) = x (t + 624) := by
    rw [← e, T_pow_seqState P32_ok hx, newWord_seqState P32_ok, ← hx, Nat.zero_add]
    rfl
  have h2 : x (t + 624) = u t := by
    rw [← e, T_pow_seqState P32_ok hx] at hs
    have := congrArg (fun q : State P32 => (q.2 ⟨t, ht⟩).val) hs
    have h3 : x (0 + 623 + 1 + t) = u t := this
    rw [← h3]; congr 1; omega
  show bits (MT.temper32 (newWord ((T P32 ^ t) s))) i = _
  rw [h1, h2, hu]
  exact hy t i hi

theorem den_surjective (y : State P32) : ∃ s : St, s.index < 624 ∧ den s = y := by
  obtain ⟨x, -, e⟩ := exists_seqState P32_ok y
  refine ⟨⟨623, x⟩, by show 623 < 624; omega, ?_⟩
  rw [← e]
  refine MTDC.den_seqState (n := 624) (r := 31) (p := MTDC.par (toSt ⟨623, x⟩)) (x := x) (fun j hj => ?_)
    (by omega)
  show x ((623 + (j + 1)) % 624) = x j
  rw [show (623 + (j + 1)) % 624 = j by omega]

/-- Specification: the `v` highest bits are equidistributed in dimension `k`, in terms of returned values: for
any prescribed words there is a state of the generator from which the `v` highest bits of the first `k`
results are those of the prescribed words. -/
def Dist (v k : ℕ) : Prop :=
  ∀ a : ℕ → BitVec 32, ∃ s : St, s.index < 624 ∧
    ∀ t, t < k → ∀ i, i < v → (stream generate s t).getMsbD i = (a t).getMsbD i

theorem dist_iff {v : ℕ} (hv : v ≤ 32) (k : ℕ) : Dist v k ↔ Equidist (T P32) O ⊤ v k := by
  have key : ∀ s : St, s.index < 624 → ∀ t, bits (stream generate s t) = O ((T P32 ^ t) (den s)) :=
    fun s hs t => by rw [stream_spec hs]; rfl
  constructor
  · intro h a
    choose y hy using fun t => exists_bits (a t)
    obtain ⟨s, hs, h1⟩ := h y
    refine ⟨den s, trivial, fun t ht i hi => ?_⟩
    rw [← key s hs, ← hy t i (by omega)]
    unfold bits
    rw [h1 t ht i hi]
  · intro h a
    obtain ⟨q, -, hq⟩ := h fun t => bits (a t)
    obtain ⟨s, hs, rfl⟩ := den_surjective q
    refine ⟨s, hs, fun t ht i hi => ?_⟩
    have := hq t ht i hi
    rw [← key s hs] at this
    exact b2z_inj this

/-- **C85.**  `main` of mt1.cpp, for any contents of the memory and any fuel that is large enough: the
calculation succeeds; the numbers printed in line `v` are `v`, the largest `k` such that the `v` highest bits are
equidistributed in dimension `k`, and the dimension defect; delta is the sum of the defects. -/
theorem main_correct (junk : St) (junkVeq : ℕ → ℕ) {fuel : ℕ} (hfuel : 32 * (33 * 19937) + 33 ≤ fuel) :
    ∃ k : ℕ → ℕ, (∀ v, 1 ≤ v → v ≤ 32 → IsGreatest {k | Dist v k} (k v)) ∧
      main junk junkVeq fuel = some
        ((List.range 32).map fun i => (i + 1, k (i + 1), ((19937 / (i + 1) : ℕ) : ℤ) - (k (i + 1) : ℤ)),
          ∑ v ∈ Finset.Icc 1 32, (((19937 / v : ℕ) : ℤ) - (k v : ℤ))) := by
  obtain ⟨hm, h0, hd⟩ := charpoly_hyps (T P32) (den (make junk 1))
  rw [finrank_S] at hd
  obtain ⟨r, e1, e2, _, e4⟩ := getAllEquidist_correct linGen (make_index junk 1) hm h0
    (by rw [hd]; show 19937 ≤ 2 * 19937 + 1; omega) (stateBitSize := 19937) (by omega) Util.isCalc1pos_32
    (bitLen := 32) (by omega) (by omega) (fuel := fuel) (by rw [hd]; omega) junkVeq
  obtain ⟨n, hn⟩ : ∃ n, n = 19937 := ⟨_, rfl⟩
  have hc : cyc (T P32) (den (make junk 1)) = ⊤ := by
    refine Search.cyc_top (n := n) (by omega) (finrank_S.trans hn.symm) (make_ne_zero junk 1) fun k => ?_
    exact Search.period_of_primitive (by omega) (GF2.MT32.primitive hn)
      (aeval_charPoly P32_ok (by decide) (by decide) (by decide) _) (make_ne_zero junk 1) k
  rw [hc] at e2
  refine ⟨fun v => r.veq (v - 1), fun v h1 h2 => ?_, ?_⟩
  · have := e2 v h1 h2
    simp only [dist_iff h2]
    exact this
  · unfold main
    rw [e1]
    simp only [e4, Nat.add_sub_cancel]

/-- **C85.**  What is known of the numbers `k(v)` without running the program: `k(1) = 19937` and
`k(32) = 623`, both with defect 0, and always `623 ≤ k(v) ≤ 19937 / v`, so that no defect is negative. -/
theorem dimensions {k : ℕ → ℕ} (h : ∀ v, 1 ≤ v → v ≤ 32 → IsGreatest {k | Dist v k} (k v)) :
    k 1 = 19937 ∧ k 32 = 623 ∧ ∀ v, 1 ≤ v → v ≤ 32 → 623 ≤ k v ∧ k v ≤ 19937 / v := by
  have hall : ∀ v, 1 ≤ v → v ≤ 32 → 623 ≤ k v ∧ k v ≤ 19937 / v := by
    intro v h1 h2
    constructor
    · exact (h v h1 h2).2 ((dist_iff h2 _).2 (equidist_mono equidist_32 h2 le_rfl))
    · rw [Nat.le_div_iff_mul_le (by omega)]
      exact equidist_le finrank_S ((dist_iff h2 _).1 (h v h1 h2).1)
  refine ⟨?_, ?_, hall⟩
  · have h1 : 19937 ≤ k 1 := (h 1 (by omega) (by omega)).2 ((dist_iff (by omega) _).2 (equidist_1 rfl))
    have h2 := (hall 1 (by omega) (by omega)).2
    omega
  · have := hall 32 (by omega) (by omega)
    omega

/-! ### `isZero` -/

theorem isZero_eq (s : St) : isZero s = MTDC.isZero (toSt s) := by
  simp only [isZero, MTDC.isZero, toSt, Nat.reduceSub]
  rfl

/-- What `isZero` really tests: the highest bit of the newest word and all bits of all the others. -/
theorem isZero_iff {s : St} (hs : s.index < 624) : isZero s = true ↔
    hi 31 (MTDC.words 624 (toSt s) 623) = 0 ∧ ∀ j, j < 623 → MTDC.words 624 (toSt s) j = 0 := by
  rw [isZero_eq]
  exact MTDC.isZero_iff (toSt_inv hs)

/-- An array with one non-zero word. -/
def badArr (i : ℕ) : BitVec 32 := if i = 0 then 1 else 0

/-- **C85.**  As in mt2.cpp, `isZero` looks at the wrong bits: it returns true for an object with a non-zero
state (period `2^19937-1`), and false for an object all of whose results are zero. -/
theorem isZero_wrong :
    (isZero ⟨0, badArr⟩ = true ∧ ∀ n, n = 19937 → HasPeriod (stream generate ⟨0, badArr⟩) (2 ^ n - 1)) ∧
    (isZero ⟨623, badArr⟩ = false ∧ ∀ k, stream generate ⟨623, badArr⟩ k = 0) := by
  have w0 : ∀ j, MTDC.words 624 (toSt ⟨0, badArr⟩) j = badArr ((0 + (j + 1)) % 624) := fun j => rfl
  have w1 : ∀ j, MTDC.words 624 (toSt ⟨623, badArr⟩) j = badArr ((623 + (j + 1)) % 624) := fun j => rfl
  refine ⟨⟨?_, fun n hn => period hn (by show 0 < 624; omega) ?_⟩, ?_, fun k => ?_⟩
  · rw [isZero_iff (by show 0 < 624; omega)]
    refine ⟨?_, fun j hj => ?_⟩
    · rw [w0]; decide
    · rw [w0, show (0 + (j + 1)) % 624 = j + 1 by omega]; exact if_neg (by omega)
  · intro hz
    have hf : (622 : ℕ) < P32.n - 1 := by show 622 < 623; omega
    have h1 : ∀ j : Fin (P32.n - 1), MTDC.words 624 (toSt ⟨0, badArr⟩) (1 + j) = 0 := fun j =>
      congrArg (fun q : State P32 => (q.2 j).val) hz
    have h2 := h1 ⟨622, hf⟩
    rw [w0] at h2
    dsimp only at h2
    exact absurd h2 (by decide)
  · rw [← Bool.not_eq_true, isZero_iff (by show 623 < 624; omega)]
    intro h
    have := h.2 0 (by omega)
    rw [w1] at this
    exact absurd this (by decide)
  · have hz : den ⟨623, badArr⟩ = 0 := by
      apply Prod.ext
      · apply Wd.ext
        show hi 31 (MTDC.words 624 (toSt ⟨623, badArr⟩) 0) = 0
        rw [w1]; decide
      · funext j
        apply Wd.ext
        have hj : (j : ℕ) < 623 := j.2
        show MTDC.words 624 (toSt ⟨623, badArr⟩) (1 + j) = 0
        rw [w1, show (623 + (1 + (j : ℕ) + 1)) % 624 = j + 1 by omega]; exact if_neg (by omega)
    rw [stream_spec (by show 623 < 624; omega), hz, map_zero]
    have : newWord (0 : State P32) = 0 := congrArg Wd.val (map_zero (newest P32))
    rw [this]
    exact MT.temper32_zero

/-! ### Non-vacuity -/

/-- The first results for the seed 5489 are those of the reference implementation. -/
example : stream generate (make ⟨0, 0⟩ 5489) 0 = 3499211612 := by decide +kernel

/-- Dimension 624 is too much at full accuracy. -/
example : ¬ Dist 32 624 := fun h => by
  have := equidist_le finrank_S ((dist_iff le_rfl _).1 h)
  omega

end MTT.MT1
