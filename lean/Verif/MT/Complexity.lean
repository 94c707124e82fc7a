import Verif.MT.OtherCount
import Mathlib.FieldTheory.Finite.Basic

/-!
# C133: the linear complexity of the Mersenne Twister outputs

Nothing new is modelled (C14, C16, C78).  `IsSeqMinpoly` is the specification of C32.
-/

namespace MTT.MT

open MTRec Polynomial Finset

/-- Sum modulo 2 (XOR) of the bits of `x` that the mask `c` selects. -/
def maskBit {w : ℕ} (c x : BitVec w) : ZMod 2 := ∑ i ∈ range w, if (c &&& x).getLsbD i then 1 else 0

/-! ## Helpers -/

theorem maskBit_xor {w : ℕ} (c x y : BitVec w) : maskBit c (x ^^^ y) = maskBit c x + maskBit c y := by
  unfold maskBit
  rw [← sum_add_distrib]
  refine sum_congr rfl fun i _ => ?_
  rw [BitVec.getLsbD_and, BitVec.getLsbD_and, BitVec.getLsbD_and, BitVec.getLsbD_xor]
  cases c.getLsbD i <;> cases x.getLsbD i <;> cases y.getLsbD i <;> decide

/-- Some word with one bit has a non-zero sum. -/
theorem maskBit_exists {w : ℕ} {c : BitVec w} (hc : c ≠ 0) : ∃ u, u ≠ 0 ∧ maskBit c u ≠ 0 := by
  obtain ⟨i, hi, hci⟩ : ∃ i, i < w ∧ c.getLsbD i = true := by
    by_contra h
    push Not at h
    apply hc
    apply BitVec.eq_of_getLsbD_eq
    intro i hi
    have := h i hi
    simp only [Bool.not_eq_true] at this
    rw [this]
    simp
  have key : maskBit c (BitVec.twoPow w i) = 1 := by
    unfold maskBit
    rw [sum_eq_single i]
    · rw [if_pos]
      rw [BitVec.getLsbD_and, hci, BitVec.getLsbD_twoPow]
      simp [hi]
    · intro j _ hj
      rw [if_neg]
      rw [BitVec.getLsbD_and, BitVec.getLsbD_twoPow]
      have : ¬ i = j := fun h => hj h.symm
      simp [this]
    · intro h; exact absurd (mem_range.2 hi) h
  refine ⟨_, ?_, by rw [key]; decide⟩
  intro h0
  rw [h0] at key
  have : maskBit c (0 : BitVec w) = 0 := by
    unfold maskBit
    exact sum_eq_zero fun j _ => by simp
  rw [this] at key
  exact absurd key (by decide)

/-- What annihilates the state annihilates every linear observation. -/
theorem ann_obs {S : Type} [AddCommGroup S] [Module (ZMod 2) S] {T : S →ₗ[ZMod 2] S} {p : (ZMod 2)[X]} (O : S →ₗ[ZMod 2] ZMod 2) {s : S}
    (h : aeval T p s = 0) : Ann p fun k => O ((T ^ k) s) := by
  intro i
  have e : O ((T ^ i) (aeval T p s)) = ∑ j ∈ range (p.natDegree + 1), p.coeff j * O ((T ^ (i + j)) s) := by
    rw [aeval_eq_sum_range, LinearMap.sum_apply, map_sum, map_sum]
    refine sum_congr rfl fun j _ => ?_
    rw [LinearMap.smul_apply, map_smul, map_smul, smul_eq_mul, pow_add, Module.End.mul_apply]
  rw [← e, h, map_zero, map_zero]

theorem Ann.add {p : (ZMod 2)[X]} {a b : BitSeq} (ha : Ann p a) (hb : Ann p b) : Ann p fun k => a k + b k := by
  rw [ann_iff] at *
  show aeval shiftOp p (a + b) = 0
  rw [map_add, ha, hb, add_zero]

theorem Ann.shift {p : (ZMod 2)[X]} {a : BitSeq} (ha : Ann p a) (t : ℕ) : Ann p fun k => a (t + k) := by
  intro i
  have := ha (t + i)
  simpa only [Nat.add_assoc] using this

/-- Every second element satisfies the same recurrence, as `p(X^2) = p(X)^2`. -/
theorem Ann.double {p : (ZMod 2)[X]} {a : BitSeq} (ha : Ann p a) : Ann p fun k => a (2 * k) := by
  have h1 : Ann (p ^ 2) a := ha.of_dvd (dvd_pow_self p (by norm_num))
  rw [ann_iff, ← ZMod.expand_card, expand_aeval] at h1
  intro i
  have h2 := congrFun h1 (2 * i)
  rw [aeval_eq_sum_range, LinearMap.sum_apply, Finset.sum_apply] at h2
  refine Eq.trans (sum_congr rfl fun j _ => ?_) h2
  rw [LinearMap.smul_apply, Pi.smul_apply, ← pow_mul, shiftOp_pow, smul_eq_mul, ← Nat.mul_add]

theorem isSeqMinpoly_of {p : (ZMod 2)[X]} (hp : Irreducible p) {a : BitSeq} (h : Ann p a) {k : ℕ} (hk : a k ≠ 0) : IsSeqMinpoly p a := by
  refine ⟨hp.ne_zero, h, fun q hq => ?_⟩
  have hg := h.gcd hq
  rcases hp.dvd_iff.1 (EuclideanDomain.gcd_dvd_left p q) with hu | hu
  · exfalso
    have h1 : Ann 1 a := hg.of_dvd hu.dvd
    have := h1 k
    simp at this
    exact hk this
  · exact hu.dvd.trans (EuclideanDomain.gcd_dvd_right p q)

/-- A mask of the tempered words as a linear function of the words. -/
def maskOf {w : ℕ} (temper : BitVec w → BitVec w) (ht : ∀ x y, temper (x ^^^ y) = temper x ^^^ temper y) (c : BitVec w) :
    Wd w →ₗ[ZMod 2] ZMod 2 :=
  linOf (fun v => maskBit c (temper v.val)) fun u v => by
    show maskBit c (temper (u.val ^^^ v.val)) = _
    rw [ht, maskBit_xor]

theorem ann_words {w : ℕ} {P : MTPar w} (hP : P.OK) (hr1 : 1 ≤ P.r) (hm2 : 2 ≤ P.m) (ha : P.a.getLsbD (w - 1) = true) {x : ℕ → BitVec w}
    (hx : IsSeq P x) {temper : BitVec w → BitVec w} (ht : ∀ x y, temper (x ^^^ y) = temper x ^^^ temper y) (c : BitVec w) :
    Ann (charPoly P) fun k => maskBit c (temper (x (P.n + k))) := by
  have := ann_obs (maskOf temper ht c ∘ₗ newest P) (aeval_charPoly hP hr1 hm2 ha (seqState P x 0))
  have e : (fun k => (maskOf temper ht c ∘ₗ newest P) ((T P ^ k) (seqState P x 0))) = fun k => maskBit c (temper (x (P.n + k))) := by
    funext k
    rw [T_pow_seqState hP hx, LinearMap.comp_apply, newest_seqState hP hx, Nat.zero_add, Nat.add_comm k]
    rfl
  rwa [e] at this

theorem met {α : Type} {y : ℕ → α} {p d m : ℕ} {v : ℕ → α} (hd : 0 < d) (h : occurrences (fun k => y (0 + k)) p d v = m) (hm : m ≠ 0) :
    ∃ k, y k = v 0 := by
  by_contra hc
  push Not at hc
  apply hm
  rw [← h]
  unfold occurrences
  have : IsEmpty {k : ℕ // k < p ∧ ∀ j, j < d → y (0 + (k + j)) = v j} := ⟨fun k => hc _ (k.2.2 0 hd)⟩
  exact Nat.card_of_isEmpty

theorem maskBit_append (c : BitVec 64) (a b : BitVec 32) :
    maskBit c (a ++ b) = maskBit (c.extractLsb' 32 32) a + maskBit (c.extractLsb' 0 32) b := by
  unfold maskBit
  refine (sum_range_add (fun i => if (c &&& (a ++ b)).getLsbD i then (1 : ZMod 2) else 0) 32 32).trans ?_
  rw [add_comm]
  refine congrArg₂ (· + ·) (sum_congr rfl fun i hi => ?_) (sum_congr rfl fun i hi => ?_)
  · have hi := mem_range.1 hi
    rw [BitVec.getLsbD_and, BitVec.getLsbD_and, BitVec.getLsbD_append, BitVec.getLsbD_extractLsb']
    simp [hi]
  · have hi := mem_range.1 hi
    rw [BitVec.getLsbD_and, BitVec.getLsbD_and, BitVec.getLsbD_append, BitVec.getLsbD_extractLsb']
    simp [hi]

theorem setWidth_eq_append (a : BitVec 32) : a.setWidth 64 = (0 : BitVec 32) ++ a := by
  apply BitVec.eq_of_getLsbD_eq
  intro i hi
  rw [BitVec.getLsbD_append, BitVec.getLsbD_setWidth]
  by_cases h : i < 32
  · simp [h, hi]
  · simp [h, BitVec.getLsbD_of_ge a i (by omega)]

theorem maskBit_zero {w : ℕ} (c : BitVec w) : maskBit c 0 = 0 := by
  unfold maskBit
  exact sum_eq_zero fun j _ => by simp

theorem maskBit_setWidth (c : BitVec 64) (a : BitVec 32) : maskBit c (a.setWidth 64) = maskBit (c.extractLsb' 0 32) a := by
  rw [setWidth_eq_append, maskBit_append, maskBit_zero, zero_add]

theorem low_ne_zero {c : BitVec 64} (h : c.setWidth 32 ≠ 0) : c.extractLsb' 0 32 ≠ 0 := by
  intro h0
  apply h
  rw [← h0]
  apply BitVec.eq_of_getLsbD_eq
  intro i hi
  rw [BitVec.getLsbD_extractLsb', BitVec.getLsbD_setWidth]
  simp

theorem complexity32 {n : ℕ} (hn : n = 19937) {s : St 32} {o : Op 32} (ho : o.IsSeed) (hv : o.Valid) {y z : ℕ → BitVec 64}
    (h : Delivers step32 s o .getNative y) (k : Delivers step32 s o .getOther z) (c : BitVec 64) :
    (c.setWidth 32 ≠ 0 → IsSeqMinpoly (charPoly P32) fun j => maskBit c (y j)) ∧
    (c ≠ 0 → IsSeqMinpoly (charPoly P32) fun j => maskBit c (z j)) := by
  have hirr := Primitive2.irreducible (by omega) (GF2.MT32.primitive hn)
  obtain ⟨x, hx, h0, d1, d2⟩ := seeded32 s o ho hv
  have ann := fun c => ann_words P32_ok (by decide) (by decide) (by decide) hx temper32_linear c
  constructor
  · intro hc
    obtain ⟨y1, hy1, q⟩ := count32 hn s o ho hv
    obtain ⟨u, hu, hu'⟩ := maskBit_exists (low_ne_zero hc)
    obtain ⟨i, hi⟩ := met (v := fun _ => u) (by norm_num) ((q 0 fun _ => u).1 ⟨0, by norm_num, hu⟩) (by norm_num)
    refine isSeqMinpoly_of hirr (k := i) ?_ ?_
    · obtain rfl := delivers_unique h d1
      simp only [maskBit_setWidth]
      exact ann _
    · obtain rfl := delivers_unique h hy1
      dsimp only at hi ⊢
      rw [hi, maskBit_setWidth]
      exact hu'
  · intro hc
    obtain ⟨z1, hz1, q⟩ := other_count32 hn s o ho hv
    obtain rfl := delivers_unique k hz1
    obtain ⟨u, hu, hu'⟩ := maskBit_exists hc
    obtain ⟨i, hi⟩ := met (v := fun _ => u) (by norm_num) ((q 0 fun _ => u).1 ⟨0, by norm_num, hu⟩) (by norm_num)
    refine isSeqMinpoly_of hirr (k := i) ?_ ?_
    · obtain rfl := delivers_unique k d2
      simp only [maskBit_append]
      refine Ann.add (Ann.double (a := fun k => maskBit _ (temper32 (x (624 + k)))) (ann _))
        (Ann.double (a := fun k => maskBit _ (temper32 (x (624 + (k + 1))))) ?_)
      have := Ann.shift (ann (c.extractLsb' 0 32)) 1
      simp only [Nat.add_comm 1] at this
      exact this
    · rw [hi]
      exact hu'

theorem complexity64 {n : ℕ} (hn : n = 19937) {s : St 64} {o : Op 64} (ho : o.IsSeed) (hv : o.Valid) {y z : ℕ → BitVec 64}
    (h : Delivers step64 s o .getNative y) (k : Delivers step64 s o .getOther z) (c : BitVec 64) :
    (c ≠ 0 → IsSeqMinpoly (charPoly P64) fun j => maskBit c (y j)) ∧
    (c.setWidth 32 ≠ 0 → IsSeqMinpoly (charPoly P64) fun j => maskBit c (z j)) := by
  have hirr := Primitive2.irreducible (by omega) (GF2.MT64.primitive hn)
  obtain ⟨x, hx, h0, d1, d2⟩ := seeded64 s o ho hv
  have ann := fun c => ann_words P64_ok (by decide) (by decide) (by decide) hx temper64_linear c
  constructor
  · intro hc
    obtain ⟨y1, hy1, q⟩ := count64 hn s o ho hv
    obtain rfl := delivers_unique h hy1
    obtain ⟨u, hu, hu'⟩ := maskBit_exists hc
    obtain ⟨i, hi⟩ := met (v := fun _ => u) (by norm_num) ((q 0 fun _ => u).1 ⟨0, by norm_num, hu⟩) (by norm_num)
    refine isSeqMinpoly_of hirr (k := i) ?_ ?_
    · obtain rfl := delivers_unique h d1
      exact ann c
    · rw [hi]
      exact hu'
  · intro hc
    obtain ⟨z1, hz1, q⟩ := other_count64 hn s o ho hv
    obtain ⟨u, hu, hu'⟩ := maskBit_exists (low_ne_zero hc)
    obtain ⟨i, hi⟩ := met (v := fun _ => u) (by norm_num) ((q 0 fun _ => u).1 ⟨0, by norm_num, hu⟩)
      (Nat.mul_ne_zero (by norm_num) (pow_ne_zero _ (by norm_num)))
    refine isSeqMinpoly_of hirr (k := i) ?_ ?_
    · obtain rfl := delivers_unique k d2
      have e : ∀ j, maskBit c (((temper64 (x (312 + j))).extractLsb' 32 32).setWidth 64) =
          maskBit (c.extractLsb' 0 32 ++ (0 : BitVec 32)) (temper64 (x (312 + j))) := fun j => by
        rw [maskBit_setWidth]
        conv_rhs => rw [← append_halves (temper64 (x (312 + j))), maskBit_append, upper_append, lower_append]
        unfold maskBit
        simp
      simp only [e]
      exact ann _
    · obtain rfl := delivers_unique k hz1
      dsimp only at hi ⊢
      rw [hi, maskBit_setWidth]
      exact hu'

/-- A relation between elements of a sequence at the places of a finite set. -/
theorem relation_iff {p : (ZMod 2)[X]} {a : BitSeq} (h : IsSeqMinpoly p a) (S : Finset ℕ) :
    (∀ k, ∑ j ∈ S, a (k + j) = 0) ↔ p ∣ ∑ j ∈ S, X ^ j := by
  have e : Ann (∑ j ∈ S, X ^ j) a ↔ ∀ k, ∑ j ∈ S, a (k + j) = 0 := by
    rw [ann_iff, map_sum, LinearMap.sum_apply, funext_iff]
    refine forall_congr' fun k => ?_
    rw [Finset.sum_apply]
    simp only [map_pow, aeval_X, shiftOp_pow]
    rfl
  rw [← e]
  exact ⟨h.2.2 _, h.2.1.of_dvd⟩

theorem short_relation {p : (ZMod 2)[X]} {a : BitSeq} (h : IsSeqMinpoly p a) {S : Finset ℕ} (hS : S.Nonempty)
    (hlt : ∀ j ∈ S, j < p.natDegree) : ∃ k, ∑ j ∈ S, a (k + j) ≠ 0 := by
  by_contra hc
  push Not at hc
  have hd := (relation_iff h S).1 hc
  obtain ⟨i, hi⟩ := hS
  have hne : (∑ j ∈ S, X ^ j : (ZMod 2)[X]) ≠ 0 := by
    intro h0
    have := congrArg (fun q => coeff q i) h0
    simp [coeff_X_pow, hi] at this
  have h1 := natDegree_le_of_dvd hd hne
  have h2 : (∑ j ∈ S, X ^ j : (ZMod 2)[X]).natDegree < p.natDegree := by
    refine lt_of_le_of_lt (natDegree_sum_le_of_forall_le S _ (n := p.natDegree - 1) fun j hj => ?_) ?_
    · rw [natDegree_X_pow]; have := hlt j hj; omega
    · have := hlt i hi; omega
  omega

/-! ## C133 -/

/-- **C133.**  There is one irreducible polynomial of degree 19937 that is the minimal polynomial of every sum (XOR) of chosen bits of the
`getUint32` and of the `getUint64` results of `MersenneTwister`, after every legal seeding. -/
theorem mt19937_complexity : ∃ f : (ZMod 2)[X], f.natDegree = 19937 ∧ Irreducible f ∧
    ∀ (s : St 32) (o : Op 32), o.IsSeed → o.Valid → ∀ y z : ℕ → BitVec 64,
      Delivers step32 s o .getNative y → Delivers step32 s o .getOther z → ∀ c : BitVec 64,
        (c.setWidth 32 ≠ 0 → IsSeqMinpoly f fun j => maskBit c (y j)) ∧ (c ≠ 0 → IsSeqMinpoly f fun j => maskBit c (z j)) :=
  ⟨charPoly P32, (GF2.MT32.primitive rfl).1, Primitive2.irreducible (by norm_num) (GF2.MT32.primitive rfl),
    fun _ _ ho hv _ _ h k c => complexity32 rfl ho hv h k c⟩

/-- **C133.**  The same for `MersenneTwister64`. -/
theorem mt19937_64_complexity : ∃ f : (ZMod 2)[X], f.natDegree = 19937 ∧ Irreducible f ∧
    ∀ (s : St 64) (o : Op 64), o.IsSeed → o.Valid → ∀ y z : ℕ → BitVec 64,
      Delivers step64 s o .getNative y → Delivers step64 s o .getOther z → ∀ c : BitVec 64,
        (c ≠ 0 → IsSeqMinpoly f fun j => maskBit c (y j)) ∧ (c.setWidth 32 ≠ 0 → IsSeqMinpoly f fun j => maskBit c (z j)) :=
  ⟨charPoly P64, (GF2.MT64.primitive rfl).1, Primitive2.irreducible (by norm_num) (GF2.MT64.primitive rfl),
    fun _ _ ho hv _ _ h k c => complexity64 rfl ho hv h k c⟩

/-- **C133.**  In other words: no sum of chosen bits satisfies a relation within 19937 consecutive results of `getUint32` for all times. -/
theorem mt19937_no_short_relation {s : St 32} {o : Op 32} (ho : o.IsSeed) (hv : o.Valid) {y : ℕ → BitVec 64}
    (h : Delivers step32 s o .getNative y) {c : BitVec 64} (hc : c.setWidth 32 ≠ 0) {S : Finset ℕ} (hS : S.Nonempty)
    (hlt : ∀ j ∈ S, j < 19937) : ∃ k, ∑ j ∈ S, maskBit c (y (k + j)) ≠ 0 := by
  obtain ⟨f, hd, -, H⟩ := mt19937_complexity
  obtain ⟨z, hz, -⟩ := mt19937_period_getUint64 s o ho hv
  exact short_relation ((H s o ho hv y z h hz c).1 hc) hS (by rw [hd]; exact hlt)

/-- The hypotheses can be met: the lowest bits of the default generator. -/
example (s : St 32) : ∃ y, Delivers step32 s (.seed 5489) .getNative y ∧ ∃ k, maskBit 1 (y k) + maskBit 1 (y (k + 19936)) ≠ 0 := by
  obtain ⟨y, hy, -⟩ := mt19937_period s (.seed 5489) trivial trivial
  obtain ⟨k, hk⟩ := mt19937_no_short_relation (o := .seed 5489) trivial trivial hy (c := 1) (by decide) (S := {0, 19936}) ⟨0, by simp⟩
    (by simp)
  refine ⟨y, hy, k, ?_⟩
  rwa [sum_pair (by norm_num)] at hk

end MTT.MT
