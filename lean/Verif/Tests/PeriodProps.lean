import Verif.Tests.PeriodLemmas

/-!
# What `test_period` prints and returns (C92)
-/

namespace MTT.Tests

open PIS Polynomial Search TinyRef GF2

variable {mps : MPS}

theorem coord_ne {S : Type} [AddCommGroup S] [Module (ZMod 2) S] {w : ℕ} {O : S →ₗ[ZMod 2] V} {y : S} {b : V} (h : O y = b)
    (hb : b (w - 1) ≠ 0) : coord w 0 O y ≠ 0 := by
  rw [← h] at hb
  exact hb

/-! ## The generators of the test -/

/-- **C92.**  `minpoly` of `Tiny32(seed)`, whatever the seed is, is a primitive polynomial of degree `bitSize()`. -/
theorem tiny32_minpoly (hm : MinPolySeqSpec mps) (seed : BitVec 32) : ∃ q, mp mps t32Ops (tiny32 seed) = some q ∧ Primitive2 q 127 := by
  have hp : HasTiny32 (tiny32 seed) := (tiny_constructed seed 0).1.1
  have hT := ann_t32
  rw [← T32_eq hp] at hT
  have h0 : den32 (tiny32 seed) ≠ 0 := fun h => (tiny_constructed seed 0).1.2 ((den32_eq_zero _).1 h)
  refine mp_primitive hm (t32_linGen (tiny32 seed)) ⟨rfl, rfl, rfl, rfl⟩ (by decide) (by decide) TinyMT.finrank_S rfl prim_t32 hT
    (y := (0, 0, 0, Wd.of 1)) ?_ h0
  have h := (TinyMT.f_par (p := ⟨0, 0, 0, 0, 0, 0x8f7011ee, 0xfc78ff1f, 0x3793fdff, false⟩) (s := (tiny32 seed).obj)
    ⟨hp.1, hp.2.1, hp.2.2, rfl⟩).2.2
  refine coord_ne (b := bits (TinyMT.fo ⟨0, 0, 0, 0, 0, 0x8f7011ee, 0xfc78ff1f, 0x3793fdff, false⟩ (0, 0, 0, Wd.of 1))) ?_ (by decide)
  rw [← h]; rfl

/-- **C92.**  The same for `Tiny64(seed)`. -/
theorem tiny64_minpoly (hm : MinPolySeqSpec mps) (seed : BitVec 64) : ∃ q, mp mps t64Ops (tiny64 seed) = some q ∧ Primitive2 q 127 := by
  have hp : HasTiny64 (tiny64 seed) := (tiny_constructed 0 seed).2.1
  have h0 : den64 (tiny64 seed) ≠ 0 := fun h => (tiny_constructed 0 seed).2.2 ((den64_eq_zero _).1 h)
  exact mp_primitive hm (t64_linGen ⟨0, 0, 0xfa051f40, 0xffd0fff4, 0x58d02ffeffbfffbc⟩) ⟨hp.1, hp.2.1, hp.2.2⟩ (by decide) (by decide)
    finrank_S64 rfl prim_t64 ann_t64 (y := (0, Wd.of 1))
    (coord_ne (b := bits (gout ⟨0, 0, 0xfa051f40, 0xffd0fff4, 0x58d02ffeffbfffbc⟩ (0, Wd.of 1))) rfl (by decide)) h0

theorem rtDen_ne (p : RTPar) (v : BitVec 32) : rtDen (rtNew p v) ≠ 0 := by
  intro h
  rw [rtDen_eq_zero] at h
  have h1 := (rtSeed_good ⟨p, 0, 0, 0, 0⟩ ⟨p, 0, 0, 0, 0⟩ v v).1
  rw [Bool.eq_false_iff] at h1
  apply h1
  simp only [rtOps, Bool.and_eq_true, beq_iff_eq]
  exact ⟨⟨⟨h.1, h.2.1⟩, h.2.2.1⟩, h.2.2.2⟩

/-- **C92.**  The same for `RTiny32(seed)`, of degree 128. -/
theorem rtDefault_minpoly (hm : MinPolySeqSpec mps) (seed : BitVec 32) :
    ∃ q, mp mps rtOps (rtDefault seed) = some q ∧ Primitive2 q 128 :=
  mp_primitive hm (rtOps_linGen pA) rfl (by decide) (by decide) finrank_SR rfl primA annA (y := (0, Wd.of 1, 0, 0))
    (coord_ne (b := bits (1 : BitVec 32)) rfl (by decide)) (rtDen_ne _ _)

/-- **C92.**  The second object of `is_irreducible` has a reducible polynomial. -/
theorem rtB_minpoly (hm : MinPolySeqSpec mps) : ∃ q, mp mps rtOps (rtNew pB 1234) = some q ∧ ¬ Irreducible q := by
  obtain ⟨q, h1, h2⟩ := mp_spec hm (rtOps_linGen pB) (s := rtNew pB 1234) rfl (by decide) finrank_SR.le
  rw [seedB] at h2
  exact ⟨q, h1, reducibleB h2⟩

/-- **C92.**  The second object of `is_prime2` has an irreducible polynomial of degree 128 that is not primitive: the order of `X` divides
`(2^128-1)/3`. -/
theorem rtC_minpoly (hm : MinPolySeqSpec mps) : ∃ q, mp mps rtOps (rtNew pC 1234) = some q ∧ Irreducible q ∧ q.natDegree = 128 ∧
    q ∣ X ^ ((2 ^ 128 - 1) / 3) - 1 := by
  obtain ⟨q, h1, h2⟩ := mp_spec hm (rtOps_linGen pC) (s := rtNew pC 1234) rfl (by decide) finrank_SR.le
  rw [seedC] at h2
  have hq : bitPoly (128 + 1) 0x1329336deb793f729f175694216524775 = q := by
    rcases irrC.1.dvd_iff.1 (h2.2.2 _ (ann_outSeq _ _ annC)) with h | h
    · exfalso
      rw [isUnit_iff_one] at h
      have h3 := h2.2.1
      rw [h, ann_iff, map_one, Module.End.one_apply] at h3
      have h4 : (rtO ((rtT pC ^ 0) zC)) 31 = 0 := congrFun h3 0
      rw [pow_zero, Module.End.one_apply] at h4
      revert h4
      decide +kernel
    · exact eq_of_associated h
  refine ⟨q, h1, ?_, ?_, ?_⟩
  · rw [← hq]; exact irrC.1
  · rw [← hq]; exact irrC.2
  · rw [← hq]; exact ordC

/-- **C92.**  The first object of `has_factor`: the polynomial has degree at most 544 and a primitive factor of degree 521. -/
theorem rlD_minpoly (hm : MinPolySeqSpec mps) (junk : ℕ → BitVec 32) : ∃ q, mp mps rlOps (rlNew junk pD 1234) = some q ∧ q ≠ 0 ∧
    q.natDegree ≤ 544 ∧ bitPoly (521 + 1) FD ∣ q := by
  obtain ⟨q, h1, h2⟩ := mp_spec hm (rlOps_linGen pD) (s := rlNew junk pD 1234) rfl (by decide) finrank_SL.le
  obtain ⟨g1, g2, g3⟩ := charpoly_hyps (rlT pD) (rlDen (rlNew junk pD 1234))
  refine ⟨q, h1, h2.1, ?_, ?_⟩
  · have := natDegree_le_of_dvd (h2.2.2 _ (ann_outSeq _ _ g2)) g1.ne_zero
    rw [finrank_SL] at g3
    omega
  · rw [seedD] at h2
    exact dvd_of_out _ _ (Primitive2.irreducible (by decide) (primD rfl)) wD_eq wD_ann wD_out h2.2.1

theorem factor_small (L i j K H : ℕ) (hL : L ≤ 520) (hK : K.testBit i = true) (hH : H.testBit j = true) (hi : i < L) (hj : j < L) {g : (ZMod 2)[X]}
    (hg : Irreducible g) (h : g ∣ bitPoly L K * bitPoly L H) : g.natDegree < 521 := by
  have key : ∀ (i N : ℕ), N.testBit i = true → i < L → g ∣ bitPoly L N → g.natDegree < 521 := by
    intro i N hN hi h
    have hne : bitPoly L N ≠ 0 := by
      intro h0
      have h1 := bitPoly_coeff L N i
      rw [h0, coeff_zero, if_pos ⟨hi, hN⟩] at h1
      exact zero_ne_one h1
    have h1 := natDegree_le_of_dvd h hne
    have h2 : (bitPoly L N).natDegree ≤ L := by
      rw [natDegree_le_iff_coeff_eq_zero]
      intro m hm
      rw [bitPoly_coeff, if_neg (by omega)]
    omega
  rcases hg.prime.dvd_or_dvd h with h | h
  · exact key i K hK hi h
  · exact key j H hH hj h

theorem bitKE : KE.testBit 262 = true := by decide +kernel
theorem bitHE : HE.testBit 282 = true := by decide +kernel

/-- **C92.**  The second object of `has_factor`: no irreducible factor of degree 521. -/
theorem rlE_minpoly (hm : MinPolySeqSpec mps) (junk : ℕ → BitVec 32) : ∃ q, mp mps rlOps (rlNew junk pE 1234) = some q ∧
    q.natDegree ≤ 544 ∧ ∀ g, Irreducible g → g ∣ q → g.natDegree < 521 := by
  obtain ⟨q, h1, h2⟩ := mp_spec hm (rlOps_linGen pE) (s := rlNew junk pE 1234) (show (rlNew junk pE 1234).par = pE from rfl) (by decide) finrank_SL.le
  obtain ⟨g1, g2, g3⟩ := charpoly_hyps (rlT pE) (rlDen (rlNew junk pE 1234))
  refine ⟨q, h1, ?_, ?_⟩
  · have := natDegree_le_of_dvd (h2.2.2 _ (ann_outSeq _ _ g2)) g1.ne_zero
    rw [finrank_SL] at g3
    omega
  · intro g hg hd
    have hz := annE
    rw [← seedE junk] at hz
    have hK : KE.testBit 262 = true := bitKE
    have hH : HE.testBit 282 = true := bitHE
    generalize KE = K at hz hK
    generalize HE = H at hz hH
    exact factor_small 283 262 282 K H (by decide) hK hH (by decide) (by decide) hg (hd.trans (h2.2.2 _ (ann_outSeq _ _ hz)))

/-! ## The test -/

/-- **C92.**  For every implementation of `MinPolySeq` that meets its specification, and whatever was in the memory before, `test_period`
runs to its end, returns 0 and prints exactly this text. -/
theorem testPeriod_passes (hm : MinPolySeqSpec mps) (junk1 junk2 : ℕ → BitVec 32) (fuel : ℕ) (hf : 545 ≤ fuel) :
    testPeriod mps fuel junk1 junk2 = some ("testing period\ntesting period u32 ...ok\ntesting period u64 ...ok\n" ++
      "testing irreducible ...testing prime 2 ...ok\ntesting prime 2 ...has factor ...", 0) := by
  obtain ⟨q1, a1, b1⟩ := tiny32_minpoly hm 1234
  obtain ⟨q2, a2, b2⟩ := tiny64_minpoly hm 1234
  obtain ⟨q3, a3, b3⟩ := rtDefault_minpoly hm 1234
  obtain ⟨q4, a4, b4⟩ := rtB_minpoly hm
  obtain ⟨q5, a5, -, -, b5⟩ := rtC_minpoly hm
  obtain ⟨q6, a6, n6, d6, b6⟩ := rlD_minpoly hm junk1
  obtain ⟨q7, a7, d7, b7⟩ := rlE_minpoly hm junk2
  have i2 := Primitive2.irreducible (by decide) b2
  have e1 : periodU32 mps = some ("testing period u32 ...ok\n", true) := by
    unfold periodU32
    rw [a1]
    exact if_pos ((Period.deg_eq_iff (by decide)).2 b1.1)
  have e2 : periodU64 mps = some ("testing period u64 ...ok\n", true) := by
    unfold periodU64
    rw [a2]
    exact if_pos ((Period.deg_eq_iff (by decide)).2 b2.1)
  have e3 : irrTest mps = some ("testing irreducible ...", true) := by
    unfold irrTest
    rw [a2, a4]
    simp [Period.isIrreducible, i2, b4]
  have e4 : primeTest mps = some ("testing prime 2 ...ok\n", true) := by
    have h : Period.isPrime1 q2 = true := by
      unfold Period.isPrime1
      have hd : Period.deg q2 = 127 := (Period.deg_eq_iff (n := 127) (by decide)).2 b2.1
      rw [hd]
      simp only [Period.isIrreducible, i2, decide_true, Bool.not_true, Bool.false_eq_true, if_false]
      decide
    unfold primeTest
    rw [a2]
    simp [h]
  have e5 : primeTest2 mps = some ("testing prime 2 ...", true) := by
    have h1 := isPrimeStr_primitive (by decide) b3 readTable_test (by decide)
    have h2 := isPrimeStr_false (p := q5) (n := 128) (by decide) readTable_test (by decide) (z := 3) (by decide)
      (by rw [show Int.toNat 3 = 3 from rfl]; exact b5)
    unfold primeTest2
    rw [a3, a5]
    simp [h1, h2]
  have e6 : factorTest mps fuel junk1 junk2 = some ("has factor ...", true) := by
    have hg := primD rfl
    have h1 := Period.hasFactorOfDegree_half q6 _ n6 (degree := 521) (fuel := fuel) (by decide) (by omega)
      (Primitive2.irreducible (by decide) hg) b6 hg.1 (by omega)
    obtain ⟨b, r, h2, h3, h4, -⟩ := Period.hasFactorOfDegree_correct q7 (degree := 521) (fuel := fuel) (by decide) (by omega)
    have hb : b = false := by
      rw [Bool.eq_false_iff]
      intro hb
      obtain ⟨h5, h6⟩ := h4 hb
      have := b7 r h5 h3
      omega
    unfold factorTest
    rw [a6, a7]
    simp [h1, h2, hb]
  unfold testPeriod
  rw [e1, e2, e3, e4, e5, e6]
  rfl

end MTT.Tests
