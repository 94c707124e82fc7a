import Verif.GF2.Rank
import Verif.Tests.EquidistTest
import Verif.Tests.PeriodProps

/-!
# `Tiny32` is maximally equidistributed, and `test_equidist` (C94)
-/

namespace MTT.Tests

open PIS Search TinyRef GF2

/-- The parameters of `Tiny32`. -/
abbrev p32 : TinyMT.St := ⟨0, 0, 0, 0, 0, 0x8f7011ee, 0xfc78ff1f, 0x3793fdff, false⟩

/-- The test in the kernel. -/
abbrev rank32 (ps : List (ℕ × ℕ)) : Prop := seqK fS (fun s => TinyMT.T p32 s) (fun s => (TinyMT.fo p32 s).toNat) 254 (Wd.of 1, 0, 0, 0)
  (fun ws => pairsOK 32 127 ws ps) = true

theorem rank32_1 : rank32 [(1, 127), (2, 63)] := by decide +kernel
theorem rank32_2 : rank32 [(3, 42), (4, 31), (5, 25)] := by decide +kernel
theorem rank32_3 : rank32 [(6, 21), (7, 18), (8, 15), (9, 14)] := by decide +kernel
theorem rank32_4 : rank32 [(10, 12), (11, 11), (12, 10), (14, 9), (15, 8)] := by decide +kernel
theorem rank32_5 : rank32 [(18, 7), (21, 6), (25, 5), (31, 4), (32, 3)] := by decide +kernel

theorem isWord32 (p : TinyMT.St) : IsWord (TinyMT.O p) (fun s => (TinyMT.fo p s).toNat) 32 := by
  intro s
  refine ⟨(TinyMT.fo p s).isLt, fun i hi => ?_⟩
  show bits (TinyMT.fo p s) i = _
  unfold bits
  rw [BitVec.getMsbD_eq_getLsbD, BitVec.getLsbD]
  simp [hi]

theorem rank32_sound {ps : List (ℕ × ℕ)} (h : rank32 ps) (q : ℕ × ℕ) (hq : q ∈ ps) : Equidist (TinyMT.T p32) (TinyMT.O p32) ⊤ q.1 q.2 := by
  intro a
  obtain ⟨s, -, h1⟩ := equidist_of_check (fun s k => fS_eq s k) (fun _ => rfl) (isWord32 p32) h q hq a
  exact ⟨s, trivial, h1⟩

/-- For every accuracy the dimension is as large as the 127 bits of the state allow. -/
theorem tiny32_top (v : ℕ) (h1 : 1 ≤ v) (h2 : v ≤ 32) : Equidist (TinyMT.T p32) (TinyMT.O p32) ⊤ v (127 / v) := by
  have key : ∀ v ∈ Finset.Icc 1 32, ∃ q ∈ [(1, 127), (2, 63)] ++ [(3, 42), (4, 31), (5, 25)] ++ [(6, 21), (7, 18), (8, 15), (9, 14)] ++
      [(10, 12), (11, 11), (12, 10), (14, 9), (15, 8)] ++ [(18, 7), (21, 6), (25, 5), (31, 4), (32, 3)],
      v ≤ q.1 ∧ 127 / v ≤ q.2 := by decide
  obtain ⟨q, hq, g1, g2⟩ := key v (Finset.mem_Icc.2 ⟨h1, h2⟩)
  refine equidist_mono ?_ g1 g2
  simp only [List.mem_append] at hq
  rcases hq with (((hq | hq) | hq) | hq) | hq
  · exact rank32_sound rank32_1 q hq
  · exact rank32_sound rank32_2 q hq
  · exact rank32_sound rank32_3 q hq
  · exact rank32_sound rank32_4 q hq
  · exact rank32_sound rank32_5 q hq

theorem O32_eq {r : T32} (h : HasTiny32 r) : TinyMT.O r.obj = TinyMT.O p32 := by
  obtain ⟨s0, s1, s2, s3, m1, m2, t⟩ := r
  obtain ⟨h1, h2, h3⟩ := h
  dsimp only at h1 h2 h3
  subst h1 h2 h3
  rfl

theorem stream_out {r : T32} (h : HasTiny32 r) (n : ℕ) :
    bits (stream (gen32 true) r n) = TinyMT.O p32 ((TinyMT.T p32 ^ n) (den32 r)) := by
  have hl := t32_linGen r
  obtain ⟨hp, hd⟩ := next32_iter r n
  have h1 := hl.gen_out (next32^[n] r) hp
  have e : stream (gen32 true) r n = (t32Ops.generate (next32^[n] r)).2 := rfl
  have hd' : den32 (next32^[n] r) = (TinyMT.T p32 ^ n) (den32 r) := by rw [← T32_eq h]; exact hd
  rw [e, h1, O32_eq h, ← hd']

/-- **C94.**  `Tiny32` (with `LINEARITY_CHECK`) is maximally equidistributed: for every accuracy `v` from 1 to 32, from every seed, every
pattern of `⌊127/v⌋` blocks of `v` bits that is not zero occurs as the leading bits of consecutive outputs within one period. -/
theorem tiny32_patterns (seed : BitVec 32) (v : ℕ) (h1 : 1 ≤ v) (h2 : v ≤ 32) (a : ℕ → BitVec 32)
    (ha : ∃ t < 127 / v, ∃ i < v, (a t).getMsbD i = true) :
    ∃ n < 2 ^ 127 - 1, ∀ t < 127 / v, ∀ i < v, (stream (gen32 true) (tiny32 seed) (n + t)).getMsbD i = (a t).getMsbD i := by
  obtain ⟨⟨hp, hz⟩, -⟩ := tiny_constructed seed 0
  have h0 : den32 (tiny32 seed) ≠ 0 := fun h => hz ((den32_eq_zero _).1 h)
  obtain ⟨s, -, h3⟩ := tiny32_top v h1 h2 (fun t => bits (a t))
  have hs : s ≠ 0 := by
    rintro rfl
    obtain ⟨t, ht, i, hi, h4⟩ := ha
    have := h3 t ht i hi
    rw [map_zero, map_zero] at this
    simp [bits, h4] at this
  obtain ⟨n, hn, h4⟩ := orbit_surj (by decide) TinyMT.finrank_S prim_t32 ann_t32 h0 hs
  refine ⟨n, hn, fun t ht i hi => ?_⟩
  have h5 := stream_out hp (n + t)
  rw [Nat.add_comm n t, pow_add, Module.End.mul_apply, h4] at h5
  have h6 := h3 t ht i hi
  rw [← h5, Nat.add_comm t n] at h6
  unfold bits at h6
  cases hA : (stream (gen32 true) (tiny32 seed) (n + t)).getMsbD i <;> cases hB : (a t).getMsbD i <;> simp_all

/-- **C94.**  `get_all_equidist` for `Tiny32(seed)` succeeds, delivers `⌊127/v⌋` for every accuracy `v` and returns 0, whatever the seed and
the content of the array are. -/
theorem tiny32_delta (seed : BitVec 32) (veq0 : ℕ → ℕ) {fuel : ℕ} (hf : 32 * (33 * 127) + 33 ≤ fuel) :
    ∃ r, getAllEquidist t32Ops Util.calc1posWrap32 (tiny32 seed) 32 127 fuel veq0 = .ok r ∧
      (∀ v, 1 ≤ v → v ≤ 32 → r.veq (v - 1) = 127 / v) ∧ r.sum = 0 := by
  obtain ⟨⟨hp, hz⟩, -⟩ := tiny_constructed seed 0
  have h0 : den32 (tiny32 seed) ≠ 0 := fun h => hz ((den32_eq_zero _).1 h)
  obtain ⟨hm, hc0, hd⟩ := charpoly_hyps (TinyMT.T (tiny32 seed).obj) (den32 (tiny32 seed))
  rw [TinyMT.finrank_S] at hd
  obtain ⟨r, e1, e2, -, e4⟩ := getAllEquidist_correct (t32_linGen (tiny32 seed)) (g := tiny32 seed) ⟨rfl, rfl, rfl, rfl⟩ hm hc0
    (by rw [hd]; decide) (stateBitSize := 127) (by omega) Util.isCalc1pos_32 (bitLen := 32) (by omega)
    (by omega) (fuel := fuel) (by rw [hd]; omega) veq0
  have htop : cyc (TinyMT.T (tiny32 seed).obj) (den32 (tiny32 seed)) = ⊤ := by
    rw [T32_eq hp]
    exact cyc_top (n := 127) (by omega) TinyMT.finrank_S h0 (fun k => period_of_primitive (by decide) prim_t32 (ann_t32 _) h0 k)
  rw [htop, T32_eq hp, O32_eq hp] at e2
  have hv : ∀ v, 1 ≤ v → v ≤ 32 → r.veq (v - 1) = 127 / v := by
    intro v h1 h2
    have g := e2 v h1 h2
    apply le_antisymm
    · have := equidist_le TinyMT.finrank_S g.1
      exact (Nat.le_div_iff_mul_le (by omega)).2 this
    · exact g.2 (tiny32_top v h1 h2)
  refine ⟨r, e1, hv, ?_⟩
  rw [e4]
  apply Finset.sum_eq_zero
  intro v hvv
  obtain ⟨h1, h2⟩ := Finset.mem_Icc.1 hvv
  rw [hv v h1 h2, sub_self]

/-- **C94.**  `test_equidist` prints "ok" and returns 0, also for every other seed. -/
theorem equidistTest_passes (seed : BitVec 32) (veq0 : ℕ → ℕ) {fuel : ℕ} (hf : 32 * (33 * 127) + 33 ≤ fuel) :
    equidistTest seed fuel veq0 = some ("testing equidistribution ...ok\n", 0) := by
  obtain ⟨r, h1, -, h2⟩ := tiny32_delta seed veq0 hf
  unfold equidistTest
  have h1 : getAllEquidist t32Ops Util.calc1posWrap32 (tiny32 seed) 32 t32Ops.bitSize fuel veq0 = .ok r := h1
  rw [h1]
  simp [h2]

/-! ## Concrete cases -/

-- three consecutive outputs of Tiny32(1234) are equal to any three words, not all zero
example (a b c : BitVec 32) (h : a ≠ 0) : ∃ n < 2 ^ 127 - 1, stream (gen32 true) (tiny32 1234) n = a ∧
    stream (gen32 true) (tiny32 1234) (n + 1) = b ∧ stream (gen32 true) (tiny32 1234) (n + 2) = c := by
  obtain ⟨n, hn, h1⟩ := tiny32_patterns 1234 32 (by decide) (by decide) (fun t => if t = 0 then a else if t = 1 then b else c) (by
    by_contra hc
    push Not at hc
    apply h
    apply BitVec.eq_of_getMsbD_eq
    intro i hi
    have := hc 0 (by decide) i hi
    simpa using this)
  refine ⟨n, hn, ?_, ?_, ?_⟩
  · exact BitVec.eq_of_getMsbD_eq fun i hi => h1 0 (by decide) i hi
  · exact BitVec.eq_of_getMsbD_eq fun i hi => h1 1 (by decide) i hi
  · exact BitVec.eq_of_getMsbD_eq fun i hi => h1 2 (by decide) i hi

example : equidistTest 1234 200000 (fun _ => 77) = some ("testing equidistribution ...ok\n", 0) :=
  equidistTest_passes 1234 _ (by decide)

end MTT.Tests
