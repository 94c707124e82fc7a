import Verif.Tests.SuiteCert

/-!
# `make check`: every test passes (C95)

`test_period` is C92 and `test_equidist` is C94; here the other tests.
-/

namespace MTT.Tests

open Search Period TinyRef PIS Temper Polynomial

variable {mps : MPS} {f : ℕ → BitVec 32}

/-! ## `test_mt` -/

/-- The comparison succeeds exactly if the next numbers are the expected ones. -/
theorem mtLoop_iff (rs : List (BitVec 32)) : ∀ (s s' : MT.St 32) (vs : List (BitVec 64)),
    MT.run MT.step32 s (List.replicate rs.length .getNative) = some (s', vs) →
    mtLoop rs s = some (decide (vs = rs.map (·.setWidth 64))) := by
  induction rs with
  | nil =>
    intro s s' vs h
    rw [List.length_nil, List.replicate_zero, MT.run, Option.some.injEq, Prod.mk.injEq] at h
    rw [← h.2]
    rfl
  | cons r rs ih =>
    intro s s' vs h
    rw [List.length_cons, List.replicate_succ, MT.run] at h
    rw [mtLoop]
    show (match MT.next32 s with
      | none => none
      | some (s, v) => if v ≠ r then some false else mtLoop rs s) = _
    cases hn : MT.next32 s with
    | none => simp [MT.step32, hn] at h
    | some q =>
      obtain ⟨s1, v⟩ := q
      simp only [MT.step32, hn, Option.map_some] at h
      cases hr : MT.run MT.step32 s1 (List.replicate rs.length .getNative) with
      | none => rw [hr] at h; cases h
      | some q =>
        obtain ⟨s2, ws⟩ := q
        rw [hr, Option.map_some, Option.some.injEq, Prod.mk.injEq] at h
        obtain ⟨-, rfl⟩ := h
        dsimp only
        have hv : v.setWidth 64 = r.setWidth 64 ↔ v = r := by
          constructor
          · intro h
            have := congrArg (BitVec.setWidth 32) h
            rwa [BitVec.setWidth_setWidth_of_le _ (by omega), BitVec.setWidth_setWidth_of_le _ (by omega), BitVec.setWidth_eq,
              BitVec.setWidth_eq] at this
          · rintro rfl; rfl
        by_cases hc : v = r
        · rw [if_neg (not_not.2 hc), ih s1 s2 ws hr]
          simp [hc]
        · rw [if_pos hc]
          have : ¬ v.setWidth 64 = r.setWidth 64 := fun h => hc (hv.1 h)
          simp [this]

theorem run_cons {s s' : MT.St 32} {o : MT.Op 32} {os : List (MT.Op 32)} {v : BitVec 64} {vs : List (BitVec 64)}
    (h : MT.run MT.step32 s (o :: os) = some (s', v :: vs)) : ∃ s1, MT.step32 s o = some (s1, v) ∧ MT.run MT.step32 s1 os = some (s', vs) := by
  rw [MT.run] at h
  cases hs : MT.step32 s o with
  | none => rw [hs] at h; cases h
  | some q =>
    obtain ⟨s1, v1⟩ := q
    rw [hs] at h
    dsimp only at h
    cases hr : MT.run MT.step32 s1 os with
    | none => rw [hr] at h; cases h
    | some q =>
      rw [hr, Option.map_some, Option.some.injEq, Prod.mk.injEq, List.cons.injEq] at h
      obtain ⟨h1, h2, h3⟩ := h
      exact ⟨s1, by rw [h2], by rw [hr, ← h1, ← h3]⟩

theorem toNat_map {l : List (BitVec 32)} {g : ℕ → BitVec 32} {n : ℕ} (hn : n = l.length)
    (h : (List.range n).map (fun j => (g j).toNat) = l.map (·.toNat)) :
    (List.range n).map (fun j => (g j).setWidth 64) = l.map (·.setWidth 64) := by
  subst hn
  have h1 : (List.range l.length).map g = l := by
    have : Function.Injective (BitVec.toNat : BitVec 32 → ℕ) := fun _ _ => BitVec.eq_of_toNat_eq
    apply List.map_injective_iff.2 this
    rw [List.map_map]
    exact h
  conv_rhs => rw [← h1, List.map_map]
  rfl

theorem seed_some (v : BitVec 64) : ∃ s, MT.seed32 v MT.fresh = some s := by
  obtain ⟨x, ⟨h1, h2⟩, -⟩ := MT.exists_seq MT.P32_ok (MT.refSeed MT.C32 (v.setWidth 32))
  obtain ⟨s', h⟩ := MT.mt19937 MT.fresh v 0 x h1 h2
  obtain ⟨s1, h3, -⟩ := run_cons h
  rw [MT.step32] at h3
  cases hs : MT.seed32 v MT.fresh with
  | none => rw [hs] at h3; cases h3
  | some s => exact ⟨s, rfl⟩

theorem array_kat : arrayOK (([0x123, 0x234, 0x345, 0x456] : List (BitVec 32)).map (·.toNat)) 4 [1067595299, 955945823, 477289528, 4107218783, 4228976476] = true := by
  decide +kernel

theorem arraySeed_loop {s1 s' : MT.St 32} {x : ℕ → BitVec 32}
    (h5 : (List.range 5).map (fun j => (MTRef.temper32 (x (624 + j))).toNat) = [1067595299, 955945823, 477289528, 4107218783, 4228976476])
    (h4 : MT.run MT.step32 s1 (List.replicate 5 .getNative) = some (s', (List.range 5).map fun k => (MTRef.temper32 (x (624 + k))).setWidth 64)) :
    mtLoop [1067595299, 955945823, 477289528, 4107218783, 4228976476] s1 = some true := by
  have h6 := mtLoop_iff [1067595299, 955945823, 477289528, 4107218783, 4228976476] s1 s' _ h4
  rw [toNat_map (n := 5) (l := [1067595299, 955945823, 477289528, 4107218783, 4228976476]) rfl h5, decide_eq_true rfl] at h6
  exact h6

theorem arraySeed_of {s0 s1 : MT.St 32} (h0 : MT.seed32 5489 MT.fresh = some s0) (h7 : MT.seedArr32 [0x123, 0x234, 0x345, 0x456] 4 s0 = some s1)
    (h6 : mtLoop [1067595299, 955945823, 477289528, 4107218783, 4228976476] s1 = some true) :
    arraySeedTest = some ("testing array_seed ...ok\n".toList, true) := by
  unfold arraySeedTest
  rw [h0, Option.bind_some, h7, Option.bind_some, h6]
  rfl

theorem arraySeed_passes : arraySeedTest = some ("testing array_seed ...ok\n".toList, true) := by
  obtain ⟨s0, hs0⟩ := seed_some 5489
  obtain ⟨x, ⟨h1, h2⟩, -⟩ := MT.exists_seq MT.P32_ok (MTRef.array32 (fun j => ([0x123, 0x234, 0x345, 0x456] : List (BitVec 32)).getD j 0) 4)
  have hx := (MT.isSeq32_iff x).1 h1
  obtain ⟨s', h⟩ := MT.mt19937_array_published s0 [0x123, 0x234, 0x345, 0x456] 4 5 (by decide) (by decide) x hx h2
  obtain ⟨s1, h3, h4⟩ := run_cons h
  refine arraySeed_of hs0 (s1 := s1) ?_ ?_
  · rw [MT.step32] at h3
    cases hs : MT.seedArr32 [0x123, 0x234, 0x345, 0x456] 4 s0 with
    | none => rw [hs] at h3; cases h3
    | some s => rw [hs, Option.map_some, Option.some.injEq, Prod.mk.injEq] at h3; rw [h3.1]
  · exact arraySeed_loop (arrayOK_spec [0x123, 0x234, 0x345, 0x456] 4 [1067595299, 955945823, 477289528, 4107218783, 4228976476] (by decide) array_kat x hx h2) h4

theorem single_kat : outsOf 5 (seedN 402 0 5489) = [3499211612, 581869302, 3890346734, 3586334585, 545404204] := by decide +kernel

theorem singleSeed_passes : singleSeedTest = some ("testing single_seed ...ok\n".toList, true) := by
  obtain ⟨s0, hs0⟩ := seed_some 5489
  obtain ⟨x, ⟨h1, h2⟩, -⟩ := MT.exists_seq MT.P32_ok (MT.refSeed MT.C32 5489)
  have hx := (MT.isSeq32_iff x).1 h1
  obtain ⟨s', h⟩ := MT.mt19937 MT.fresh 5489 5 x h1 h2
  obtain ⟨s1, h3, h4⟩ := run_cons h
  have h5 : ∀ j, j < 402 → (seedN 402 0 5489)[j]? = some (x j).toNat := by
    intro j hj
    rw [seedN_spec 5489 402 0 5489 rfl j hj, Nat.zero_add, h2 j (show j < 624 by omega), MT.refSeed32]
  have h6 : ∀ k < 5, (outsOf 5 (seedN 402 0 5489))[k]? = some (MTRef.temper32 (x (624 + k))).toNat := by
    intro k hk
    have := outN_spec x hx 5 0 (seedN 402 0 5489) ((seedN 402 0 5489).drop 397)
      (fun j hj => by rw [h5 j (by omega), Nat.zero_add]) (fun j hj => by rw [List.getElem?_drop, h5 (397 + j) (by omega), Nat.zero_add]) k hk
    rw [Nat.zero_add] at this
    exact this
  rw [single_kat] at h6
  have h7 : (List.range 5).map (fun j => (MT.temper32 (x (624 + j))).toNat) =
      ([3499211612, 581869302, 3890346734, 3586334585, 545404204] : List (BitVec 32)).map (·.toNat) := by
    apply List.ext_getElem?
    intro k
    by_cases hk : k < 5
    · rw [List.getElem?_map, List.getElem?_range hk, Option.map_some]
      exact (h6 k hk).symm
    · rw [List.getElem?_eq_none (by simpa using hk), List.getElem?_eq_none (by simpa using hk)]
  have h8 := mtLoop_iff [3499211612, 581869302, 3890346734, 3586334585, 545404204] s1 s' _ h4
  rw [toNat_map (n := 5) (l := [3499211612, 581869302, 3890346734, 3586334585, 545404204]) rfl h7, decide_eq_true rfl] at h8
  have h9 : s0 = s1 := by
    rw [MT.step32, hs0, Option.map_some, Option.some.injEq, Prod.mk.injEq] at h3
    exact h3.1
  unfold singleSeedTest
  rw [hs0, Option.bind_some, h9, h8]
  rfl

/-- **C95.**  `test_mt` passes. -/
theorem mt_passes : mtTest = some ("testing Mersenne Twister\ntesting array_seed ...ok\ntesting single_seed ...ok\n".toList, 0) := by
  unfold mtTest
  rw [arraySeed_passes, singleSeed_passes]
  rfl

/-! ## `test_search` -/

open Classical in
/-- **C95.**  For every source of numbers, every seed and every number of tries `test_search` ends without anything undefined, never prints
"NG", and returns 0 exactly if one of the first `tries` pairs of the source has the maximal period; otherwise it returns 77. -/
theorem search_result (hm : MinPolySeqSpec mps) (seed : BitVec 32) (tries : ℕ) :
    searchTest mps f seed tries = some ("tesing search ...".toList, if ∃ i < tries, MaxPair (f (2 * i)) (f (2 * i + 1)) then 0 else 77) := by
  unfold searchTest
  dsimp only
  rcases start_first (f := f) hm tries ⟨tiny32 seed, 0, 0, 0⟩ with ⟨i, st', h1, h2, h3, -, h5, -, -, -, h9⟩ | ⟨h1, st', h2, -⟩
  · simp only [Nat.zero_add] at h3
    rw [h2, if_pos ⟨i, h1, h3⟩]
    dsimp only
    rw [param_mat1]
    have hd : deg st'.poly = t32Ops.bitSize := (deg_eq_iff (by decide)).2 h9.1
    rw [if_neg (by simp), if_neg (not_not.2 hd), if_neg (by rw [h5]; simp)]
  · simp only [Nat.zero_add] at h1
    rw [h2, if_neg]
    rintro ⟨i, h3, h4⟩
    exact h1 i h3 h4

/-- **C95.**  What the search of `test_search` finds with the default seed of `MersenneTwister`: after 98 rejected pairs the pair
`0x030c0399, 0xba19b463`. -/
theorem search_found (hm : MinPolySeqSpec mps) (seed : BitVec 32) (n : ℕ) (hn : 98 < n) :
    ∃ st, start mps (t32Search (Options.stream32 5489)) (primitivityOp none) n ⟨tiny32 seed, 0, 0, 0⟩ = .ret true st ∧
      st.count = 99 ∧ st.src = 198 ∧ st.rand.mat1 = 0x030c0399 ∧ st.rand.mat2 = 0xba19b463 ∧ st.rand.tmat = 0x3793fdff := by
  have ht : (tiny32 seed).tmat = 0x3793fdff := (tiny_constructed seed 0).1.1.2.2
  rcases start_first (f := Options.stream32 5489) hm n ⟨tiny32 seed, 0, 0, 0⟩ with ⟨i, st', h1, h2, h3, h4, h5, h6, h7, -⟩ | ⟨h1, -⟩
  · simp only [Nat.zero_add] at h3 h4 h5 h6 h7
    have hi : i = 98 := by
      rcases lt_trichotomy i 98 with h | h | h
      · exact absurd h3 (rejected i h)
      · exact h
      · refine absurd ?_ (h4 98 h)
        rw [accepted_nums.1, accepted_nums.2]
        exact maxPair_acc
    subst hi
    rw [accepted_nums.1, accepted_nums.2, ht] at h7
    exact ⟨st', h2, h5, h6, congrArg (·.1) h7, congrArg (·.2.1) h7, congrArg (·.2.2) h7⟩
  · exfalso
    simp only [Nat.zero_add] at h1
    refine h1 98 hn ?_
    rw [accepted_nums.1, accepted_nums.2]
    exact maxPair_acc

/-- **C95.**  `test_search` returns 0. -/
theorem search_passes (hm : MinPolySeqSpec mps) : searchTest mps (Options.stream32 5489) 1234 10000 = some ("tesing search ...".toList, 0) := by
  rw [search_result hm, if_pos]
  refine ⟨98, by norm_num, ?_⟩
  rw [accepted_nums.1, accepted_nums.2]
  exact maxPair_acc

/-! ## `test_temper` -/

/-- **C95.**  The two tempering searches of `test_temper` end for every generator, change nothing but the tempering parameter, and do not increase
the sum of the dimension defects. -/
theorem temper_keeps (veq : ℕ → ℕ) (r : T32) : ∃ t, temperBoth veq r = some t ∧ t = { r with tmat := t.tmat } ∧
    ∃ d e, IsDefect32 r d ∧ IsDefect32 t e ∧ e ≤ d := t32_both veq r

/-- **C95.**  `test_temper` passes. -/
theorem temper_passes (veq : ℕ → ℕ) : temperTest veq = some ("testing temper search ...ok\n".toList, 0) := by
  obtain ⟨t, h, -⟩ := t32_both veq (tiny32p 0x8f7011ee 0xfc78ff1f 0 1234)
  unfold temperTest
  rw [h, Option.map_some, param_tmat]
  rfl

/-! ## `test_search_temper` -/

/-- **C95.**  For every source of numbers in which some pair has the maximal period: the search of `test_search_temper` ends with the first such
pair, the weight is below 128, and the test fails exactly if the sum of the dimension defects of the generator it found is above 10; this sum is
at most the one without tempering. -/
theorem searchTemper_result (hm : MinPolySeqSpec mps) (veq : ℕ → ℕ) {i fuel : ℕ} (hi : i < 127000 * fuel) (h1 : MaxPair (f (2 * i)) (f (2 * i + 1)))
    (h2 : ∀ j < i, ¬ MaxPair (f (2 * j)) (f (2 * j + 1))) :
    ∃ (t : T32) (d e : ℤ), t.mat1 = f (2 * i) ∧ t.mat2 = f (2 * i + 1) ∧ ¬ Zero32 t ∧ IsDefect32 { t with tmat := 0 } d ∧ IsDefect32 t e ∧ e ≤ d ∧
      searchTemperTest mps veq f fuel = some (if e > 10 then ("testing recursion search and temper ...NG\n".toList, -1)
        else ("testing recursion search and temper ...ok\n".toList, 0)) := by
  obtain ⟨st, g1, g2, g3, g4, g5⟩ := find_first (f := f) hm fuel ⟨tiny32p 0x8f7011ee 0xfc78ff1f 0 1234, 0, 0, 0⟩ hi
    (by simpa using h1) (by simpa using h2)
  simp only [Nat.zero_add] at g3
  have ht : (tiny32p 0x8f7011ee 0xfc78ff1f 0 1234).tmat = 0 := (init32_never_zero _ 1234 0).2.2.2
  rw [ht] at g3
  obtain ⟨t, a1, a2, d, e, a3, a4, a5⟩ := t32_lsb veq st.rand
  obtain ⟨u, b1, b2, d', e', b3, b4, b5⟩ := t32_msb veq t
  obtain ⟨e'', c1, c2⟩ := t32Measure_spec veq u
  have hu : u = { st.rand with tmat := u.tmat } := by rw [b2, a2]
  have he : e'' = e' := isDefect32_unique c2 b4
  have hd' := isDefect32_unique b3 a4
  have hst : st.rand = { u with tmat := 0 } := by
    rw [hu]
    have : st.rand.tmat = 0 := congrArg (·.2.2) g3
    show st.rand = { st.rand with tmat := 0 }
    conv_lhs => rw [show st.rand = { st.rand with tmat := st.rand.tmat } from rfl, this]
  refine ⟨u, d, e', ?_, ?_, ?_, by rw [← hst]; exact a3, b4, by omega, ?_⟩
  · rw [hu]; exact congrArg (·.1) g3
  · rw [hu]; exact congrArg (·.2.1) g3
  · rw [hu]; exact g4
  · have hs : searchBoth mps veq f fuel (tiny32p 0x8f7011ee 0xfc78ff1f 0 1234) = some (.found ⟨u, st.src, st.poly, polyWeight st.poly, e'⟩) := by
      have g1' : findLoop mps (t32Search f) (primitivityOp none) (1000 * (t32Search f).gen.bitSize) fuel
          ⟨tiny32p 0x8f7011ee 0xfc78ff1f 0 1234, 0, 0, 0⟩ = some (.ret true st) := g1
      unfold searchBoth rtSearch
      rw [g1']
      dsimp only
      rw [if_neg (by simp), a1]
      dsimp only
      rw [b1]
      dsimp only
      rw [c1, he]
    unfold searchTemperTest
    rw [hs]
    dsimp only
    rw [param_tmat, if_neg (by simp), if_neg (by have := weight_lt g5; omega)]
    by_cases hc : e' > 10
    · rw [if_pos hc, if_pos hc]; rfl
    · rw [if_neg hc, if_neg hc, if_neg (by simp)]; rfl

theorem accepted_rank (v : ℕ) (h1 : 1 ≤ v) (h2 : v ≤ 32) : Equidist (TinyMT.T pAcc) (TinyMT.O pAcc) ⊤ v
    ([127, 59, 42, 31, 25, 21, 18, 15, 14, 12, 11, 10, 9, 8, 8, 7, 7, 7, 6, 6, 6, 5, 5, 4, 4, 4, 4, 4, 4, 4, 4, 3].getD (v - 1) 0) := by
  have key : ∀ v ∈ Finset.Icc 1 32, ∃ q ∈ [(1, 127), (2, 59)] ++ [(3, 42), (4, 31), (5, 25)] ++ [(6, 21), (7, 18), (8, 15), (9, 14), (10, 12)] ++ [(11, 11), (12, 10), (13, 9), (15, 8), (18, 7)] ++ [(21, 6), (23, 5), (31, 4), (32, 3)],
      v ≤ q.1 ∧ ([127, 59, 42, 31, 25, 21, 18, 15, 14, 12, 11, 10, 9, 8, 8, 7, 7, 7, 6, 6, 6, 5, 5, 4, 4, 4, 4, 4, 4, 4, 4, 3].getD (v - 1) 0) ≤ q.2 := by decide
  obtain ⟨q, hq, g1, g2⟩ := key v (Finset.mem_Icc.2 ⟨h1, h2⟩)
  refine equidist_mono ?_ g1 g2
  simp only [List.mem_append] at hq
  rcases hq with (((hq | hq) | hq) | hq) | hq
  · exact rankAcc_sound rankAcc_1 q hq
  · exact rankAcc_sound rankAcc_2 q hq
  · exact rankAcc_sound rankAcc_3 q hq
  · exact rankAcc_sound rankAcc_4 q hq
  · exact rankAcc_sound rankAcc_5 q hq

theorem accepted_defect {r : T32} {d : ℤ} (h1 : r.mat1 = 0x030c0399) (h2 : r.mat2 = 0xba19b463) (h3 : r.tmat = 0) (hz : ¬ Zero32 r)
    (hd : IsDefect32 r d) : d ≤ 7 := by
  obtain ⟨k, hk, rfl⟩ := hd
  have h0 : den32 r ≠ 0 := fun h => hz ((zero32_iff r).2 h)
  have htop : cyc (TinyMT.T r.obj) (den32 r) = ⊤ :=
    cyc_top (n := 127) (by omega) TinyMT.finrank_S h0 (fun k => by
      rw [← eq32_iff]
      exact maxPair_acc r h1 h2 hz k)
  have hT : TinyMT.T r.obj = TinyMT.T pAcc := TinyMT.T_congr (s := r.obj) (t := pAcc) h1 h2
  have hO : TinyMT.O r.obj = TinyMT.O pAcc := by
    obtain ⟨s0, s1, s2, s3, m1, m2, t⟩ := r
    dsimp only at h1 h2 h3
    subst h1 h2 h3
    rfl
  rw [htop, hT, hO] at hk
  calc _ ≤ ∑ v ∈ Finset.Icc 1 32, ((127 / v : ℕ) - (([127, 59, 42, 31, 25, 21, 18, 15, 14, 12, 11, 10, 9, 8, 8, 7, 7, 7, 6, 6, 6, 5, 5, 4, 4, 4, 4, 4, 4, 4, 4, 3].getD (v - 1) 0 : ℕ) : ℤ)) :=
        Finset.sum_le_sum fun v hv => by
          obtain ⟨g1, g2⟩ := Finset.mem_Icc.1 hv
          have := (hk v g1 g2).2 (accepted_rank v g1 g2)
          omega
    _ = 7 := by decide

/-- **C95.**  `test_search_temper` passes; one call of `search.start` is enough. -/
theorem searchTemper_passes (hm : MinPolySeqSpec mps) (veq : ℕ → ℕ) {fuel : ℕ} (hf : 1 ≤ fuel) :
    searchTemperTest mps veq (Options.stream32 5489) fuel = some ("testing recursion search and temper ...ok\n".toList, 0) := by
  obtain ⟨t, d, e, h1, h2, h3, h4, -, h6, h7⟩ := searchTemper_result (f := Options.stream32 5489) hm veq (i := 98) (fuel := fuel) (by omega)
    (by rw [accepted_nums.1, accepted_nums.2]; exact maxPair_acc) rejected
  rw [accepted_nums.1] at h1
  rw [accepted_nums.2] at h2
  have h8 := accepted_defect (r := { t with tmat := 0 }) h1 h2 rfl h3 h4
  rw [h7, if_neg (by omega)]

/-! ## `test_linearity`, `test_primefactors`, `test_version` -/

/-- **C95.**  `test_linearity` passes. -/
theorem linearity_passes : linearityTest = ("testing linearity ...ok\n".toList, 0) := by
  have h : Lin.testLinearity t32Ops init32 (tiny32p 0x8f7011ee 0xfc78ff1f 0 1234) = true :=
    Lin.testLinearity_complete (t32_lin (par32 (tiny32p 0x8f7011ee 0xfc78ff1f 0 1234))) init32 (fun s v hs => ⟨trivial, by rw [init32_par]; exact hs.2⟩)
      ⟨trivial, rfl⟩
  unfold linearityTest
  rw [h]
  rfl

/-- **C95.**  `test_primefactors` passes. -/
theorem factors_passes : factorsTest = some ("testing prime factors ...ok\n".toList, 0) := by
  have h : factorsLoop 14 4 = some true := by decide +kernel
  unfold factorsTest
  rw [h]

/-- **C95.**  `test_version` returns 0 for the version of configure.ac, and fails exactly for the empty text. -/
theorem version_passes : versionTest "1.0.4".toList = ("1.0.4\n".toList, 0) := by decide

theorem version_iff (v : List Char) : (versionTest v).2 = 0 ↔ v ≠ [] := by
  cases v <;> simp [versionTest]

/-! ## Concrete cases -/

-- a source that never yields a maximal period: with `mat1 = 1`, `mat2 = 0` some state is a fixed point, and the test returns 77
example (hm : MinPolySeqSpec mps) (seed : BitVec 32) :
    searchTest mps (fun k => if k % 2 = 0 then 1 else 0) seed 10000 = some ("tesing search ...".toList, 77) := by
  rw [search_result hm, if_neg]
  rintro ⟨i, -, h⟩
  rw [if_pos (by omega), if_neg (by omega)] at h
  exact rejOK_sound (m1 := 1) (m2 := 0) (c := (2, 3, 0x20180201, 0x20180201, 0x20180200, 0xc0500c01)) (by decide +kernel) h

-- the contract of `MinPolySeq` can be met
example : ∃ mps : MPS, searchTest mps (Options.stream32 5489) 1234 10000 = some ("tesing search ...".toList, 0) ∧
    searchTemperTest mps (fun _ => 0) (Options.stream32 5489) 1 = some ("testing recursion search and temper ...ok\n".toList, 0) := by
  obtain ⟨mps, hm⟩ := minPolySeqSpec_sat
  exact ⟨mps, search_passes hm, searchTemper_passes hm _ (by omega)⟩

example : searchTest (fun _ _ _ => 0) (fun _ => 0) 1234 0 = some ("tesing search ...".toList, 77) := by
  simp [searchTest, start]

end MTT.Tests
