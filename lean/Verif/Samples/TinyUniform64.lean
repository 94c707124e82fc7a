import Verif.Samples.TinyMTUniform

/-!
# C136: how often the numbers of `Tiny64` occur in one period
-/

namespace MTT.TinyRef

open MTT PIS

/-! ### The output determines the state, if 63 bits besides it are known -/

/-- `x` of `tinymt64_temper` after a step. -/
def hx (p : T64) (u : S64) : BitVec 64 := g0 p u ^^^ g1 p u ^^^ (g0 p u >>> 8)

theorem hx_add (p : T64) (u v : S64) : hx p (u + v) = hx p u ^^^ hx p v := by
  unfold hx
  rw [g0_add, g1_add, shr_xor]
  ac_rfl

/-- `x` of `tinymt64_next_state` before the shifts. -/
def hw (u : S64) : BitVec 64 := u.1.val.setWidth 64 ^^^ u.2.val

theorem hw_add (u v : S64) : hw (u + v) = hw u ^^^ hw v := by
  have e1 : (u + v).1.val = u.1.val ^^^ v.1.val := rfl
  have e2 : (u + v).2.val = u.2.val ^^^ v.2.val := rfl
  unfold hw
  rw [e1, e2, setWidth_xor]
  ac_rfl

theorem hw_top (u : S64) : (hw u).getLsbD 63 = u.2.val.getLsbD 63 := by
  unfold hw
  rw [BitVec.getLsbD_xor, BitVec.getLsbD_setWidth, BitVec.getLsbD_of_ge _ _ (le_refl 63)]
  simp

/-- All bits of `hw` except bit 31. -/
def rest (w : BitVec 64) : BitVec 32 × BitVec 31 := (w.extractLsb' 32 32, w.extractLsb' 0 31)

theorem rest_zero {w : BitVec 64} (h : rest w = 0) : w = 0 ∨ w = 0x80000000 := by
  have h1 : ∀ i, i < 32 → w.getLsbD (32 + i) = false := fun i hi => by
    have := congrArg (fun z : BitVec 32 × BitVec 31 => z.1.getLsbD i) h
    simpa [rest, BitVec.getLsbD_extractLsb', hi] using this
  have h2 : ∀ i, i < 31 → w.getLsbD i = false := fun i hi => by
    have := congrArg (fun z : BitVec 32 × BitVec 31 => z.2.getLsbD i) h
    simpa [rest, BitVec.getLsbD_extractLsb', hi] using this
  have hb : ∀ i, i < 64 → i ≠ 31 → w.getLsbD i = false := fun i hi h' => by
    by_cases hl : i < 31
    · exact h2 i hl
    · have := h1 (i - 32) (by omega)
      rwa [show 32 + (i - 32) = i by omega] at this
  have ht : ∀ i, i < 64 → (0x80000000 : BitVec 64).getLsbD i = decide (i = 31) := by decide
  cases h31 : w.getLsbD 31
  · left
    apply BitVec.eq_of_getLsbD_eq
    intro i hi
    by_cases h' : i = 31
    · subst h'; rw [h31]; rfl
    · rw [hb i hi h']; simp
  · right
    apply BitVec.eq_of_getLsbD_eq
    intro i hi
    rw [ht i hi]
    by_cases h' : i = 31
    · subst h'; rw [h31]; rfl
    · rw [hb i hi h']; simp [h']

theorem rest_xor (a b : BitVec 64) (h : rest a = rest b) : rest (a ^^^ b) = 0 := by
  have h1 : a.extractLsb' 32 32 = b.extractLsb' 32 32 := congrArg Prod.fst h
  have h2 : a.extractLsb' 0 31 = b.extractLsb' 0 31 := congrArg Prod.snd h
  refine Prod.ext ?_ ?_
  · show (a ^^^ b).extractLsb' 32 32 = 0
    rw [BitVec.extractLsb'_xor, h1, BitVec.xor_self]; rfl
  · show (a ^^^ b).extractLsb' 0 31 = 0
    rw [BitVec.extractLsb'_xor, h2, BitVec.xor_self]; rfl

theorem hx_kernel {p : T64} {v : S64} (h : hx p v = 0) (hr : rest (hw v) = 0) : v = 0 := by
  have key : ∀ c : BitVec 64, gx v = c → c.getLsbD 0 = false → v.2.val ^^^ c ^^^ (v.2.val >>> 8) = 0 := by
    intro c hc h0
    have e0 : g0 p v = v.2.val := by unfold g0; rw [hc, h0]; simp [sel]
    have e1 : g1 p v = c := by unfold g1; rw [hc, h0]; simp [sel]
    rw [← h]; unfold hx; rw [e0, e1]
  rcases rest_zero hr with e | e
  · have hg : gx v = 0 := by
      show shifts (hw v) = 0
      rw [e]; decide
    have h1 := key 0 hg (by decide)
    rw [show v.2.val ^^^ 0 = v.2.val from BitVec.xor_zero] at h1
    have h2 : v.2.val = 0 := shr_inj (k := 8) (by omega) (y := 0) (by rw [h1]; decide)
    have h3 : v.1.val.setWidth 64 = (0 : BitVec 64) := by
      have := e
      unfold hw at this
      rw [h2] at this
      exact (BitVec.xor_zero (x := v.1.val.setWidth 64)).symm.trans this
    refine Prod.ext (Wd.ext ?_) (Wd.ext h2)
    apply BitVec.eq_of_toNat_eq
    have := congrArg BitVec.toNat h3
    rw [BitVec.toNat_setWidth, Nat.mod_eq_of_lt (lt_trans v.1.val.isLt (by norm_num))] at this
    exact this
  · exfalso
    have hg : gx v = shifts 0x80000000 := by
      show shifts (hw v) = _
      rw [e]
    have h1 := key _ hg (by decide)
    have ht := hw_top v
    rw [e] at ht
    have h2 := congrArg (fun z : BitVec 64 => z.getLsbD 63) h1
    rw [BitVec.getLsbD_xor, BitVec.getLsbD_xor, ← ht, BitVec.getLsbD_ushiftRight,
      BitVec.getLsbD_of_ge _ (8 + 63) (by omega)] at h2
    exact absurd h2 (by decide)

/-- The tempered number. -/
def ht (p : T64) (u : S64) : BitVec 64 := hx p u ^^^ sel ((hx p u).getLsbD 0) p.tmat

theorem temper_hx (r : T64) : temper64 true (next64 r) = ht r (den64 r) := by
  have e : tx true (next64 r) = hx r (den64 r) := by
    rw [next64_eq]; rfl
  have ep : (next64 r).tmat = r.tmat := by rw [next64_eq]
  unfold temper64 ht
  rw [e, ep]
  split
  · next h =>
    rw [and_one_ne] at h
    simp only [h, sel, if_true]
  · next h =>
    rw [and_one_ne, Bool.not_eq_true] at h
    rw [h]
    exact (BitVec.xor_zero (x := hx r (den64 r))).symm

theorem ht_inj {p : T64} (hp : p.tmat.getLsbD 0 = false) {u v : S64} (hr : rest (hw u) = rest (hw v))
    (h : ht p u = ht p v) : u = v := by
  have h0 : ∀ u, (ht p u).getLsbD 0 = (hx p u).getLsbD 0 := fun u => by
    unfold ht
    rw [BitVec.getLsbD_xor]
    cases (hx p u).getLsbD 0
    · simp [sel]
    · show (true ^^ p.tmat.getLsbD 0) = true
      rw [hp]; rfl
  have e0 : (hx p u).getLsbD 0 = (hx p v).getLsbD 0 := by rw [← h0, ← h0, h]
  have e : hx p u = hx p v := by
    unfold ht at h
    rw [e0] at h
    exact (BitVec.xor_left_inj _).mp h
  have hz : u + v = 0 := hx_kernel (p := p) (by rw [hx_add, e, BitVec.xor_self]; rfl) (by rw [hw_add]; exact rest_xor _ _ hr)
  have hv : v + v = 0 := by
    refine Prod.ext (Wd.ext ?_) (Wd.ext ?_)
    · exact BitVec.xor_self
    · exact BitVec.xor_self
  exact add_right_cancel (hz.trans hv.symm)

theorem ht_card {p : T64} (hp : p.tmat.getLsbD 0 = false) (P : BitVec 64 → Prop) :
    Nat.card {u : S64 // P (ht p u)} = 2 ^ 63 * Nat.card {a : BitVec 64 // P a} := by
  have : Finite (BitVec 64) := inferInstanceAs (Finite (Wd 64))
  have : Finite (BitVec 32) := inferInstanceAs (Finite (Wd 32))
  have : Finite (BitVec 31) := inferInstanceAs (Finite (Wd 31))
  have c64 : Nat.card (BitVec 64) = 2 ^ 64 := Wd.card (w := 64)
  have c32 : Nat.card (BitVec 32) = 2 ^ 32 := Wd.card (w := 32)
  have c31 : Nat.card (BitVec 31) = 2 ^ 31 := Wd.card (w := 31)
  have hB : Nat.card (BitVec 32 × BitVec 31) = 2 ^ 63 := by rw [Nat.card_prod, c32, c31]; norm_num
  rw [← hB]
  refine TinyMT.fibre_card (fun u : S64 => rest (hw u)) _ (fun u v h1 h2 => ht_inj hp h1 h2) ?_ P
  rw [hB, c64]
  show Nat.card (Wd 63 × Wd 64) = _
  rw [Nat.card_prod, Wd.card, Wd.card]

/-! ### The claims -/

open Classical in
/-- **C136.**  With the recursion parameters of `Tiny64` and any even tempering matrix, from every non-zero state, the numbers of
`tinymt64_generate_uint64` (compiled with `LINEARITY_CHECK`) that have any given property are met in exact proportion during
one period: 2^63 times for each number that has the property, once less if 0 has it. -/
theorem uniform64 {r : T64} (h1 : r.mat1 = 0xfa051f40) (h2 : r.mat2 = 0xffd0fff4) (he : r.tmat.getLsbD 0 = false)
    (h0 : ¬ Zero64 r) (P : BitVec 64 → Prop) :
    Nat.card {k : ℕ // k < 2 ^ 127 - 1 ∧ P (stream (gen64 true) r k)} =
      2 ^ 63 * Nat.card {a : BitVec 64 // P a} - (if P 0 then 1 else 0) := by
  have hne : den64 r ≠ 0 := fun h => h0 ((den64_eq_zero r).1 h)
  have ha := GF2.ann_t64
  have hT : TL r = TL ⟨0, 0, 0xfa051f40, 0xffd0fff4, 0x58d02ffeffbfffbc⟩ := by
    obtain ⟨s0, s1, m1, m2, t⟩ := r
    dsimp only at h1 h2
    subst h1 h2
    rfl
  rw [← hT] at ha
  have e : ∀ k, stream (gen64 true) r k = ht r ((TL r ^ k) (den64 r)) := by
    intro k
    obtain ⟨hp, hd⟩ := next64_iter r k
    rw [stream_gen64, temper_hx, ← hd]
    obtain ⟨q1, q2, q3⟩ := hp
    unfold ht hx g0 g1
    rw [q1, q2, q3]
  simp only [e]
  rw [orbit_count (S := S64) (T := TL r) (by decide) finrank_S64 GF2.prim_t64 ha hne (fun u => P (ht r u))]
  have h3 := TinyMT.card_ne_zero (fun u => P (ht r u))
  have hz : ht r 0 = 0 := by
    have : hx r 0 = 0 := by
      have := hx_add r 0 0
      rw [add_zero, BitVec.xor_self] at this
      exact this
    unfold ht
    rw [this]
    simp [sel]
  rw [ht_card he, hz] at h3
  omega

/-- **C136.**  Each number is returned 2^63 times in one period of an object of `Tiny64`, 0 once less, whatever the seed. -/
theorem tiny64_number (seed a : BitVec 64) :
    Nat.card {k : ℕ // k < 2 ^ 127 - 1 ∧ stream (gen64 true) (tiny64 seed) k = a} = if a = 0 then 2 ^ 63 - 1 else 2 ^ 63 := by
  obtain ⟨-, ⟨h1, h2, h3⟩, h0⟩ := tiny_constructed 0 seed
  rw [uniform64 h1 h2 (by rw [h3]; decide) h0 (fun b => b = a), Nat.card_unique]
  by_cases ha : a = 0
  · rw [if_pos ha, if_pos ha.symm, Nat.mul_one]
  · rw [if_neg ha, if_neg (fun h => ha h.symm), Nat.mul_one, Nat.sub_zero]

/-- 64-bit numbers with given leading 53 bits. -/
theorem card_lead64 (m : ℕ) (hm : m < 2 ^ 53) : Nat.card {a : BitVec 64 // a.toNat / 2 ^ 11 = m} = 2 ^ 11 := by
  have : Nat.card {a : BitVec 64 // a.toNat / 2 ^ 11 = m} = Nat.card (Fin (2 ^ 11)) := by
    refine Nat.card_congr (Equiv.ofBijective (fun a => ⟨a.1.toNat % 2 ^ 11, Nat.mod_lt _ (by norm_num)⟩) ⟨?_, ?_⟩)
    · rintro ⟨a, ha⟩ ⟨b, hb⟩ h
      have h' : a.toNat % 2 ^ 11 = b.toNat % 2 ^ 11 := congrArg Fin.val h
      have h2 : a.toNat = b.toNat := by omega
      exact Subtype.ext (BitVec.eq_of_toNat_eq h2)
    · rintro ⟨l, hl⟩
      have hlt : m * 2 ^ 11 + l < 2 ^ 64 := by omega
      refine ⟨⟨BitVec.ofNat 64 (m * 2 ^ 11 + l), ?_⟩, ?_⟩
      · rw [BitVec.toNat_ofNat, Nat.mod_eq_of_lt hlt]; omega
      · apply Fin.ext
        show (BitVec.ofNat 64 (m * 2 ^ 11 + l)).toNat % 2 ^ 11 = l
        rw [BitVec.toNat_ofNat, Nat.mod_eq_of_lt hlt]; omega
  rw [this, Nat.card_eq_fintype_card, Fintype.card_fin]

/-- **C136.**  `tinymt64_generate_double` of an object of `Tiny64` (compiled with `LINEARITY_CHECK`) returns each of the 2^53
multiples of 2^-53 in [0,1) equally often in one period, 0 once less, whatever the seed. -/
theorem tiny64_double {rnd : ℚ → ℚ} (hr : RoundsDouble rnd) (seed : BitVec 64) (m : ℕ) (hm : m < 2 ^ 53) :
    Nat.card {k : ℕ // k < 2 ^ 127 - 1 ∧ stream (genDouble rnd true) (tiny64 seed) k = (m : ℚ) / 2 ^ 53} =
      if m = 0 then 2 ^ 74 - 1 else 2 ^ 74 := by
  obtain ⟨-, ⟨h1, h2, h3⟩, h0⟩ := tiny_constructed 0 seed
  have e : ∀ k, (stream (genDouble rnd true) (tiny64 seed) k = (m : ℚ) / 2 ^ 53) ↔
      (stream (gen64 true) (tiny64 seed) k).toNat / 2 ^ 11 = m := by
    intro k
    show (genDouble rnd true (next64^[k] (tiny64 seed))).2 = _ ↔ (gen64 true (next64^[k] (tiny64 seed))).2.toNat / 2 ^ 11 = m
    rw [(genDouble_exact hr true _).2.1, div_left_inj' (by positivity)]
    exact Nat.cast_inj
  simp only [e]
  rw [uniform64 h1 h2 (by rw [h3]; decide) h0 (fun a => a.toNat / 2 ^ 11 = m), card_lead64 m hm]
  have hz : ((0 : BitVec 64).toNat / 2 ^ 11 = m) ↔ m = 0 := by
    rw [show (0 : BitVec 64).toNat / 2 ^ 11 = 0 by decide]; exact eq_comm
  by_cases h' : m = 0
  · rw [if_pos (hz.2 h'), if_pos h']; norm_num
  · rw [if_neg (fun q => h' (hz.1 q)), if_neg h']; norm_num

/-! ### The low bits, with and without `LINEARITY_CHECK` -/

/-- The tempered number as a function of the effective state. -/
def hn (lin : Bool) (p : T64) (u : S64) : BitVec 64 := temper64 lin { p with s0 := g0 p u, s1 := g1 p u }

theorem temper_hn (lin : Bool) (r : T64) : temper64 lin (next64 r) = hn lin r (den64 r) := by
  rw [next64_eq]; rfl

theorem low_shift (x y : BitVec 64) (h : x.setWidth 63 = y.setWidth 63) : (x >>> 8).setWidth 55 = (y >>> 8).setWidth 55 := by
  apply BitVec.eq_of_getLsbD_eq
  intro i hi
  have := congrArg (fun z : BitVec 63 => z.getLsbD (8 + i)) h
  have hlt : 8 + i < 63 := by omega
  simp only [BitVec.getLsbD_setWidth, hlt, decide_true, Bool.true_and] at this
  simp only [BitVec.getLsbD_setWidth, BitVec.getLsbD_ushiftRight, this]

theorem low_low (x y : BitVec 64) (h : x.setWidth 63 = y.setWidth 63) : x.setWidth 55 = y.setWidth 55 := by
  apply BitVec.eq_of_getLsbD_eq
  intro i hi
  have := congrArg (fun z : BitVec 63 => z.getLsbD i) h
  have hlt : i < 63 := by omega
  simp only [BitVec.getLsbD_setWidth, hlt, decide_true, Bool.true_and] at this
  simp only [BitVec.getLsbD_setWidth, this]

theorem tx_low {lin : Bool} {r r' : T64} (h0 : r.s0.setWidth 63 = r'.s0.setWidth 63)
    (h : (tx lin r).setWidth 55 = (tx lin r').setWidth 55) : r.s1.setWidth 55 = r'.s1.setWidth 55 := by
  unfold tx at h
  rw [BitVec.setWidth_xor, BitVec.setWidth_xor, low_shift _ _ h0] at h
  have h := (BitVec.xor_left_inj _).mp h
  have hl := low_low _ _ h0
  cases lin
  · simp only [Bool.false_eq_true, if_false] at h
    rw [BitVec.setWidth_add _ _ (by omega), BitVec.setWidth_add _ _ (by omega), hl] at h
    exact (BitVec.add_right_inj _).mp h
  · simp only [if_true] at h
    rw [BitVec.setWidth_xor, BitVec.setWidth_xor, hl] at h
    exact (BitVec.xor_right_inj _).mp h

theorem temper_low {lin : Bool} {r r' : T64} (ht : r.tmat = r'.tmat) (he : r.tmat.getLsbD 0 = false)
    (h : (temper64 lin r).setWidth 55 = (temper64 lin r').setWidth 55) :
    (tx lin r).setWidth 55 = (tx lin r').setWidth 55 := by
  have key : ∀ t : T64, t.tmat = r.tmat → temper64 lin t = tx lin t ^^^ sel ((tx lin t).getLsbD 0) r.tmat := by
    intro t e
    unfold temper64
    rw [e]
    split
    · next h =>
      rw [and_one_ne] at h
      rw [h]; rfl
    · next h =>
      rw [and_one_ne, Bool.not_eq_true] at h
      rw [h]
      exact (BitVec.xor_zero (x := tx lin t)).symm
  have low : ∀ x : BitVec 64, (x ^^^ sel (x.getLsbD 0) r.tmat).getLsbD 0 = x.getLsbD 0 := fun x => by
    rw [BitVec.getLsbD_xor]
    cases x.getLsbD 0
    · simp [sel]
    · show (true ^^ r.tmat.getLsbD 0) = true
      rw [he]; rfl
  rw [key r rfl, key r' ht.symm] at h
  have h0 := congrArg (fun z : BitVec 55 => z.getLsbD 0) h
  simp only [BitVec.getLsbD_setWidth, low] at h0
  have h0 : (tx lin r).getLsbD 0 = (tx lin r').getLsbD 0 := by simpa using h0
  rw [h0, BitVec.setWidth_xor, BitVec.setWidth_xor] at h
  exact (BitVec.xor_left_inj _).mp h

theorem split55 {x y : BitVec 64} (h1 : x.extractLsb' 55 9 = y.extractLsb' 55 9) (h2 : x.setWidth 55 = y.setWidth 55) : x = y := by
  apply BitVec.eq_of_getLsbD_eq
  intro i hi
  by_cases hl : i < 55
  · have := congrArg (fun z : BitVec 55 => z.getLsbD i) h2
    simpa only [BitVec.getLsbD_setWidth, hl, decide_true, Bool.true_and] using this
  · have := congrArg (fun z : BitVec 9 => z.getLsbD (i - 55)) h1
    have h9 : i - 55 < 9 := by omega
    simp only [BitVec.getLsbD_extractLsb', h9, decide_true, Bool.true_and] at this
    rwa [show 55 + (i - 55) = i by omega] at this

theorem hn_card (lin : Bool) {p : T64} (hp : p.tmat.getLsbD 0 = false) (P : BitVec 55 → Prop) :
    Nat.card {u : S64 // P ((hn lin p u).setWidth 55)} = 2 ^ 72 * Nat.card {a : BitVec 55 // P a} := by
  have : Finite (BitVec 55) := inferInstanceAs (Finite (Wd 55))
  have : Finite (BitVec 63) := inferInstanceAs (Finite (Wd 63))
  have : Finite (BitVec 9) := inferInstanceAs (Finite (Wd 9))
  have c55 : Nat.card (BitVec 55) = 2 ^ 55 := Wd.card (w := 55)
  have c63 : Nat.card (BitVec 63) = 2 ^ 63 := Wd.card (w := 63)
  have c9 : Nat.card (BitVec 9) = 2 ^ 9 := Wd.card (w := 9)
  have hB : Nat.card (BitVec 63 × BitVec 9) = 2 ^ 72 := by rw [Nat.card_prod, c63, c9]; norm_num
  rw [← hB]
  refine TinyMT.fibre_card (fun u : S64 => ((g0 p u).setWidth 63, (g1 p u).extractLsb' 55 9)) _ (fun u v h1 h2 => ?_) ?_ P
  · have e0 : (g0 p u).setWidth 63 = (g0 p v).setWidth 63 := congrArg Prod.fst h1
    have e1 : (g1 p u).extractLsb' 55 9 = (g1 p v).extractLsb' 55 9 := congrArg Prod.snd h1
    have e2 : (g1 p u).setWidth 55 = (g1 p v).setWidth 55 :=
      tx_low (lin := lin) (r := { p with s0 := g0 p u, s1 := g1 p u }) (r' := { p with s0 := g0 p v, s1 := g1 p v }) e0
        (temper_low rfl hp h2)
    exact (TL_bijective p).1 (Prod.ext (Wd.ext e0) (Wd.ext (split55 e1 e2)))
  · rw [hB, c55]
    show Nat.card (Wd 63 × Wd 64) = _
    rw [Nat.card_prod, Wd.card, Wd.card]; norm_num

open Classical in
/-- **C136.**  Whether `LINEARITY_CHECK` is defined or not, the low 55 bits of the numbers are met in exact proportion during
one period: 2^72 times for each of the 2^55 values, once less for 0. -/
theorem low64 (lin : Bool) {r : T64} (h1 : r.mat1 = 0xfa051f40) (h2 : r.mat2 = 0xffd0fff4) (he : r.tmat.getLsbD 0 = false)
    (h0 : ¬ Zero64 r) (P : BitVec 55 → Prop) :
    Nat.card {k : ℕ // k < 2 ^ 127 - 1 ∧ P ((stream (gen64 lin) r k).setWidth 55)} =
      2 ^ 72 * Nat.card {a : BitVec 55 // P a} - (if P 0 then 1 else 0) := by
  have hne : den64 r ≠ 0 := fun h => h0 ((den64_eq_zero r).1 h)
  have ha := GF2.ann_t64
  have hT : TL r = TL ⟨0, 0, 0xfa051f40, 0xffd0fff4, 0x58d02ffeffbfffbc⟩ := by
    obtain ⟨s0, s1, m1, m2, t⟩ := r
    dsimp only at h1 h2
    subst h1 h2
    rfl
  rw [← hT] at ha
  have e : ∀ k, stream (gen64 lin) r k = hn lin r ((TL r ^ k) (den64 r)) := by
    intro k
    obtain ⟨hp, hd⟩ := next64_iter r k
    rw [stream_gen64, temper_hn, ← hd]
    obtain ⟨q1, q2, q3⟩ := hp
    unfold hn temper64 tx g0 g1
    rw [q1, q2, q3]
  simp only [e]
  rw [orbit_count (S := S64) (T := TL r) (by decide) finrank_S64 GF2.prim_t64 ha hne (fun u => P ((hn lin r u).setWidth 55))]
  have h3 := TinyMT.card_ne_zero (fun u => P ((hn lin r u).setWidth 55))
  have hz : (hn lin r 0).setWidth 55 = 0 := by
    have e0 : g0 r 0 = 0 := by
      have := g0_add r 0 0
      rw [add_zero, BitVec.xor_self] at this
      exact this
    have e1 : g1 r 0 = 0 := by
      have := g1_add r 0 0
      rw [add_zero, BitVec.xor_self] at this
      exact this
    unfold hn
    rw [e0, e1]
    have : ∀ t, tx lin { r with s0 := 0, s1 := 0, tmat := t } = 0 := fun t => by cases lin <;> simp [tx]
    have := this r.tmat
    unfold temper64
    rw [this, if_neg (by decide)]
    decide
  rw [hn_card lin he, hz] at h3
  omega

/-- **C136.**  With an odd tempering matrix all numbers are even, for all recursion parameters and states, with and without
`LINEARITY_CHECK`: the matrix has to be even. -/
theorem odd_tmat_even (lin : Bool) (r : T64) (ho : r.tmat.getLsbD 0 = true) (k : ℕ) :
    (stream (gen64 lin) r k).getLsbD 0 = false := by
  rw [stream_gen64]
  have ep : (next64 (next64^[k] r)).tmat = r.tmat := by
    rw [next64_eq]
    exact (next64_iter r k).1.2.2
  unfold temper64
  rw [ep]
  split
  · next h =>
    rw [and_one_ne] at h
    rw [BitVec.getLsbD_xor, h, ho]
    rfl
  · next h =>
    rw [and_one_ne, Bool.not_eq_true] at h
    exact h

/-- The hypotheses are met by the objects of `Tiny64`: 5 comes 2^63 times and 0 comes 2^63-1 times. -/
example (seed : BitVec 64) :
    Nat.card {k : ℕ // k < 2 ^ 127 - 1 ∧ stream (gen64 true) (tiny64 seed) k = 5} = 2 ^ 63 ∧
    Nat.card {k : ℕ // k < 2 ^ 127 - 1 ∧ stream (gen64 true) (tiny64 seed) k = 0} = 2 ^ 63 - 1 := by
  refine ⟨?_, ?_⟩ <;> rw [tiny64_number] <;> simp

/-- Both tempering variants: the low 55 bits of the numbers of `Tiny64` have the value 1 exactly 2^72 times. -/
example (lin : Bool) (seed : BitVec 64) :
    Nat.card {k : ℕ // k < 2 ^ 127 - 1 ∧ (stream (gen64 lin) (tiny64 seed) k).setWidth 55 = 1} = 2 ^ 72 := by
  obtain ⟨-, ⟨h1, h2, h3⟩, h0⟩ := tiny_constructed 0 seed
  rw [low64 lin h1 h2 (by rw [h3]; decide) h0 (fun a => a = 1), Nat.card_unique, if_neg (by decide), Nat.mul_one, Nat.sub_zero]

/-- The first numbers with an odd matrix, and with the matrix of `Tiny64`. -/
example : (List.range 3).map (fun k => (stream (gen64 true) ⟨1, 2, 0xfa051f40, 0xffd0fff4, 1⟩ k).getLsbD 0) =
    [false, false, false] ∧
    (List.range 8).any (fun k => (stream (gen64 true) (tiny64 1) k).getLsbD 0) = true := by
  decide +kernel

end MTT.TinyRef
