import Verif.Samples.TinyMTVariantsProps
import Verif.Samples.TinyFloatProps

/-!
# C129: over one period of TinyMT every 32-bit number occurs equally often, 0 once less
-/

namespace MTT.TinyMT

open Polynomial PIS Search

/-! ### The highest bit -/

theorem xor_top (x : BitVec 32) : x ^^^ 0x80000000 = x + 0x80000000 := by
  apply BitVec.eq_of_getLsbD_eq
  intro i hi
  rw [BitVec.getLsbD_add hi, BitVec.getLsbD_xor]
  have hc : BitVec.carry i x (0x80000000 : BitVec 32) false = false := by
    have h0 : (0x80000000 : ℕ) % 2 ^ i = 0 := by
      have : (0x80000000 : ℕ) = 2 ^ i * 2 ^ (31 - i) := by
        rw [← pow_add, show i + (31 - i) = 31 by omega]; norm_num
      rw [this, Nat.mul_mod_right]
    have hlt : x.toNat % 2 ^ i < 2 ^ i := Nat.mod_lt _ (by positivity)
    unfold BitVec.carry
    rw [show (0x80000000 : BitVec 32).toNat = 0x80000000 from rfl, h0]
    simpa using hlt
  rw [hc, Bool.xor_false]

theorem eq_or_top {x y : BitVec 32} (h : x.setWidth 31 = y.setWidth 31) : y = x ∨ y = x ^^^ 0x80000000 := by
  have hb : ∀ i, i < 31 → x.getLsbD i = y.getLsbD i := by
    intro i hi
    have := congrArg (fun z : BitVec 31 => z.getLsbD i) h
    simpa only [BitVec.getLsbD_setWidth, hi, decide_true, Bool.true_and] using this
  have ht : ∀ i, i < 32 → (0x80000000 : BitVec 32).getLsbD i = decide (i = 31) := by decide
  by_cases h31 : x.getLsbD 31 = y.getLsbD 31
  · left
    apply BitVec.eq_of_getLsbD_eq
    intro i hi
    by_cases h' : i = 31
    · rw [h', h31]
    · rw [hb i (by omega)]
  · right
    apply BitVec.eq_of_getLsbD_eq
    intro i hi
    rw [BitVec.getLsbD_xor, ht i hi]
    by_cases h' : i = 31
    · subst h'
      revert h31
      cases x.getLsbD 31 <;> cases y.getLsbD 31 <;> simp
    · rw [hb i (by omega)]; simp [h']

/-! ### One step determines the state, if the output and 95 of the bits after it are known -/

/-- `t1` of the tempering after a step, with exclusive or or with addition. -/
def tt : Macro → St → S → BitVec 32
  | .nonLinear, p, u => u.2.1.val + (f2 p u >>> 8)
  | _, p, u => u.2.1.val ^^^ (f2 p u >>> 8)

theorem out_eq {c : Macro} (hc : c ≠ .noTemper) (t : St) :
    (generateC c t).2 = fy (den t) ^^^ tt c t (den t) ^^^ sel ((tt c t (den t)).getLsbD 0) t.tmat := by
  cases c
  · exact temper_next t
  · show temperC .nonLinear (nextState t) = _
    rw [nextState_eq]
    have h1 : (den t).2.1.val = t.s1 := rfl
    simp only [temperC, tt]
    split
    · next h =>
      rw [and_one_ne] at h
      simp only [h1, h, sel, if_true]
    · next h =>
      rw [and_one_ne, Bool.not_eq_true] at h
      simp only [h1, h, sel, Bool.false_eq_true, if_false]
      simp
  · exact absurd rfl hc

/-- The element whose image differs from 0 in the highest bit of the last word only. -/
def ones : S := (Wd.of 0, Wd.of 0, Wd.of 0, Wd.of 0xffffffff)

theorem T_ones (p : St) : T p ones = (Wd.of 0, Wd.of 0, Wd.of 0, Wd.of 0x80000000) := by
  have hx : fx ones = 0 := by decide
  have hy : fy ones = 0x80000000 := by decide
  have h1 : f1 p ones = 0 := by
    have e : ones.2.2.1.val = 0 := rfl
    unfold f1; rw [hy, e]
    have : (0x80000000 : BitVec 32).getLsbD 0 = false := by decide
    rw [this]; simp [sel]
  have h2 : f2 p ones = 0 := by
    unfold f2; rw [hx, hy]
    have : (0x80000000 : BitVec 32).getLsbD 0 = false := by decide
    rw [this]; simp [sel]
  have h0 : ones.2.1.val.setWidth 31 = 0 := by decide
  simp only [T, linOf_apply, h1, h2, hy, h0]

theorem tt_flip {c : Macro} {p : St} {u u' : S} (h1 : u'.2.1.val = u.2.1.val ^^^ 0x80000000) (h2 : f2 p u' = f2 p u) :
    tt c p u' = tt c p u ^^^ 0x80000000 := by
  cases c
  · simp only [tt]; rw [h1, h2]; ac_rfl
  · simp only [tt]
    rw [h1, h2, xor_top, xor_top, BitVec.add_assoc, BitVec.add_assoc, BitVec.add_comm 0x80000000]
  · simp only [tt]; rw [h1, h2]; ac_rfl

theorem out_inj {c : Macro} {p : St} {u u' : S} (h0 : (T p u).1 = (T p u').1) (h1 : (T p u).2.1 = (T p u').2.1)
    (h2 : (T p u).2.2.1 = (T p u').2.2.1)
    (ho : fy u ^^^ tt c p u ^^^ sel ((tt c p u).getLsbD 0) p.tmat =
      fy u' ^^^ tt c p u' ^^^ sel ((tt c p u').getLsbD 0) p.tmat) : u = u' := by
  have g2 : f2 p u' = f2 p u := (congrArg Wd.val h2).symm
  have g0 : u.2.1.val.setWidth 31 = u'.2.1.val.setWidth 31 := congrArg Wd.val h0
  apply (T_bijective p).1
  rcases eq_or_top g0 with e | e
  · have ht : tt c p u' = tt c p u := by cases c <;> simp only [tt, e, g2]
    rw [ht] at ho
    have hy : fy u = fy u' := by
      rw [BitVec.xor_assoc, BitVec.xor_assoc] at ho
      exact (BitVec.xor_left_inj _).mp ho
    exact Prod.ext h0 (Prod.ext h1 (Prod.ext h2 (congrArg Wd.of hy)))
  · exfalso
    have ht := tt_flip (c := c) e g2
    have hb : (tt c p u').getLsbD 0 = (tt c p u).getLsbD 0 := by
      rw [ht, BitVec.getLsbD_xor, show (0x80000000 : BitVec 32).getLsbD 0 = false by decide, Bool.xor_false]
    rw [hb] at ho
    have ho := (BitVec.xor_left_inj _).mp ho
    have hy : fy u' = fy u ^^^ 0x80000000 := by
      rw [ht] at ho
      have e3 : fy u' = (fy u' ^^^ (tt c p u ^^^ 0x80000000)) ^^^ (tt c p u ^^^ 0x80000000) := by
        rw [BitVec.xor_assoc, BitVec.xor_self, BitVec.xor_zero]
      rw [e3, ← ho]
      have : ∀ a b d : BitVec 32, a ^^^ b ^^^ (b ^^^ d) = a ^^^ (b ^^^ b) ^^^ d := fun a b d => by ac_rfl
      rw [this, BitVec.xor_self, BitVec.xor_zero]
    have hT : T p u' = T p (u + ones) := by
      rw [map_add, T_ones]
      refine Prod.ext ?_ (Prod.ext ?_ (Prod.ext ?_ ?_))
      · exact h0.symm.trans (add_zero (T p u).1).symm
      · exact h1.symm.trans (add_zero (T p u).2.1).symm
      · exact h2.symm.trans (add_zero (T p u).2.2.1).symm
      · exact congrArg Wd.of hy
    have hu := (T_bijective p).1 hT
    have e4 : u'.2.1 = u.2.1 := by rw [hu]; exact add_zero u.2.1
    rw [e4] at e
    have := congrArg (fun z => z ^^^ u.2.1.val) e
    rw [BitVec.xor_self, BitVec.xor_comm, ← BitVec.xor_assoc, BitVec.xor_self] at this
    exact absurd this (by decide)

/-! ### Counting -/

/-- If `F` together with something else of the right size is injective, every value of `F` is taken equally often. -/
theorem fibre_card {A B C : Type} [Finite A] [Finite B] [Finite C] (G : A → B) (F : A → C)
    (hinj : ∀ x y, G x = G y → F x = F y → x = y) (hcard : Nat.card A = Nat.card B * Nat.card C) (P : C → Prop) :
    Nat.card {x : A // P (F x)} = Nat.card B * Nat.card {a : C // P a} := by
  have hb : Function.Bijective (fun x => (G x, F x)) := by
    rw [Nat.bijective_iff_injective_and_card]
    refine ⟨fun x y h => hinj x y (congrArg Prod.fst h) (congrArg Prod.snd h), ?_⟩
    rw [hcard, Nat.card_prod]
  rw [← Nat.card_prod]
  refine Nat.card_congr (Equiv.ofBijective (fun x => (G x.1, ⟨F x.1, x.2⟩)) ⟨?_, ?_⟩)
  · rintro ⟨x, hx⟩ ⟨y, hy⟩ h
    exact Subtype.ext (hinj x y (congrArg Prod.fst h) (congrArg (fun z => z.2.1) h))
  · rintro ⟨b, a, ha⟩
    obtain ⟨x, hx⟩ := hb.2 (b, a)
    have h2 : F x = a := congrArg Prod.snd hx
    subst h2
    exact ⟨⟨x, ha⟩, Prod.ext (congrArg (fun z => z.1) hx) rfl⟩

open Classical in
theorem card_ne_zero {A : Type} [Zero A] [Finite A] (Q : A → Prop) :
    Nat.card {x : A // Q x} = Nat.card {x : A // x ≠ 0 ∧ Q x} + (if Q 0 then 1 else 0) := by
  have := Fintype.ofFinite A
  rw [Nat.card_eq_fintype_card, Nat.card_eq_fintype_card, Fintype.card_subtype, Fintype.card_subtype]
  by_cases h : Q 0
  · rw [if_pos h, ← Finset.card_erase_add_one (a := (0 : A)) (by simpa using h)]
    congr 2
    ext x; simp
  · rw [if_neg h, add_zero]
    congr 1
    ext x
    simp only [Finset.mem_filter, Finset.mem_univ, true_and]
    refine ⟨fun e => ⟨fun h0 => h (h0 ▸ e), e⟩, fun e => e.2⟩

/-- The output as a function of the effective state. -/
def fout (c : Macro) (p : St) (u : S) : BitVec 32 := (generateC c (mk u (par p))).2

theorem fout_of {c : Macro} {s t : St} (ht : SamePar s t) : (generateC c t).2 = fout c s (den t) := by
  have e : nextState (mk (den t) (par s)) = { nextState t with id := 0, rev := false } := by
    rw [nextState_eq, nextState_eq, den_mk]
    obtain ⟨g1, g2, g3, g4⟩ := ht
    have k1 : f1 (mk (den t) (par s)) = f1 t := by funext x; unfold f1; rw [g1]; rfl
    have k2 : f2 (mk (den t) (par s)) = f2 t := by funext x; unfold f2; rw [g2]; rfl
    rw [k1, k2]
    simp only [mk, par, den, g1, g2, g3]
    rfl
  unfold fout generateC
  dsimp only
  rw [e]
  cases c <;> rfl

theorem fout_eq {c : Macro} (hc : c ≠ .noTemper) (p : St) (u : S) :
    fout c p u = fy u ^^^ tt c p u ^^^ sel ((tt c p u).getLsbD 0) p.tmat := by
  unfold fout
  rw [out_eq hc, den_mk]
  cases c <;> rfl

theorem card_S : Nat.card S = Nat.card (Wd 31 × Wd 32 × Wd 32) * Nat.card (BitVec 32) := by
  have h : Nat.card (BitVec 32) = 2 ^ 32 := (Wd.card (w := 32))
  show Nat.card (Wd 31 × Wd 32 × Wd 32 × Wd 32) = _
  rw [h]
  simp only [Nat.card_prod, Wd.card]
  norm_num

theorem fout_card (c : Macro) (p : St) (P : BitVec 32 → Prop) :
    Nat.card {u : S // P (fout c p u)} = 2 ^ 95 * Nat.card {a : BitVec 32 // P a} := by
  have hB : Nat.card (Wd 31 × Wd 32 × Wd 32) = 2 ^ 95 := by
    simp only [Nat.card_prod, Wd.card]; norm_num
  rw [← hB]
  have : Finite (BitVec 32) := inferInstanceAs (Finite (Wd 32))
  by_cases hc : c = .noTemper
  · subst hc
    refine fibre_card (fun u : S => (u.1, u.2.2.1, u.2.2.2)) _ ?_ card_S P
    intro x y h1 h2
    have e : x.2.1.val = y.2.1.val := by
      have := h2
      unfold fout at this
      rw [noTemper_out, noTemper_out] at this
      exact this
    exact Prod.ext (congrArg (fun z => z.1) h1) (Prod.ext (congrArg Wd.of e)
      (Prod.ext (congrArg (fun z => z.2.1) h1) (congrArg (fun z => z.2.2) h1)))
  · refine fibre_card (fun u : S => ((T p u).1, (T p u).2.1, (T p u).2.2.1)) _ ?_ card_S P
    intro x y h1 h2
    rw [fout_eq hc, fout_eq hc] at h2
    exact out_inj (congrArg (fun z => z.1) h1) (congrArg (fun z => z.2.1) h1) (congrArg (fun z => z.2.2) h1) h2

theorem fout_zero (c : Macro) (p : St) : fout c p 0 = 0 := by
  by_cases hc : c = .noTemper
  · subst hc
    unfold fout
    rw [noTemper_out]
    rfl
  · have hy : fy 0 = 0 := by decide
    have hx : fx 0 = 0 := by decide
    have h2 : f2 p 0 = 0 := by
      unfold f2; rw [hx, hy]
      have : (0 : BitVec 32).getLsbD 0 = false := by decide
      rw [this]; simp [sel]
    have e : (0 : S).2.1.val = 0 := rfl
    have ht : tt c p 0 = 0 := by cases c <;> simp only [tt, h2, e] <;> decide
    rw [fout_eq hc, hy, ht]
    have : (0 : BitVec 32).getLsbD 0 = false := by decide
    rw [this]; simp [sel]

open Classical in
/-- **C129.**  If the recursion of `tinymt32` is maximal, then for every tempering matrix, with `NON_LINEAR`, with `NO_TEMPER`
or with neither, and from every non-zero state, the outputs with any given property are met in exact proportion during one
period of 2^127-1: 2^95 times for each number that has the property, once less if 0 has it. -/
theorem uniform (c : Macro) {s : St} (h : Maximal s.mat1 s.mat2) (hs : isZero s = false) (P : BitVec 32 → Prop) :
    Nat.card {k : ℕ // k < 2 ^ 127 - 1 ∧ P (outAt (opsC c) s k)} =
      2 ^ 95 * Nat.card {a : BitVec 32 // P a} - (if P 0 then 1 else 0) := by
  have hden : den s ≠ 0 := by rw [Ne, ← isZero_iff, hs]; simp
  have e : ∀ k, outAt (opsC c) s k = fout c s ((T s ^ k) (den s)) := by
    intro k
    show (generateC c (stateAt (opsC c) s k)).2 = _
    rw [stateAt_C]
    obtain ⟨g1, g2⟩ := stateAt_den s k
    rw [fout_of g1, g2]
  simp only [e]
  rw [orbit_count (S := S) (T := T s) (p := (T s).charpoly) (by omega) finrank_S (maximal_primitive h)
    (fun x => (charpoly_hyps (T s) x).2.1) hden (fun u => P (fout c s u))]
  have h1 := card_ne_zero (fun u => P (fout c s u))
  rw [fout_card, fout_zero] at h1
  omega

/-- **C129.**  Each number occurs 2^95 times, 0 once less. -/
theorem uniform_number (c : Macro) {s : St} (h : Maximal s.mat1 s.mat2) (hs : isZero s = false) (a : BitVec 32) :
    Nat.card {k : ℕ // k < 2 ^ 127 - 1 ∧ outAt (opsC c) s k = a} = if a = 0 then 2 ^ 95 - 1 else 2 ^ 95 := by
  rw [uniform c h hs (fun b => b = a), Nat.card_unique]
  by_cases ha : a = 0
  · rw [if_pos ha, if_pos ha.symm, Nat.mul_one]
  · rw [if_neg ha, if_neg (fun h => ha h.symm), Nat.mul_one, Nat.sub_zero]

end MTT.TinyMT

namespace MTT.TinyRef

open PIS
open TinyMT (Macro opsC Maximal isZero_iff uniform)

/-- The tempering of tinymt32.h in terms of that of the search program. -/
def macroOf (lin : Bool) : Macro := if lin then .none else .nonLinear

theorem stream_obj (lin : Bool) (r : T32) (k : ℕ) : stream (gen32 lin) r k = outAt (opsC (macroOf lin)) r.obj k := by
  have h : ∀ k, (next32^[k] r).obj = stateAt (opsC (macroOf lin)) r.obj k := by
    intro k
    induction k with
    | zero => rfl
    | succ k ih =>
      rw [Function.iterate_succ_apply', next32_obj, ih]
      rfl
  rw [stream_gen32]
  show _ = TinyMT.temperC (macroOf lin) (TinyMT.nextState (stateAt (opsC (macroOf lin)) r.obj k))
  rw [← h, ← next32_obj]
  cases lin
  · exact ((TinyMT.nonLinear_reference _).1).symm
  · exact ((TinyMT.nonLinear_reference _).2).symm

theorem isZero_obj {r : T32} (h0 : ¬ Zero32 r) : TinyMT.isZero r.obj = false := by
  rw [← Bool.not_eq_true, isZero_iff]
  exact fun h => h0 ((den32_eq_zero r).1 h)

open Classical in
/-- **C129.**  `tinymt32_generate_uint32` of tinymt32.h: the numbers with any given property are met in exact proportion during
one period, with and without `LINEARITY_CHECK`. -/
theorem uniform32 (lin : Bool) {r : T32} (h : Maximal r.mat1 r.mat2) (h0 : ¬ Zero32 r) (P : BitVec 32 → Prop) :
    Nat.card {k : ℕ // k < 2 ^ 127 - 1 ∧ P (stream (gen32 lin) r k)} =
      2 ^ 95 * Nat.card {a : BitVec 32 // P a} - (if P 0 then 1 else 0) := by
  simp only [stream_obj]
  exact uniform (macroOf lin) (s := r.obj) h (isZero_obj h0) P

/-- 32-bit numbers with given leading 24 bits. -/
theorem card_lead (m : ℕ) (hm : m < 2 ^ 24) : Nat.card {a : BitVec 32 // a.toNat / 2 ^ 8 = m} = 2 ^ 8 := by
  have : Nat.card {a : BitVec 32 // a.toNat / 2 ^ 8 = m} = Nat.card (Fin (2 ^ 8)) := by
    refine Nat.card_congr (Equiv.ofBijective (fun a => ⟨a.1.toNat % 2 ^ 8, Nat.mod_lt _ (by norm_num)⟩) ⟨?_, ?_⟩)
    · rintro ⟨a, ha⟩ ⟨b, hb⟩ h
      have h' : a.toNat % 2 ^ 8 = b.toNat % 2 ^ 8 := congrArg Fin.val h
      have h2 : a.toNat = b.toNat := by omega
      exact Subtype.ext (BitVec.eq_of_toNat_eq h2)
    · rintro ⟨l, hl⟩
      have hlt : m * 2 ^ 8 + l < 2 ^ 32 := by omega
      refine ⟨⟨BitVec.ofNat 32 (m * 2 ^ 8 + l), ?_⟩, ?_⟩
      · rw [BitVec.toNat_ofNat, Nat.mod_eq_of_lt hlt]; omega
      · apply Fin.ext
        show (BitVec.ofNat 32 (m * 2 ^ 8 + l)).toNat % 2 ^ 8 = l
        rw [BitVec.toNat_ofNat, Nat.mod_eq_of_lt hlt]; omega
  rw [this, Nat.card_eq_fintype_card, Fintype.card_fin]

/-- **C129.**  `tinymt32_generate_float` returns each of its 2^24 values equally often in one period, 0 once less. -/
theorem uniform_float {rnd : ℚ → ℚ} (hr : RoundsFloat rnd) (lin : Bool) {r : T32} (h : Maximal r.mat1 r.mat2)
    (h0 : ¬ Zero32 r) (m : ℕ) (hm : m < 2 ^ 24) :
    Nat.card {k : ℕ // k < 2 ^ 127 - 1 ∧ stream (genFloat rnd lin) r k = (m : ℚ) / 2 ^ 24} =
      if m = 0 then 2 ^ 103 - 1 else 2 ^ 103 := by
  have e : ∀ k, (stream (genFloat rnd lin) r k = (m : ℚ) / 2 ^ 24) ↔ (stream (gen32 lin) r k).toNat / 2 ^ 8 = m := by
    intro k
    show (genFloat rnd lin (next32^[k] r)).2 = _ ↔ (gen32 lin (next32^[k] r)).2.toNat / 2 ^ 8 = m
    rw [(genFloat_exact hr lin _).2.1, div_left_inj' (by positivity)]
    exact Nat.cast_inj
  simp only [e]
  rw [uniform32 lin h h0 (fun a => a.toNat / 2 ^ 8 = m), card_lead m hm]
  have hz : ((0 : BitVec 32).toNat / 2 ^ 8 = m) ↔ m = 0 := by
    rw [show (0 : BitVec 32).toNat / 2 ^ 8 = 0 by decide]; exact eq_comm
  by_cases h' : m = 0
  · rw [if_pos (hz.2 h'), if_pos h']; norm_num
  · rw [if_neg (fun q => h' (hz.1 q)), if_neg h']; norm_num

/-- **C129.**  `tinymt32_generate_32double`, documented as never 0, returns 0 exactly 2^95-1 times in each period. -/
theorem zeros_32double {rnd : ℚ → ℚ} (hr : RoundsDouble rnd) (lin : Bool) {r : T32} (h : Maximal r.mat1 r.mat2)
    (h0 : ¬ Zero32 r) :
    Nat.card {k : ℕ // k < 2 ^ 127 - 1 ∧ stream (gen32double rnd lin) r k = 0} = 2 ^ 95 - 1 := by
  have e : ∀ k, (stream (gen32double rnd lin) r k = 0) ↔ stream (gen32 lin) r k = 0 := by
    intro k
    show (gen32double rnd lin (next32^[k] r)).2 = _ ↔ (gen32 lin (next32^[k] r)).2 = 0
    rw [(gen32double_exact hr lin _).2.1, div_eq_zero_iff]
    constructor
    · rintro (q | q)
      · exact BitVec.eq_of_toNat_eq (by exact_mod_cast q)
      · exact absurd q (by positivity)
    · intro q; left; rw [q]; rfl
  simp only [e]
  rw [uniform32 lin h h0 (fun a => a = 0), Nat.card_unique, if_pos rfl, Nat.mul_one]

/-- The parameters of `Tiny32` are maximal. -/
theorem tiny32_maximal {r : T32} (h : HasTiny32 r) : Maximal r.mat1 r.mat2 := by
  rw [h.1, h.2.1]
  intro s h1 h2 hz k
  have hden : TinyMT.den s ≠ 0 := by rw [Ne, ← isZero_iff, hz]; simp
  have ha := GF2.ann_t32
  rw [TinyMT.T_congr (t := s) h1.symm h2.symm] at ha
  rw [(TinyMT.stateAt_den s k).2]
  exact Search.period_of_primitive (by decide) GF2.prim_t32 (ha _) hden k

/-- The objects of `Tiny32` meet the hypotheses, whatever the seed: the number 5 comes 2^95 times. -/
example (seed : BitVec 32) :
    Nat.card {k : ℕ // k < 2 ^ 127 - 1 ∧ stream (gen32 false) (tiny32 seed) k = 5} = 2 ^ 95 := by
  obtain ⟨h, h0⟩ := (tiny_constructed seed 0).1
  rw [uniform32 false (tiny32_maximal h) h0 (fun a => a = 5), Nat.card_unique, if_neg (by decide), Nat.mul_one, Nat.sub_zero]

/-- Likewise the object of the search program with any tempering matrix. -/
example (tmat : BitVec 32) (c : Macro) :
    Nat.card {k : ℕ // k < 2 ^ 127 - 1 ∧ outAt (opsC c) ⟨0, 1, 0, 0, 0, 0x8f7011ee, 0xfc78ff1f, tmat, false⟩ k = 0} = 2 ^ 95 - 1 := by
  have := TinyMT.uniform_number c (s := ⟨0, 1, 0, 0, 0, 0x8f7011ee, 0xfc78ff1f, tmat, false⟩)
    (tiny32_maximal (r := ⟨0, 0, 0, 0, 0x8f7011ee, 0xfc78ff1f, 0x3793fdff⟩) ⟨rfl, rfl, rfl⟩) (by simp [TinyMT.isZero]) 0
  rwa [if_pos rfl] at this

end MTT.TinyRef
