import Verif.Samples.TinyMTDC
import Verif.Samples.TinyMTProps
import Verif.Samples.XorShiftSearch
import Verif.Temper.Props
import Verif.Search.RTProps
import Mathlib.NumberTheory.LucasLehmer

/-!
# C57, C58, C59: the TinyMT dynamic creator
-/

namespace MTT.TinyMT

open Polynomial PIS Search Temper

/-! ## The measured defect -/

/-- Specification: `d` is the sum of the dimension defects of the outputs of the generator (in the order
given by the flag `rev`), over the states reachable from `s`. -/
def IsDefect (s : St) (rev : Bool) (d : ℤ) : Prop :=
  ∃ k : ℕ → ℕ, (∀ v, 1 ≤ v → v ≤ 32 →
      IsGreatest {k | Equidist (T s) (if rev then OR s else O s) (cyc (T s) (den s)) v k} (k v)) ∧
    d = ∑ v ∈ Finset.Icc 1 32, ((127 / v : ℕ) - (k v : ℤ))

theorem isDefect_unique {s : St} {rev : Bool} {d e : ℤ} (h1 : IsDefect s rev d) (h2 : IsDefect s rev e) :
    d = e := by
  obtain ⟨k, hk, rfl⟩ := h1
  obtain ⟨k', hk', rfl⟩ := h2
  apply Finset.sum_congr rfl
  intro v hv
  rw [Finset.mem_Icc] at hv
  rw [(hk v hv.1 hv.2).unique (hk' v hv.1 hv.2)]

theorem measure_spec (veq : ℕ → ℕ) (s : St) : ∃ d, measure veq 32 s = some d ∧ IsDefect s false d := by
  obtain ⟨r, e1, e2, e3⟩ := equidist (clone s) veq
  refine ⟨r.sum, ?_, fun v => r.veq (v - 1), ?_, e3⟩
  · unfold measure; rw [e1]
  · exact e2

theorem isDefect_le {s : St} {rev : Bool} {d : ℤ} (h : IsDefect s rev d) : d ≤ 127 * 32 := by
  obtain ⟨k, -, rfl⟩ := h
  calc _ ≤ ∑ _v ∈ Finset.Icc 1 32, (127 : ℤ) := Finset.sum_le_sum fun v _ => by
          have : 127 / v ≤ 127 := Nat.div_le_self _ _
          omega
    _ = _ := by simp

/-! ## C59: the reverse mode -/

/-- **C59, negation for tinymt32.**  The defect measured by the searches never depends on the reverse mode:
in reverse mode it is the defect of the outputs in normal order. -/
theorem measure_ignores_reverse (veq : ℕ → ℕ) (L : ℕ) (s : St) :
    measure veq L (setReverse s) = measure veq L (resetReverse s) := rfl

/-- A state that is a fixed point and puts out 0xe0681602 for ever. -/
def fixedSt : St := ⟨0x20180201, 0x20180201, 0x20180200, 0xc0500c01, 0, 1, 0, 0, false⟩

theorem fixedSt_fixed : T fixedSt (den fixedSt) = den fixedSt := by
  have h : nextState fixedSt = fixedSt := by decide
  rw [← next_den (p := fixedSt) ⟨rfl, rfl, rfl, rfl⟩, h]

theorem fixedSt_cyc : cyc (T fixedSt) (den fixedSt) = Submodule.span (ZMod 2) {den fixedSt} := by
  unfold cyc
  congr 1
  ext x
  have h : ∀ j : ℕ, ((T fixedSt) ^ j) (den fixedSt) = den fixedSt := fun j => by
    induction j with
    | zero => rfl
    | succ j ih => rw [pow_succ', Module.End.mul_apply, ih, fixedSt_fixed]
  simp only [Set.mem_range, h, Set.mem_singleton_iff, exists_const]
  exact eq_comm

theorem equidist_fixed {O' : S →ₗ[ZMod 2] V} {v k : ℕ}
    (h : Equidist (T fixedSt) O' (cyc (T fixedSt) (den fixedSt)) v k) (a : ℕ → V) :
    ∃ c : ZMod 2, ∀ t < k, ∀ i < v, c * O' (den fixedSt) i = a t i := by
  obtain ⟨s, hs, h1⟩ := h a
  rw [fixedSt_cyc, Submodule.mem_span_singleton] at hs
  obtain ⟨c, rfl⟩ := hs
  refine ⟨c, fun t ht i hi => ?_⟩
  rw [← h1 t ht i hi]
  have h2 : ∀ j : ℕ, ((T fixedSt) ^ j) (den fixedSt) = den fixedSt := fun j => by
    induction j with
    | zero => rfl
    | succ j ih => rw [pow_succ', Module.End.mul_apply, ih, fixedSt_fixed]
  rw [map_smul, h2, map_smul]
  rfl

theorem fixed_out : O fixedSt (den fixedSt) = bits (0xe0681602 : BitVec 32) ∧
    OR fixedSt (den fixedSt) = bits (0x40681607 : BitVec 32) := by
  have h1 : fo fixedSt (den fixedSt) = 0xe0681602 := by
    rw [← temper_next]; decide
  constructor
  · show bits (fo fixedSt (den fixedSt)) = _
    rw [h1]
  · show bits (fo fixedSt (den fixedSt)).reverse = _
    rw [h1, show (0xe0681602 : BitVec 32).reverse = 0x40681607 by decide +kernel]

theorem fixed_kv {O' : S →ₗ[ZMod 2] V} {k : ℕ → ℕ} (h1 : O' (den fixedSt) 1 = 1)
    (hk : ∀ v, 1 ≤ v → v ≤ 32 →
      IsGreatest {k | Equidist (T fixedSt) O' (cyc (T fixedSt) (den fixedSt)) v k} (k v)) :
    k 1 = (if O' (den fixedSt) 0 = 1 then 1 else 0) ∧ ∀ v, 2 ≤ v → v ≤ 32 → k v = 0 := by
  have two : ∀ v, 1 ≤ v → v ≤ 32 → k v < 2 := fun v hv hv' => by
    by_contra hc
    obtain ⟨c, hc'⟩ := equidist_fixed (hk v hv hv').1 (fun t _ => if t = 0 then 0 else 1)
    have e1 := hc' 0 (by omega) 0 (by omega)
    have e2 := hc' 1 (by omega) 0 (by omega)
    rw [e1] at e2
    simp at e2
  constructor
  · have h2 := two 1 le_rfl (by omega)
    split
    · next h0 =>
      have hm : Equidist (T fixedSt) O' (cyc (T fixedSt) (den fixedSt)) 1 1 := by
        intro a
        refine ⟨a 0 0 • den fixedSt, ?_, ?_⟩
        · rw [fixedSt_cyc, Submodule.mem_span_singleton]; exact ⟨_, rfl⟩
        · intro t ht i hi
          obtain rfl : t = 0 := by omega
          obtain rfl : i = 0 := by omega
          rw [pow_zero, Module.End.one_apply, map_smul]
          show a 0 0 * O' (den fixedSt) 0 = _
          rw [h0, mul_one]
      have := (hk 1 le_rfl (by omega)).2 hm
      omega
    · next h0 =>
      by_contra hne
      obtain ⟨c, hc⟩ := equidist_fixed (hk 1 le_rfl (by omega)).1 (fun _ _ => 1)
      have e1 := hc 0 (by omega) 0 (by omega)
      have h01 : ∀ x y : ZMod 2, x * y = 1 → y = 1 := by decide
      exact h0 (h01 _ _ e1)
  · intro v hv hv'
    by_contra hne
    obtain ⟨c, hc⟩ := equidist_fixed (hk v (by omega) hv').1 (fun _ i => if i = 0 then 1 else 0)
    have e1 := hc 0 (by omega) 0 (by omega)
    have e2 := hc 0 (by omega) 1 (by omega)
    rw [h1, mul_one] at e2
    simp only [one_ne_zero, if_false] at e2
    rw [e2] at e1
    simp at e1

/-- **C59, negation for tinymt32**: there is a state for which the defect of the reversed outputs differs
from the one that is measured in reverse mode. -/
theorem reverse_measure_wrong (veq : ℕ → ℕ) :
    ∃ s : St, s.rev = true ∧ ∃ d e, measure veq 32 s = some d ∧ IsDefect s true e ∧ d ≠ e := by
  refine ⟨setReverse fixedSt, rfl, ?_⟩
  obtain ⟨d, h1, k, hk, hd⟩ := measure_spec veq (setReverse fixedSt)
  obtain ⟨r, -, e2, e3⟩ := equidist (setReverse fixedSt) veq
  refine ⟨d, r.sum, h1, ⟨fun v => r.veq (v - 1), e2, e3⟩, ?_⟩
  obtain ⟨o1, o2⟩ := fixed_out
  have a1 := fixed_kv (O' := O fixedSt) (k := k) (by rw [o1]; rfl) hk
  have a2 := fixed_kv (O' := OR fixedSt) (k := fun v => r.veq (v - 1)) (by rw [o2]; rfl) e2
  have b1 : k 1 = 1 := by rw [a1.1, if_pos (by rw [o1]; rfl)]
  have b2 : r.veq 0 = 0 := by
    have := a2.1
    rw [if_neg (by rw [o2]; intro h; cases h)] at this
    exact this
  rw [hd, e3, ← sub_ne_zero, ← Finset.sum_sub_distrib,
    Finset.sum_eq_single_of_mem 1 (Finset.mem_Icc.2 ⟨le_rfl, by omega⟩)]
  · rw [b1, b2]; decide
  · intro v hv hne
    rw [Finset.mem_Icc] at hv
    rw [a1.2 v (by omega) hv.2, a2.2 v (by omega) hv.2]
    ring

/-! ## C35, C53: the tempering search of TinyMT -/

/-- **C53.**  `setTemperingPattern` replaces exactly the bits under the mask. -/
theorem setPat_bit (m q : BitVec 32) (j : ℕ) (s : St) (i : ℕ) (hi : i < 32) :
    (setTemperingPattern m q j s).tmat.getLsbD i = if m.getLsbD i then q.getLsbD i else s.tmat.getLsbD i := by
  simp only [setTemperingPattern, BitVec.getLsbD_or, BitVec.getLsbD_and, BitVec.getLsbD_not, hi, decide_true]
  cases m.getLsbD i <;> simp

theorem setPat_set (m q q' : BitVec 32) (j j' : ℕ) (s : St) :
    setTemperingPattern m q j (setTemperingPattern m q' j' s) = setTemperingPattern m q j s := by
  have : (setTemperingPattern m q j (setTemperingPattern m q' j' s)).tmat =
      (setTemperingPattern m q j s).tmat := by
    apply BitVec.eq_of_getLsbD_eq
    intro i hi
    rw [setPat_bit _ _ _ _ _ hi, setPat_bit _ _ _ _ _ hi, setPat_bit _ _ _ _ _ hi]
    split <;> rfl
  unfold setTemperingPattern at this ⊢
  dsimp only at this ⊢
  rw [this]

theorem setPat_same (m : BitVec 32) (j : ℕ) (s : St) : setTemperingPattern m (s.tmat &&& m) j s = s := by
  have : (setTemperingPattern m (s.tmat &&& m) j s).tmat = s.tmat := by
    apply BitVec.eq_of_getLsbD_eq
    intro i hi
    rw [setPat_bit _ _ _ _ _ hi, BitVec.getLsbD_and]
    cases m.getLsbD i <;> simp
  unfold setTemperingPattern at this ⊢
  dsimp only at this ⊢
  rw [this]

/-- TinyMT meets the contract of the tempering search, with one tempering parameter. -/
theorem temperContract (veq : ℕ → ℕ) :
    TemperContract (temperOps veq) 1 (fun _ => True) (fun s _ => s.tmat) where
  set_inv _ _ _ _ _ _ := trivial
  set_set m p p' i s _ _ := setPat_set m p p' i i s
  set_par _ _ _ _ _ _ := rfl
  set_par_ne _ _ _ _ _ _ _ _ _ := by omega
  set_same m i s _ _ := setPat_same m i s
  setUp_setUp _ := rfl
  setUp_inv _ _ := trivial
  delta_le s _ := by
    obtain ⟨d, h1, h2⟩ := measure_spec veq s
    exact ⟨d, h1, isDefect_le h2⟩

/-- Same object apart from the tempering matrix. -/
def SameRec (s t : St) : Prop := t = { s with tmat := t.tmat }

theorem sameRec_reached (veq : ℕ → ℕ) {s t : St} (h : Reached (temperOps veq) 1 s t) : SameRec s t := by
  induction h with
  | refl => rfl
  | step m p i t hi _ ih =>
    unfold SameRec at ih ⊢
    show setTemperingPattern m p i t = _
    rw [ih]
    rfl

theorem st_spec (veq : ℕ → ℕ) (P : PBPar) (hP : P.bitLen = 32) (hn : P.paramNum = 1) (hL : P.tryLen ≤ 32)
    (h1 : 1 ≤ P.step) (h31 : P.step < 31) (s : St) (hs : s.rev = false) :
    ∃ t, partialBitPattern (temperOps veq) P (P.tryLen + 1) s = some t ∧ SameRec s t ∧
      ∃ d e, IsDefect s false d ∧ IsDefect t false e ∧ e ≤ d := by
  obtain ⟨t, ht, hb⟩ := partialBitPattern_correct (temperContract veq) P hP hn.le hL h1 h31 s trivial
  have hr := sameRec_reached veq hb.reached
  refine ⟨resetReverse t, ht, ?_, ?_⟩
  · unfold SameRec at hr ⊢
    have : t.mat1 = s.mat1 := by rw [hr]; cases P.lsb <;> rfl
    rw [hr]
    cases P.lsb
    · show resetReverse { resetReverse s with tmat := t.tmat } = _
      simp only [resetReverse, hs]
    · show resetReverse { setReverse s with tmat := t.tmat } = _
      simp only [resetReverse, setReverse, hs]
  · obtain ⟨d, e, h2, h3, h4⟩ := hb.le
    refine ⟨d, e, ?_, ?_, h4⟩
    · obtain ⟨d', h5, h6⟩ := measure_spec veq s
      have : measure veq 32 s = some d := by
        rw [← h2]
        cases P.lsb <;> rfl
      rw [h5, Option.some.injEq] at this
      exact this ▸ h6
    · obtain ⟨e', h5, h6⟩ := measure_spec veq (resetReverse t)
      have : measure veq 32 (resetReverse t) = some e := h3
      rw [h5, Option.some.injEq] at this
      exact this ▸ h6

/-! ## C57, C58: the program -/

/-- Recursion and tempering parameters. -/
abbrev Par := BitVec 32 × BitVec 32 × BitVec 32

def par (s : St) : Par := (s.mat1, s.mat2, s.tmat)

def parSt (p : Par) : St := ⟨0, 0, 0, 0, 0, p.1, p.2.1, p.2.2, false⟩

theorem samePar_iff (p : Par) (s : St) : SamePar (parSt p) s ↔ s.rev = false ∧ par s = p := by
  obtain ⟨p1, p2, p3⟩ := p
  simp only [SamePar, parSt, par, Prod.mk.injEq]
  tauto

/-- **C33 for tinymt32.**  The class satisfies the contract of the search. -/
theorem family : Family searchOps (fun s => s.rev = false) par den (fun p => T (parSt p))
    (fun p => O (parSt p)) where
  lin p := by
    have : (fun s : St => s.rev = false ∧ par s = p) = SamePar (parSt p) := by
      funext s; rw [samePar_iff]
    rw [this]
    exact linGen (parSt p) rfl
  dim := finrank_S
  pos := by show 1 ≤ 127; omega
  wpos := by omega
  setUp_inv := fun s src s' src' h h' => by
    have h'' : (match Seq.getUint32 src with
      | (src', some r) => some (setUpParam r s, src') | (_, none) => none) = some (s', src') := h'
    split at h''
    · injection h'' with e
      injection e with e1 e2
      rw [← e1]; exact h
    · cases h''
  seed_inv := fun _ h => h
  seed_par := fun _ _ => rfl

theorem prime127 : Nat.Prime (2 ^ 127 - 1) := by
  have : (mersenne 127).Prime := lucas_lehmer_sufficiency _ (by simp) (by norm_num)
  exact this

/-- Specification: with the recursion parameters `mat1`, `mat2` every non-zero state has period `2^127-1`
(whatever the tempering matrix is). -/
def Maximal (mat1 mat2 : BitVec 32) : Prop :=
  ∀ s : St, s.mat1 = mat1 → s.mat2 = mat2 → isZero s = false →
    ∀ k, den (stateAt ops s k) = den s ↔ 2 ^ 127 - 1 ∣ k

theorem stateAt_den (s : St) (n : ℕ) :
    SamePar s (stateAt ops s n) ∧ den (stateAt ops s n) = ((T s) ^ n) (den s) := by
  induction n with
  | zero => exact ⟨⟨rfl, rfl, rfl, rfl⟩, rfl⟩
  | succ n ih =>
    refine ⟨next_par ih.1, ?_⟩
    show den (nextState _) = _
    rw [next_den ih.1, ih.2, pow_succ', Module.End.mul_apply]

theorem T_congr {s t : St} (h1 : s.mat1 = t.mat1) (h2 : s.mat2 = t.mat2) : T s = T t := by
  have e1 : f1 s = f1 t := by funext x; unfold f1; rw [h1]
  have e2 : f2 s = f2 t := by funext x; unfold f2; rw [h2]
  apply LinearMap.ext
  intro x
  simp only [T, linOf_apply, e1, e2]

theorem stateAt_id (s : St) (n : ℕ) : (stateAt ops s n).id = s.id := by
  induction n with
  | zero => rfl
  | succ n ih =>
    show (nextState _).id = _
    rw [nextState_eq]; exact ih

/-- An object with given effective state and parameters. -/
def mk (y : S) (p : Par) : St :=
  ⟨y.1.val.setWidth 32, y.2.1.val, y.2.2.1.val, y.2.2.2.val, 0, p.1, p.2.1, p.2.2, false⟩

theorem den_mk (y : S) (p : Par) : den (mk y p) = y := by
  have : (y.1.val.setWidth 32).setWidth 31 = y.1.val := by
    apply BitVec.eq_of_getLsbD_eq
    intro i hi
    simp [hi]
  show (Wd.of ((y.1.val.setWidth 32).setWidth 31), _) = _
  rw [this]
  rfl

theorem maximal_iff (p : Par) :
    Maximal p.1 p.2.1 ↔ MaxPeriod searchOps (fun s => s.rev = false) par den p 127 := by
  constructor
  · intro h s hs hp h0 k
    have hz : isZero s = false := by rw [← Bool.not_eq_true, isZero_iff]; exact h0
    exact h s (congrArg (·.1) hp) (congrArg (·.2.1) hp) hz k
  · intro h s h1 h2 hz k
    have hden : den s ≠ 0 := by rw [Ne, ← isZero_iff, hz]; simp
    have := h (mk (den s) p) rfl rfl (by rw [den_mk]; exact hden) k
    rw [← this]
    show _ ↔ den (stateAt ops _ k) = _
    rw [(stateAt_den s k).2, (stateAt_den (mk (den s) p) k).2, den_mk,
      T_congr (s := s) (t := mk (den s) p) h1 h2]

theorem bit_of_maximal {s : St} (h : Maximal s.mat1 s.mat2) (ht : s.tmat = 0) (hs : isZero s = false) :
    ∃ i, (outAt ops s i).getLsbD 0 = true := by
  have hden : den s ≠ 0 := by rw [Ne, ← isZero_iff, hs]; simp
  obtain ⟨k, h1, h2⟩ := orbit_all (T := T s) (n := 127) (by omega) finrank_S hden (fun k => by
    rw [← h s rfl rfl hs k, (stateAt_den s k).2]) (y := (0, 0, 0, Wd.of 1)) (by
    intro h0
    have : (1 : BitVec 32) = 0 := congrArg (fun y : S => y.2.2.2.val) h0
    exact absurd this (by decide))
  obtain ⟨j, rfl⟩ : ∃ j, k = j + 1 := ⟨k - 1, by omega⟩
  refine ⟨j, ?_⟩
  have hd := (stateAt_den s (j + 1)).2.trans h2
  have hp := (stateAt_den s (j + 1)).1
  set t := stateAt ops s (j + 1) with hte
  have ho : outAt ops s j = temper t := rfl
  have e3 : t.s3 = 1 := congrArg (fun y : S => y.2.2.2.val) hd
  have e2 : t.s2 = 0 := congrArg (fun y : S => y.2.2.1.val) hd
  have e0 : t.s0.setWidth 31 = 0 := congrArg (fun y : S => y.1.val) hd
  have b0 : t.s0.getLsbD 0 = false := by
    have := congrArg (fun z => z.getLsbD 0) e0
    simpa using this
  rw [ho]
  unfold temper
  rw [hp.2.2.1, ht, e3, e2]
  dsimp only
  have hx : ((1 : BitVec 32) ^^^ (t.s0 ^^^ (0 : BitVec 32) >>> 8)).getLsbD 0 = true := by
    rw [BitVec.getLsbD_xor, BitVec.getLsbD_xor, b0]; decide
  split
  · rw [BitVec.getLsbD_xor, hx]; decide
  · exact hx

/-- The recursion matrices that `setUpParam` derives from the id and a number. -/
def mats (id num : BitVec 32) : BitVec 32 × BitVec 32 :=
  ((setUpParam num (ctor id)).mat1, (setUpParam num (ctor id)).mat2)

/-- The object after `setUpParam`, `seed(1)`. -/
def seeded (id num : BitVec 32) : St := seed 1 (setUpParam num (ctor id))

theorem seeded_eq (id num : BitVec 32) (s : St) (h1 : s.id = id) (h2 : s.rev = false) :
    seed 1 (setUpParam num s) = seeded id num := by
  subst h1
  simp only [seeded, seed, setUpParam, ctor, h2]

/-- The object that a successful search on number `num` starts tempering with. -/
def untempered (id num : BitVec 32) : St := stateAt ops (seeded id num) 254

open Classical in
/-- The numbers below `m` with maximal period, in decreasing order. -/
noncomputable def numbers (id : BitVec 32) (m : ℕ) : List ℕ :=
  (List.range m).reverse.filter fun n =>
    decide (Maximal (mats id (BitVec.ofNat 32 n)).1 (mats id (BitVec.ofNat 32 n)).2)

theorem numbers_pos {id : BitVec 32} {m : ℕ}
    (h : Maximal (mats id (BitVec.ofNat 32 m)).1 (mats id (BitVec.ofNat 32 m)).2) :
    numbers id (m + 1) = m :: numbers id m := by
  unfold numbers
  rw [List.range_succ, List.reverse_append, List.filter_append]
  simp [h]

theorem numbers_neg {id : BitVec 32} {m : ℕ}
    (h : ¬ Maximal (mats id (BitVec.ofNat 32 m)).1 (mats id (BitVec.ofNat 32 m)).2) :
    numbers id (m + 1) = numbers id m := by
  unfold numbers
  rw [List.range_succ, List.reverse_append, List.filter_append]
  simp [h]

variable {mps : MPS} {prim : ℕ → (ZMod 2)[X] → Option Bool} {id : BitVec 32}

theorem tryOnce_rem (hm : MinPolySeqSpec mps) (hprim : PrimOK prim 127) (st : Search.St St (Seq.St 32))
    (hi : st.rand.id = id) (hr : st.rand.rev = false) {m : ℕ} (hrem : XorShift.IsRem st.src (m + 1)) :
    ∃ b st', tryOnce mps searchOps prim st = .ret b st' ∧ XorShift.IsRem st'.src m ∧
      st'.rand = untempered id (BitVec.ofNat 32 m) ∧
      (b = true ↔ Maximal (mats id (BitVec.ofNat 32 m)).1 (mats id (BitVec.ofNat 32 m)).2) ∧
      (b = true → st'.poly = (T (untempered id (BitVec.ofNat 32 m))).charpoly ∧
        Primitive2 st'.poly 127) := by
  obtain ⟨src', e1, e2⟩ := XorShift.next_isRem_succ hrem
  have hsu : searchOps.setUp st.rand st.src =
      some (setUpParam (BitVec.ofNat 32 m) st.rand, src') := by
    show (match Seq.getUint32 st.src with
      | (src', some r) => some (setUpParam r st.rand, src') | (_, none) => none) = _
    rw [e1]
  rcases tryOnce_correct hm family hprim st hr with ⟨h1, _⟩ |
    ⟨r, src, st', b, h1, h2, -, h4, h5, h55, h6, h7, h8⟩
  · rw [hsu] at h1; cases h1
  · rw [hsu] at h1
    injection h1 with h1
    injection h1 with h1 h1'
    subst h1 h1'
    have hseed : searchOps.seedOne (setUpParam (BitVec.ofNat 32 m) st.rand) =
        seeded id (BitVec.ofNat 32 m) := seeded_eq id _ _ hi hr
    have hmat : (par (setUpParam (BitVec.ofNat 32 m) st.rand)).1 = (mats id (BitVec.ofNat 32 m)).1 ∧
        (par (setUpParam (BitVec.ofNat 32 m) st.rand)).2.1 = (mats id (BitVec.ofNat 32 m)).2 := by
      subst hi; exact ⟨rfl, rfl⟩
    have hiff : b = true ↔ Maximal (mats id (BitVec.ofNat 32 m)).1 (mats id (BitVec.ofNat 32 m)).2 := by
      rw [h7, ← hmat.1, ← hmat.2, maximal_iff]
      refine ⟨fun h => h.1, fun h => ⟨h, ?_⟩⟩
      rw [hseed]
      refine bit_of_maximal ?_ rfl ?_
      · have := (maximal_iff _).2 h
        rw [hmat.1, hmat.2] at this
        exact this
      · rw [← Bool.not_eq_true, seeded, seed_isZero]; decide
    refine ⟨b, st', h2, by rw [h4]; exact e2, by rw [h5, hseed]; rfl, hiff, fun hb => ?_⟩
    obtain ⟨g1, g2⟩ := h8 hb
    refine ⟨?_, g2⟩
    rw [g1]
    congr 1
    apply T_congr
    · exact hmat.1.trans (stateAt_den (seeded id (BitVec.ofNat 32 m)) 254).1.1.symm
    · exact hmat.2.trans (stateAt_den (seeded id (BitVec.ofNat 32 m)) 254).1.2.1.symm

theorem untempered_id (id num : BitVec 32) : (untempered id num).id = id := stateAt_id _ _

theorem untempered_rev (id num : BitVec 32) : (untempered id num).rev = false :=
  (stateAt_den (seeded id num) 254).1.2.2.2

/-- Result of the search for the next number. -/
structure Hit (id : BitVec 32) (m m' : ℕ) (st' : Search.St St (Seq.St 32)) : Prop where
  rem : XorShift.IsRem st'.src m'
  lt : m' < m
  rand : st'.rand = untempered id (BitVec.ofNat 32 m')
  max : Maximal (mats id (BitVec.ofNat 32 m')).1 (mats id (BitVec.ofNat 32 m')).2
  poly : st'.poly = (T (untempered id (BitVec.ofNat 32 m'))).charpoly
  prim : Primitive2 st'.poly 127
  list : numbers id m = m' :: numbers id m'

theorem start_rem (hm : MinPolySeqSpec mps) (hprim : PrimOK prim 127) (n : ℕ)
    (st : Search.St St (Seq.St 32)) (hi : st.rand.id = id) (hr : st.rand.rev = false) {m : ℕ}
    (hrem : XorShift.IsRem st.src m) :
    (∃ m' st', start mps searchOps prim n st = .ret true st' ∧ Hit id m m' st') ∨
    (∃ m' st', start mps searchOps prim n st = .ret false st' ∧ XorShift.IsRem st'.src m' ∧ m' + n = m ∧
      st'.rand.id = id ∧ st'.rand.rev = false ∧ numbers id m = numbers id m') ∨
    (∃ st', start mps searchOps prim n st = .threw st' ∧ numbers id m = []) := by
  induction n generalizing st m with
  | zero => right; left; exact ⟨m, st, rfl, hrem, rfl, hi, hr, rfl⟩
  | succ n ih =>
    cases m with
    | zero =>
      right; right
      have hsu : searchOps.setUp st.rand st.src = none := by
        show (match Seq.getUint32 st.src with
          | (src', some r) => some (setUpParam r st.rand, src') | (_, none) => none) = none
        rw [XorShift.next_isRem_zero hrem]
      refine ⟨st, ?_, rfl⟩
      simp only [start, tryOnce, hsu]
    | succ m =>
      obtain ⟨b, st1, h1, h2, h3, h4, h5⟩ := tryOnce_rem hm hprim st hi hr hrem
      cases b with
      | true =>
        left
        have hM := h4.1 rfl
        exact ⟨m, st1, by simp only [start, h1], h2, by omega, h3, hM, (h5 rfl).1, (h5 rfl).2,
          numbers_pos hM⟩
      | false =>
        have hM : ¬ Maximal (mats id (BitVec.ofNat 32 m)).1 (mats id (BitVec.ofNat 32 m)).2 :=
          fun h => absurd (h4.2 h) (by simp)
        have hstart : start mps searchOps prim (n + 1) st = start mps searchOps prim n st1 := by
          simp only [start, h1]
        rw [hstart, numbers_neg hM]
        rcases ih st1 (by rw [h3, untempered_id]) (by rw [h3, untempered_rev]) h2 with
          ⟨m', st', g1, g2⟩ | ⟨m', st', g1, g2, g3, g4⟩ | ⟨st', g1, g2⟩
        · left; exact ⟨m', st', g1, g2.rem, by have := g2.lt; omega, g2.rand, g2.max, g2.poly, g2.prim,
            by rw [numbers_neg hM]; exact g2.list⟩
        · right; left; exact ⟨m', st', g1, g2, by omega, g4⟩
        · right; right; exact ⟨st', g1, g2⟩

theorem findLoop_rem (hm : MinPolySeqSpec mps) (hprim : PrimOK prim 127) {tries : ℕ} (ht : 1 ≤ tries)
    (fuel : ℕ) (st : Search.St St (Seq.St 32)) (hi : st.rand.id = id) (hr : st.rand.rev = false) {m : ℕ}
    (hrem : XorShift.IsRem st.src m) (hf : m < fuel) :
    (∃ m' st', findLoop mps searchOps prim tries fuel st = some (.ret true st') ∧ Hit id m m' st') ∨
    (∃ st', findLoop mps searchOps prim tries fuel st = some (.threw st') ∧ numbers id m = []) := by
  induction fuel generalizing st m with
  | zero => omega
  | succ fuel ih =>
    unfold findLoop
    rcases start_rem hm hprim tries st hi hr hrem with ⟨m', st', g1, g2⟩ |
      ⟨m', st', g1, g2, g3, g4, g5, g6⟩ | ⟨st', g1, g2⟩
    · left; rw [g1]; exact ⟨m', st', rfl, g2⟩
    · rw [g1, g6]
      rcases ih st' g4 g5 g2 (by omega) with ⟨m'', st'', k1, k2⟩ | k
      · left; exact ⟨m'', st'', k1, k2.rem, by have := k2.lt; omega, k2.rand, k2.max, k2.poly, k2.prim,
          by rw [g6]; exact k2.list⟩
      · exact Or.inr k
    · right; rw [g1]; exact ⟨st', rfl, g2⟩

/-- Specification of a printed line for the number `n`: the id, the matrices of the number, a tempering
matrix, the exact sum of the dimension defects of the generator with all these parameters over its whole
state space — which is not greater than without tempering —, and the characteristic polynomial of the
transition with the number of its terms. -/
structure GoodLine (id : BitVec 32) (n : ℕ) (L : Line) : Prop where
  id_eq : L.id = id
  mats_eq : (L.mat1, L.mat2) = mats id (BitVec.ofNat 32 n)
  delta : ∃ k : ℕ → ℕ, (∀ v, 1 ≤ v → v ≤ 32 → IsGreatest {k | Equidist (T (parSt (L.mat1, L.mat2, L.tmat)))
      (O (parSt (L.mat1, L.mat2, L.tmat))) ⊤ v k} (k v)) ∧
    L.delta = ∑ v ∈ Finset.Icc 1 32, ((127 / v : ℕ) - (k v : ℤ))
  better : ∃ k : ℕ → ℕ, (∀ v, 1 ≤ v → v ≤ 32 → IsGreatest {k | Equidist (T (parSt (L.mat1, L.mat2, 0)))
      (O (parSt (L.mat1, L.mat2, 0))) ⊤ v k} (k v)) ∧
    L.delta ≤ ∑ v ∈ Finset.Icc 1 32, ((127 / v : ℕ) - (k v : ℤ))
  poly : L.poly = (T (parSt (L.mat1, L.mat2, L.tmat))).charpoly
  prim : Primitive2 L.poly 127
  weight : L.weight = ((Finset.range 128).filter fun i => L.poly.coeff i = 1).card

/-- The defect over the reachable states is the defect over all states when the period is maximal. -/
theorem isDefect_top {s : St} (hM : Maximal s.mat1 s.mat2) (hs : isZero s = false) {d : ℤ}
    (h : IsDefect s false d) :
    ∃ k : ℕ → ℕ, (∀ v, 1 ≤ v → v ≤ 32 → IsGreatest {k | Equidist (T (parSt (par s)))
      (O (parSt (par s))) ⊤ v k} (k v)) ∧ d = ∑ v ∈ Finset.Icc 1 32, ((127 / v : ℕ) - (k v : ℤ)) := by
  obtain ⟨k, hk, hd⟩ := h
  have hden : den s ≠ 0 := by rw [Ne, ← isZero_iff, hs]; simp
  have hc : cyc (T s) (den s) = ⊤ := cyc_top (n := 127) (by omega) finrank_S hden (fun k => by
    rw [← hM s rfl rfl hs k, (stateAt_den s k).2])
  refine ⟨k, fun v h1 h2 => ?_, hd⟩
  have := hk v h1 h2
  rw [hc] at this
  exact this

theorem sameRec_facts {s t : St} (h : SameRec s t) : t.id = s.id ∧ t.mat1 = s.mat1 ∧ t.mat2 = s.mat2 ∧
    t.rev = s.rev ∧ isZero t = isZero s ∧ den t = den s := by
  unfold SameRec at h
  rw [h]
  exact ⟨rfl, rfl, rfl, rfl, rfl, rfl⟩

theorem allSearch_rem (hm : MinPolySeqSpec mps) (hprim : PrimOK prim 127) (veq : ℕ → ℕ) (fuel : ℕ) (g : St)
    (sq : Seq.St 32) (hi : g.id = id) (hr : g.rev = false) {m : ℕ} (hrem : XorShift.IsRem sq m)
    (hf : m < fuel) :
    (∃ m' o, allSearch mps prim veq fuel g sq = some (.found o) ∧ XorShift.IsRem o.src m' ∧ m' < m ∧
      o.rand.id = id ∧ o.rand.rev = false ∧ GoodLine id m' (lineOf o) ∧
      numbers id m = m' :: numbers id m') ∨
    (allSearch mps prim veq fuel g sq = some .threw ∧ numbers id m = []) := by
  unfold allSearch rtSearch
  rcases findLoop_rem hm hprim (tries := 1000 * searchOps.gen.bitSize) (by show 1 ≤ 1000 * 127; omega) fuel
    ⟨g, sq, 0, 0⟩ hi hr hrem hf with ⟨m', st', g1, g2⟩ | ⟨st', g1, g2⟩
  · left
    rw [g1]
    dsimp only
    have hz : isZero st'.rand = false := by
      rw [g2.rand]
      apply never_zero
      rw [← Bool.not_eq_true, seeded, seed_isZero]; decide
    have hid : st'.rand.id = id := by rw [g2.rand, untempered_id]
    have hrev : st'.rand.rev = false := by rw [g2.rand, untempered_rev]
    have hmats : (st'.rand.mat1, st'.rand.mat2) = mats id (BitVec.ofNat 32 m') := by
      rw [g2.rand, untempered, (stateAt_den (seeded id (BitVec.ofNat 32 m')) 254).1.1,
        (stateAt_den (seeded id (BitVec.ofNat 32 m')) 254).1.2.1]
      rfl
    have htm : st'.rand.tmat = 0 := by
      rw [g2.rand, untempered, (stateAt_den (seeded id (BitVec.ofNat 32 m')) 254).1.2.2.1]
      rfl
    obtain ⟨t, t1, t2, d, e, t3, t4, t5⟩ := st_spec veq stlsb32 rfl rfl (by decide) (by decide) (by decide)
      st'.rand hrev
    have ft := sameRec_facts t2
    obtain ⟨u, u1, u2, d', e', u3, u4, u5⟩ := st_spec veq st32 rfl rfl (by decide) (by decide) (by decide)
      t (ft.2.2.2.1.trans hrev)
    have fu := sameRec_facts u2
    obtain ⟨del, w1, w2⟩ := measure_spec veq u
    have t1' : partialBitPattern (temperOps veq) stlsb32 10 st'.rand = some t := t1
    have u1' : partialBitPattern (temperOps veq) st32 24 t = some u := u1
    rw [if_neg (by decide), t1']
    dsimp only
    rw [u1']
    dsimp only
    rw [w1]
    have hm1 : u.mat1 = st'.rand.mat1 := fu.2.1.trans ft.2.1
    have hm2 : u.mat2 = st'.rand.mat2 := fu.2.2.1.trans ft.2.2.1
    have hrevu : u.rev = false := fu.2.2.2.1.trans (ft.2.2.2.1.trans hrev)
    have hzu : isZero u = false := fu.2.2.2.2.1.trans (ft.2.2.2.2.1.trans hz)
    have hMax : Maximal st'.rand.mat1 st'.rand.mat2 := by
      have := g2.max
      rw [← hmats] at this
      exact this
    refine ⟨m', _, rfl, g2.rem, g2.lt, ?_, hrevu, ?_, g2.list⟩
    · exact fu.1.trans (ft.1.trans hid)
    · refine ⟨fu.1.trans (ft.1.trans hid), ?_, ?_, ?_, ?_, g2.prim, ?_⟩
      · show (u.mat1, u.mat2) = _
        rw [hm1, hm2, hmats]
      · exact isDefect_top (s := u) (by rw [hm1, hm2]; exact hMax) hzu w2
      · obtain ⟨k, k1, k2⟩ := isDefect_top (s := st'.rand) hMax hz t3
        have hpar : par st'.rand = (u.mat1, u.mat2, 0) := by
          unfold par; rw [hm1, hm2, htm]
        rw [hpar] at k1
        refine ⟨k, k1, ?_⟩
        show del ≤ _
        rw [← k2, isDefect_unique w2 u4]
        rw [isDefect_unique u3 t4] at u5
        exact u5.trans t5
      · show st'.poly = (T (parSt (u.mat1, u.mat2, u.tmat))).charpoly
        rw [g2.poly]
        congr 1
        apply T_congr
        · rw [← g2.rand]; exact hm1.symm
        · rw [← g2.rand]; exact hm2.symm
      · show polyWeight st'.poly = _
        unfold polyWeight
        congr 1
        ext i
        have h01 : ∀ z : ZMod 2, z ≠ 0 ↔ z = 1 := by decide
        rw [mem_support_iff, Finset.mem_filter, Finset.mem_range]
        refine ⟨fun h => ⟨?_, (h01 _).1 h⟩, fun h => (h01 _).2 h.2⟩
        have := le_natDegree_of_ne_zero h
        rw [g2.prim.1] at this
        omega
  · right
    rw [g1]
    exact ⟨rfl, g2⟩

theorem lines_exist (hm : MinPolySeqSpec mps) (hprim : PrimOK prim 127) (fuel : ℕ) (g : St) (sq : Seq.St 32)
    (hi : g.id = id) (hr : g.rev = false) {m : ℕ} (hrem : XorShift.IsRem sq m) (hf : m < fuel) :
    ∃ L : List Line, List.Forall₂ (GoodLine id) (numbers id m) L := by
  induction fuel generalizing g sq m with
  | zero => omega
  | succ fuel ih =>
    rcases allSearch_rem hm hprim (fun _ => 0) (fuel + 1) g sq hi hr hrem hf with
      ⟨m', o, -, h2, h3, h4, h5, h6, h7⟩ | ⟨-, h2⟩
    · obtain ⟨L, hL⟩ := ih o.rand o.src h4 h5 h2 (by omega)
      rw [h7]
      exact ⟨_, List.Forall₂.cons h6 hL⟩
    · rw [h2]; exact ⟨[], List.Forall₂.nil⟩

theorem dcLoop_rem (hm : MinPolySeqSpec mps) (hprim : PrimOK prim 127) (veq : ℕ → ℕ) (count : ℕ)
    (all : Bool) (maxDelta : ℤ) (fuel : ℕ) (g : St) (sq : Seq.St 32) (i : ℕ) (hi : g.id = id)
    (hr : g.rev = false) {m : ℕ} (hrem : XorShift.IsRem sq m) (hf : m < fuel) :
    ∃ L : List Line, List.Forall₂ (GoodLine id) (numbers id m) L ∧
      dcLoop mps prim veq count all maxDelta fuel g sq i =
        some (if all then L.filter (fun l => l.delta ≤ maxDelta)
          else (L.filter (fun l => l.delta ≤ maxDelta)).take (count - i)) := by
  induction fuel generalizing g sq i m with
  | zero => omega
  | succ fuel ih =>
    unfold dcLoop
    by_cases hc : i < count ∨ all = true
    · rw [if_pos hc]
      rcases allSearch_rem hm hprim veq (fuel + 1) g sq hi hr hrem hf with
        ⟨m', o, h1, h2, h3, h4, h5, h6, h7⟩ | ⟨h1, h2⟩
      · rw [h1, h7]
        dsimp only
        by_cases hd : o.delta > maxDelta
        · rw [if_pos hd]
          obtain ⟨L, k1, k2⟩ := ih o.rand o.src i h4 h5 h2 (by omega)
          refine ⟨lineOf o :: L, List.Forall₂.cons h6 k1, ?_⟩
          have hn : ¬ (lineOf o).delta ≤ maxDelta := by show ¬ o.delta ≤ maxDelta; omega
          rw [k2, List.filter_cons_of_neg (by simpa using hn)]
        · rw [if_neg hd]
          obtain ⟨L, k1, k2⟩ := ih o.rand o.src (i + 1) h4 h5 h2 (by omega)
          refine ⟨lineOf o :: L, List.Forall₂.cons h6 k1, ?_⟩
          have hn : (lineOf o).delta ≤ maxDelta := by show o.delta ≤ maxDelta; omega
          rw [k2, List.filter_cons_of_pos (by simpa using hn)]
          cases all with
          | true => rfl
          | false =>
            have hlt : i < count := by simpa using hc
            obtain ⟨c, hcc⟩ : ∃ c, count - i = c + 1 := ⟨count - i - 1, by omega⟩
            rw [hcc, List.take_succ_cons, show count - (i + 1) = c by omega]
            rfl
      · rw [h1, h2]
        exact ⟨[], List.Forall₂.nil, by cases all <;> simp⟩
    · rw [if_neg hc]
      obtain ⟨L, hL⟩ := lines_exist hm hprim (fuel + 1) g sq hi hr hrem hf
      refine ⟨L, hL, ?_⟩
      rw [not_or, not_lt, Bool.not_eq_true] at hc
      rw [hc.2, Nat.sub_eq_zero_of_le hc.1]
      rfl

/-- **C58.**  `tinymt32dc`, for every id, start value, count, delta bound and any initial content of the
arrays: it ends.  Let `L` be the list of the lines of all the numbers from `start` down to 0 whose recursion
matrices give the maximal period `2^127-1` — in this order, one line for each, each correct.  The program
prints those with at most the required delta — all of them with the option `all`, the first `count`
otherwise. -/
theorem dcMain_correct (hm : MinPolySeqSpec mps) (veq : ℕ → ℕ) (count : ℕ) (all : Bool) (maxDelta : ℤ)
    (start uid : BitVec 32) {fuel : ℕ} (hf : start.toNat + 1 < fuel) :
    ∃ L : List Line, List.Forall₂ (GoodLine uid) (numbers uid (start.toNat + 1)) L ∧
      dcMain mps (Period.primitivityOp none) veq count all maxDelta start uid fuel =
        some (if all then L.filter (fun l => l.delta ≤ maxDelta)
          else (L.filter (fun l => l.delta ≤ maxDelta)).take count) := by
  have hrem : XorShift.IsRem (Seq.make2 0 start) (start.toNat + 1) :=
    ⟨rfl, fun h => absurd h (by omega), fun _ => ⟨rfl, by simp [Seq.make2], by
      have := start.isLt; omega⟩⟩
  exact dcLoop_rem hm (primOK_mersenne prime127) veq count all maxDelta fuel (ctor uid) _ 0 rfl rfl hrem hf

end MTT.TinyMT
