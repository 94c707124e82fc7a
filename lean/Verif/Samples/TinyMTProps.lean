import Verif.Samples.TinyMT
import Verif.Spec.Shift
import Verif.PIS.Uniform
import Verif.Util.Props

/-!
# C43, C44, C54: `tinymt32`

The effective state space has dimension 127: the highest bit of `status[0]` plays no role.
-/

namespace MTT

/-- The generator as `AlgorithmEquidistribution` sees it: only `generate(v)` is called. -/
def view {σ : Type} {w : ℕ} (G : GenOps σ w) : GenOps σ w := { G with generate := G.generateV w }

namespace TinyMT

open PIS

/-- Effective state space. -/
abbrev S := Wd 31 × Wd 32 × Wd 32 × Wd 32

/-- The effective state of an object. -/
def den (s : St) : S := (Wd.of (s.s0.setWidth 31), Wd.of s.s1, Wd.of s.s2, Wd.of s.s3)

/-- Same recursion and tempering parameters and same output direction. -/
def SamePar (p s : St) : Prop :=
  s.mat1 = p.mat1 ∧ s.mat2 = p.mat2 ∧ s.tmat = p.tmat ∧ s.rev = p.rev

/-! ### The linear maps (specification) -/

/-- `m` if `b`. -/
def sel (b : Bool) (m : BitVec 32) : BitVec 32 := if b then m else 0

theorem sel_xor (b c : Bool) (m : BitVec 32) : sel (b ^^ c) m = sel b m ^^^ sel c m := by
  cases b <;> cases c <;> simp [sel]

def fx (s : S) : BitVec 32 :=
  let x := (s.1.val.setWidth 32) ^^^ s.2.1.val ^^^ s.2.2.1.val
  x ^^^ (x <<< 1)

def fy (s : S) : BitVec 32 := s.2.2.2.val ^^^ (s.2.2.2.val >>> 1) ^^^ fx s

theorem setWidth_xor (x y : BitVec 31) : (x ^^^ y).setWidth 32 = x.setWidth 32 ^^^ y.setWidth 32 := by
  apply BitVec.eq_of_getLsbD_eq
  intro i hi
  simp only [BitVec.getLsbD_setWidth, BitVec.getLsbD_xor, hi, decide_true, Bool.true_and]

theorem setWidth_xor' (x y : BitVec 32) : (x ^^^ y).setWidth 31 = x.setWidth 31 ^^^ y.setWidth 31 := by
  apply BitVec.eq_of_getLsbD_eq
  intro i hi
  simp only [BitVec.getLsbD_setWidth, BitVec.getLsbD_xor, hi, decide_true, Bool.true_and]

theorem fx_add (s t : S) : fx (s + t) = fx s ^^^ fx t := by
  have e1 : (s + t).1.val = s.1.val ^^^ t.1.val := rfl
  have e2 : (s + t).2.1.val = s.2.1.val ^^^ t.2.1.val := rfl
  have e3 : (s + t).2.2.1.val = s.2.2.1.val ^^^ t.2.2.1.val := rfl
  simp only [fx]
  rw [e1, e2, e3, setWidth_xor]
  have : ∀ a b c a' b' c' : BitVec 32, a ^^^ a' ^^^ (b ^^^ b') ^^^ (c ^^^ c') =
      (a ^^^ b ^^^ c) ^^^ (a' ^^^ b' ^^^ c') := fun a b c a' b' c' => by ac_rfl
  rw [this, shl_xor]
  ac_rfl

theorem fy_add (s t : S) : fy (s + t) = fy s ^^^ fy t := by
  have e : (s + t).2.2.2.val = s.2.2.2.val ^^^ t.2.2.2.val := rfl
  simp only [fy]
  rw [e, fx_add, shr_xor]
  ac_rfl

/-- `status[2]` after a step. -/
def f2 (p : St) (s : S) : BitVec 32 := fx s ^^^ (fy s <<< 10) ^^^ sel ((fy s).getLsbD 0) p.mat2

/-- `status[1]` after a step. -/
def f1 (p : St) (s : S) : BitVec 32 := s.2.2.1.val ^^^ sel ((fy s).getLsbD 0) p.mat1

theorem f2_add (p : St) (s t : S) : f2 p (s + t) = f2 p s ^^^ f2 p t := by
  unfold f2
  rw [fx_add, fy_add, shl_xor, BitVec.getLsbD_xor, sel_xor]
  ac_rfl

theorem f1_add (p : St) (s t : S) : f1 p (s + t) = f1 p s ^^^ f1 p t := by
  unfold f1
  have e3 : (s + t).2.2.1.val = s.2.2.1.val ^^^ t.2.2.1.val := rfl
  rw [e3, fy_add, BitVec.getLsbD_xor, sel_xor]
  ac_rfl

/-- Transition on the effective state. -/
def T (p : St) : S →ₗ[ZMod 2] S :=
  linOf (fun s => (Wd.of (s.2.1.val.setWidth 31), Wd.of (f1 p s), Wd.of (f2 p s), Wd.of (fy s))) (by
    intro s t
    have e : (s + t).2.1.val = s.2.1.val ^^^ t.2.1.val := rfl
    rw [f1_add, f2_add, fy_add, e, setWidth_xor']
    rfl)

/-- `t1` of `temper` after a step. -/
def ft (p : St) (s : S) : BitVec 32 := s.2.1.val ^^^ (f2 p s >>> 8)

/-- The output word. -/
def fo (p : St) (s : S) : BitVec 32 := fy s ^^^ ft p s ^^^ sel ((ft p s).getLsbD 0) p.tmat

theorem ft_add (p : St) (s t : S) : ft p (s + t) = ft p s ^^^ ft p t := by
  unfold ft
  have e : (s + t).2.1.val = s.2.1.val ^^^ t.2.1.val := rfl
  rw [e, f2_add, shr_xor]
  ac_rfl

theorem fo_add (p : St) (s t : S) : fo p (s + t) = fo p s ^^^ fo p t := by
  unfold fo
  rw [ft_add, fy_add, BitVec.getLsbD_xor, sel_xor]
  ac_rfl

/-- Output, most significant bit first. -/
def O (p : St) : S →ₗ[ZMod 2] V := linOf (fun s => bits (fo p s)) (fun s t => by rw [fo_add, bits_xor])

theorem reverse_xor (x y : BitVec 32) : (x ^^^ y).reverse = x.reverse ^^^ y.reverse := by
  apply BitVec.eq_of_getLsbD_eq
  intro i hi
  simp only [BitVec.getLsbD_reverse, BitVec.getMsbD_xor, BitVec.getLsbD_xor]

/-- Output, least significant bit first. -/
def OR (p : St) : S →ₗ[ZMod 2] V := linOf (fun s => bits (fo p s).reverse) (fun s t => by
  rw [fo_add, reverse_xor, bits_xor])

/-! ### The object -/

theorem and_one_ne (y : BitVec 32) : (y &&& 1 ≠ 0) ↔ y.getLsbD 0 = true := by
  constructor
  · intro h
    by_contra hc
    apply h
    apply BitVec.eq_of_getLsbD_eq
    intro i hi
    rw [BitVec.getLsbD_and, show (1 : BitVec 32) = 1#32 from rfl, BitVec.getLsbD_one]
    cases i with
    | zero => rw [Bool.eq_false_iff.2 hc]; rfl
    | succ i => simp
  · intro h hc
    have := congrArg (fun z => z.getLsbD 0) hc
    rw [BitVec.getLsbD_and, h] at this
    exact absurd this (by decide)

theorem low31 (x : BitVec 32) : x &&& 0x7fffffff = (x.setWidth 31).setWidth 32 := by
  apply BitVec.eq_of_getLsbD_eq
  intro i hi
  have h1 : (0x7fffffff : BitVec 32) = (BitVec.allOnes 31).setWidth 32 := by decide
  rw [h1]
  simp only [BitVec.getLsbD_and, BitVec.getLsbD_setWidth, BitVec.getLsbD_allOnes]
  cases x.getLsbD i <;> simp

theorem fx_den (s : St) : fx (den s) = ((s.s0 &&& (0x7fffffff : BitVec 32)) ^^^ s.s1 ^^^ s.s2) ^^^
    (((s.s0 &&& (0x7fffffff : BitVec 32)) ^^^ s.s1 ^^^ s.s2) <<< 1) := by
  rw [low31]; rfl

theorem nextState_eq (s : St) : nextState s =
    { s with s0 := s.s1, s1 := f1 s (den s), s2 := f2 s (den s), s3 := fy (den s) } := by
  have hy : s.s3 ^^^ ((s.s3 >>> 1) ^^^ fx (den s)) = fy (den s) := by
    rw [← BitVec.xor_assoc]; rfl
  unfold nextState
  simp only [← fx_den, hy]
  have h1 : (den s).2.2.1.val = s.s2 := rfl
  split
  · next h =>
    rw [and_one_ne] at h
    simp only [f1, f2, h, sel, h1, if_true]
  · next h =>
    rw [and_one_ne, Bool.not_eq_true] at h
    simp only [f1, f2, h, sel, h1, Bool.false_eq_true, if_false]
    simp

theorem temper_next (s : St) : temper (nextState s) = fo s (den s) := by
  rw [nextState_eq]
  simp only [temper]
  have h1 : (den s).2.1.val = s.s1 := rfl
  split
  · next h =>
    rw [and_one_ne] at h
    simp only [fo, ft, h1, h, sel, if_true]
  · next h =>
    rw [and_one_ne, Bool.not_eq_true] at h
    simp only [fo, ft, h1, h, sel, Bool.false_eq_true, if_false]
    simp

theorem f_par {p s : St} (hs : SamePar p s) : f1 s = f1 p ∧ f2 s = f2 p ∧ fo s = fo p := by
  obtain ⟨h1, h2, h3, _⟩ := hs
  have e2 : f2 s = f2 p := by funext x; unfold f2; rw [h2]
  refine ⟨?_, e2, ?_⟩
  · funext x; unfold f1; rw [h1]
  · funext x; unfold fo ft; rw [h3, e2]

theorem next_den {p s : St} (hs : SamePar p s) : den (nextState s) = T p (den s) := by
  rw [nextState_eq]
  obtain ⟨e1, e2, _⟩ := f_par hs
  simp only [den, T, linOf_apply, ← e1, ← e2]
  rfl

theorem next_par {p s : St} (hs : SamePar p s) : SamePar p (nextState s) := by
  rw [nextState_eq]; exact hs

theorem add_same {p a b : St} (ha : SamePar p a) (hb : SamePar p b) : addE a b =
    some { a with s0 := a.s0 ^^^ b.s0, s1 := a.s1 ^^^ b.s1, s2 := a.s2 ^^^ b.s2, s3 := a.s3 ^^^ b.s3 } := by
  unfold addE
  rw [if_neg]
  rw [ha.1, ha.2.1, ha.2.2.1, hb.1, hb.2.1, hb.2.2.1]
  simp

theorem add_spec {p a b : St} (ha : SamePar p a) (hb : SamePar p b) :
    SamePar p (add a b) ∧ den (add a b) = den a + den b := by
  have e : add a b = _ := congrArg (fun o => o.getD a) (add_same ha hb)
  rw [e]
  refine ⟨ha, ?_⟩
  show (Wd.of ((a.s0 ^^^ b.s0).setWidth 31), _) = _
  rw [setWidth_xor']
  rfl

theorem allOnes32 : (~~~ (0 : BitVec 32)) = BitVec.allOnes 32 := by decide

/-- **C43, C54.**  With normal output order the class satisfies the contract of a linear generator on its
127 effective bits. -/
theorem linGen (p : St) (hp : p.rev = false) : LinGen ops (SamePar p) den (T p) (O p) where
  gen_inv s hs := next_par hs
  gen_den s hs := next_den hs
  gen_out s hs := by
    show bits (temper (nextState s)) = _
    rw [temper_next, (f_par hs).2.2]; rfl
  genV_inv v s _ _ hs := next_par hs
  genV_den v s _ _ hs := next_den hs
  genV_out v s _ hv hs := by
    have hr : s.rev = false := hs.2.2.2.trans hp
    simp only [ops, generateV, generate, hr, allOnes32]
    rw [if_neg (by decide), bits_and_mask _ hv, temper_next, (f_par hs).2.2]
    rfl
  add_inv a b ha hb := (add_spec ha hb).1
  add_den a b ha hb := (add_spec ha hb).2
  zero_inv s hs := hs
  zero_den s _ := rfl

/-- **C43, C54.**  In either output order the class, as seen by the equidistribution algorithms (through
`generate(v)`), satisfies the contract, the output being reversed in reverse mode. -/
theorem linGen_view (p : St) :
    LinGen (view ops) (SamePar p) den (T p) (if p.rev then OR p else O p) where
  gen_inv s hs := next_par hs
  gen_den s hs := next_den hs
  gen_out s hs := by
    have hm : (BitVec.allOnes 32) <<< (32 - 32) = BitVec.allOnes 32 := by decide
    simp only [view, ops, generateV, generate, allOnes32, hm, BitVec.and_allOnes, hs.2.2.2]
    rw [temper_next, (f_par hs).2.2, (Util.reverse_bit_correct.1 _).1]
    split <;> rfl
  genV_inv v s _ _ hs := next_par hs
  genV_den v s _ _ hs := next_den hs
  genV_out v s _ hv hs := by
    simp only [view, ops, generateV, generate, allOnes32, hs.2.2.2]
    rw [bits_and_mask _ hv, temper_next, (f_par hs).2.2, (Util.reverse_bit_correct.1 _).1]
    congr 1
    split <;> rfl
  add_inv a b ha hb := (add_spec ha hb).1
  add_den a b ha hb := (add_spec ha hb).2
  zero_inv s hs := hs
  zero_den s _ := rfl

/-- **C43.**  The check in `add` passes for objects with the same parameters and only for those. -/
theorem addE_iff (a b : St) : (addE a b).isSome ↔ a.mat1 = b.mat1 ∧ a.mat2 = b.mat2 ∧ a.tmat = b.tmat := by
  unfold addE
  split
  · next h => simp; tauto
  · next h => simp; tauto

/-- **C43.**  `isZero` is exactly the zero test of the effective state. -/
theorem isZero_iff (s : St) : isZero s = true ↔ den s = 0 := by
  have h31 : s.s0 &&& 0x7fffffff = 0 ↔ s.s0.setWidth 31 = 0 := by
    rw [low31]
    constructor
    · intro h
      apply BitVec.eq_of_getLsbD_eq
      intro i hi
      have := congrArg (fun z => z.getLsbD i) h
      simp only [BitVec.getLsbD_setWidth] at this ⊢
      have h2 : i < 32 := by omega
      simpa [hi, h2] using this
    · intro h; rw [h]; decide
  simp only [isZero, Bool.and_eq_true, beq_iff_eq, den, Prod.mk_eq_zero, and_assoc, h31]
  rfl

theorem finrank_S : Module.finrank (ZMod 2) S = 127 := by
  simp only [Module.finrank_prod, Wd.finrank]

/-- **C43.**  The behaviour depends on the effective state only: the highest bit of `status[0]` has no
influence on the output or on the next state. -/
theorem top_bit_irrelevant (s : St) (b : BitVec 32) :
    generate { s with s0 := s.s0 ^^^ (b &&& 0x80000000) } = generate s := by
  have h : den { s with s0 := s.s0 ^^^ (b &&& 0x80000000) } = den s := by
    have : (b &&& 0x80000000).setWidth 31 = 0 := by
      apply BitVec.eq_of_getLsbD_eq
      intro i hi
      have h1 : (0x80000000 : BitVec 32) = BitVec.twoPow 32 31 := by decide
      rw [h1, BitVec.getLsbD_setWidth, BitVec.getLsbD_and, BitVec.getLsbD_twoPow]
      have : ¬ 31 = i := by omega
      simp [this]
    show (Wd.of ((s.s0 ^^^ (b &&& 0x80000000)).setWidth 31), _) = _
    rw [setWidth_xor', this]
    show (Wd.of (s.s0.setWidth 31 ^^^ 0#31), _) = _
    rw [BitVec.xor_zero]
    rfl
  unfold generate
  rw [temper_next, temper_next, nextState_eq, nextState_eq, h]
  rfl

/-- **C43.**  The transition is invertible, whatever the parameters are. -/
theorem T_bijective (p : St) : Function.Bijective (T p) := by
  rw [← Finite.injective_iff_bijective, injective_iff_map_eq_zero]
  rintro s h
  have e0 : s.2.1.val.setWidth 31 = 0 := congrArg (fun q : S => q.1.val) h
  have e1 : f1 p s = 0 := congrArg (fun q : S => q.2.1.val) h
  have e2 : f2 p s = 0 := congrArg (fun q : S => q.2.2.1.val) h
  have e3 : fy s = 0 := congrArg (fun q : S => q.2.2.2.val) h
  have hz : ∀ m, sel ((0 : BitVec 32).getLsbD 0) m = 0 := fun m => by simp [sel]
  rw [f1, e3, hz] at e1
  have h2 : s.2.2.1.val = 0 := by simpa using e1
  rw [f2, e3, hz] at e2
  have hx : fx s = 0 := by simpa using e2
  have h3 : s.2.2.2.val = 0 := by
    rw [fy, hx] at e3
    apply shr_inj (k := 1) le_rfl
    simpa using e3
  have hx' : s.1.val.setWidth 32 ^^^ s.2.1.val ^^^ s.2.2.1.val = 0 := by
    apply shl_inj (k := 1) le_rfl
    rw [show (0 : BitVec 32) ^^^ ((0 : BitVec 32) <<< 1) = 0 by decide]
    exact hx
  rw [h2] at hx'
  have h01 : s.1.val.setWidth 32 = s.2.1.val := by
    have := congrArg (· ^^^ s.2.1.val) hx'
    simpa [BitVec.xor_assoc] using this
  have h0 : s.1.val = 0 := by
    apply BitVec.eq_of_getLsbD_eq
    intro i hi
    have a1 := congrArg (fun z => z.getLsbD i) h01
    have a2 := congrArg (fun z => z.getLsbD i) e0
    have hi2 : i < 32 := by omega
    simp only [BitVec.getLsbD_setWidth, hi, hi2, decide_true, Bool.true_and] at a1 a2
    rw [a1, a2]
  have h1 : s.2.1.val = 0 := by rw [← h01, h0]; decide
  exact Prod.ext (Wd.ext h0) (Prod.ext (Wd.ext h1) (Prod.ext (Wd.ext h2) (Wd.ext h3)))

/-- **C43.**  A non-zero state never becomes zero. -/
theorem never_zero (s : St) (h0 : isZero s = false) (n : ℕ) : isZero (stateAt ops s n) = false := by
  have h1 : ∀ n, SamePar s (stateAt ops s n) ∧ den (stateAt ops s n) = ((T s) ^ n) (den s) := by
    intro n
    induction n with
    | zero => exact ⟨⟨rfl, rfl, rfl, rfl⟩, rfl⟩
    | succ n ih =>
      refine ⟨next_par ih.1, ?_⟩
      show den (nextState _) = _
      rw [next_den ih.1, ih.2, pow_succ', Module.End.mul_apply]
  by_contra h2
  rw [Bool.not_eq_false, isZero_iff, (h1 n).2] at h2
  have h3 : Function.Injective ((T s) ^ n) := by
    rw [Module.End.coe_pow]
    exact (T_bijective s).1.iterate n
  have h4 := h3 (h2.trans (map_zero _).symm)
  rw [← isZero_iff, h0] at h4
  exact Bool.false_ne_true h4

/-- **C22–C24 for tinymt32** in both output orders: for every parameter set and state the calculation
succeeds and delivers the exact dimensions of the outputs, reversed if `rev` is set. -/
theorem equidist (s : St) (veq0 : ℕ → ℕ) :
    ∃ r, getAllEquidist ops Util.calc1posWrap32 s 32 127 (32 * (33 * 127) + 33) veq0 = .ok r ∧
      (∀ v, 1 ≤ v → v ≤ 32 →
        IsGreatest {k | Equidist (T s) (if s.rev then OR s else O s) (cyc (T s) (den s)) v k}
          (r.veq (v - 1))) ∧
      r.sum = ∑ v ∈ Finset.Icc 1 32, ((127 / v : ℕ) - (r.veq (v - 1) : ℤ)) := by
  obtain ⟨hm, h0, hd⟩ := charpoly_hyps (T s) (den s)
  rw [finrank_S] at hd
  obtain ⟨r, e1, e2, _, e4⟩ := getAllEquidist_correct (linGen_view s) (g := s) ⟨rfl, rfl, rfl, rfl⟩ hm h0
    (by rw [hd]; decide) (stateBitSize := 127) (by omega) Util.isCalc1pos_32 (bitLen := 32) (by omega)
    (by omega) (fuel := 32 * (33 * 127) + 33) (by rw [hd]) veq0
  exact ⟨r, e1, e2, e4⟩

/-! ## C44 -/

/-- The number before the id is mixed in. -/
def work (num : BitVec 32) : BitVec 32 := (num ^^^ (num <<< 15) ^^^ (num <<< 23)) <<< 1

theorem work_bit (num : BitVec 32) {i : ℕ} (hi : i < 32) : (work num).getLsbD i =
    (decide (1 ≤ i) && (num.getLsbD (i - 1) ^^ (decide (15 ≤ i - 1) && num.getLsbD (i - 1 - 15)) ^^
      (decide (23 ≤ i - 1) && num.getLsbD (i - 1 - 23)))) := by
  unfold work
  have h1 : i - 1 < 32 := by omega
  simp only [BitVec.getLsbD_shiftLeft, BitVec.getLsbD_xor, hi, h1, decide_true, Bool.true_and]
  have e : ∀ a b : ℕ, (!decide (a < b)) = decide (b ≤ a) := fun a b => by
    by_cases h : a < b
    · have : ¬ b ≤ a := by omega
      simp [h, this]
    · have : b ≤ a := by omega
      simp [h, this]
  rw [e, e, e]

theorem work_inj {n n' : BitVec 32} : work n = work n' ↔ n.setWidth 31 = n'.setWidth 31 := by
  constructor
  · intro h
    have hb : ∀ i, i < 31 → n.getLsbD i = n'.getLsbD i := by
      intro i
      induction i using Nat.strong_induction_on with
      | _ i ih =>
        intro hi
        have h1 := congrArg (fun z => z.getLsbD (i + 1)) h
        simp only [work_bit _ (show i + 1 < 32 by omega), Nat.add_sub_cancel] at h1
        by_cases h15 : 15 ≤ i
        · rw [ih (i - 15) (by omega) (by omega)] at h1
          by_cases h23 : 23 ≤ i
          · rw [ih (i - 23) (by omega) (by omega)] at h1
            simpa using h1
          · simpa [h23] using h1
        · have h23 : ¬ 23 ≤ i := by omega
          simpa [h15, h23] using h1
    apply BitVec.eq_of_getLsbD_eq
    intro i hi
    simp only [BitVec.getLsbD_setWidth, hi, decide_true, Bool.true_and]
    exact hb i hi
  · intro h
    have hb : ∀ i, i < 31 → n.getLsbD i = n'.getLsbD i := fun i hi => by
      have := congrArg (fun z => z.getLsbD i) h
      simpa [BitVec.getLsbD_setWidth, hi] using this
    apply BitVec.eq_of_getLsbD_eq
    intro i hi
    rw [work_bit _ hi, work_bit _ hi, hb (i - 1) (by omega), hb (i - 1 - 15) (by omega),
      hb (i - 1 - 23) (by omega)]

theorem halves_inj {a b a' b' : BitVec 32}
    (h1 : (a &&& 0xffff0000) ||| (b &&& 0xffff) = (a' &&& 0xffff0000) ||| (b' &&& 0xffff))
    (h2 : (a &&& 0xffff) ||| (b &&& 0xffff0000) = (a' &&& 0xffff) ||| (b' &&& 0xffff0000)) :
    a = a' ∧ b = b' := by
  have hu : ∀ i, i < 32 → (0xffff0000 : BitVec 32).getLsbD i = decide (16 ≤ i) := by decide
  have hl : ∀ i, i < 32 → (0xffff : BitVec 32).getLsbD i = decide (i < 16) := by decide
  have key : ∀ i, i < 32 → a.getLsbD i = a'.getLsbD i ∧ b.getLsbD i = b'.getLsbD i := by
    intro i hi
    have e1 := congrArg (fun z => z.getLsbD i) h1
    have e2 := congrArg (fun z => z.getLsbD i) h2
    simp only [BitVec.getLsbD_or, BitVec.getLsbD_and, hu i hi, hl i hi] at e1 e2
    by_cases h16 : i < 16
    · have : ¬ 16 ≤ i := by omega
      simp [h16, this] at e1 e2
      exact ⟨e2, e1⟩
    · have : 16 ≤ i := by omega
      simp [h16, this] at e1 e2
      exact ⟨e1, e2⟩
  exact ⟨BitVec.eq_of_getLsbD_eq fun i hi => (key i hi).1, BitVec.eq_of_getLsbD_eq fun i hi => (key i hi).2⟩

/-- **C44.**  Two calls of `setUpParam` give the same recursion parameters exactly if the ids agree and the
low 31 bits of the numbers agree. -/
theorem setUpParam_inj (n n' : BitVec 32) (s s' : St) :
    ((setUpParam n s).mat1 = (setUpParam n' s').mat1 ∧ (setUpParam n s).mat2 = (setUpParam n' s').mat2) ↔
      s.id = s'.id ∧ n.setWidth 31 = n'.setWidth 31 := by
  rw [← work_inj]
  constructor
  · rintro ⟨h1, h2⟩
    have h2' := congrArg (· ^^^ (1 : BitVec 32)) h2
    simp only [setUpParam, BitVec.xor_assoc _ (1 : BitVec 32) 1, BitVec.xor_self, BitVec.xor_zero] at h1 h2'
    have e1 := shr_inj (k := 19) (by norm_num) h1
    have e3 := shl_inj (k := 18) (by norm_num) h2'
    obtain ⟨a, b⟩ := halves_inj e1 e3
    exact ⟨b, a⟩
  · rintro ⟨h1, h2⟩
    unfold work at h2
    simp only [setUpParam, h1, h2, and_self]

/-- **C44.**  `setUpParam` resets the tempering parameter and always makes `mat2` odd; id, status and output
order are kept. -/
theorem setUpParam_rest (n : BitVec 32) (s : St) :
    (setUpParam n s).tmat = 0 ∧ (setUpParam n s).mat2.getLsbD 0 = true ∧ (setUpParam n s).id = s.id ∧
      den (setUpParam n s) = den s ∧ (setUpParam n s).rev = s.rev := by
  refine ⟨rfl, ?_, rfl, rfl, rfl⟩
  simp [setUpParam]

/-- **C43.**  Seeding with a non-zero value never produces the zero state; `seed(0)` does. -/
theorem seed_isZero (v : BitVec 32) (s : St) : isZero (seed v s) = true ↔ v = 0 := by
  simp [isZero, seed]

-- a concrete parameter set and state
example : (setUpParam 3 (ctor 1)).mat1 = 0x3030061 ∧
    isZero (generate (seed 1 (setUpParam 3 (ctor 1)))).1 = false ∧
    SamePar (ctor 1) (seed 5 (ctor 1)) := by
  refine ⟨by decide, by decide, rfl, rfl, rfl, rfl⟩

end TinyMT

end MTT
