import Verif.Samples.TinyRef
import Verif.Samples.TinyMTProps

/-!
# The TinyMT reference code (helper lemmas)
-/

namespace MTT.TinyRef

/-! ## 32 bit: the state map is that of `class tinymt32` -/

/-- The reference object as an object of `class tinymt32`. -/
def T32.obj (r : T32) : TinyMT.St := ⟨r.s0, r.s1, r.s2, r.s3, 0, r.mat1, r.mat2, r.tmat, false⟩

/-- Effective state. -/
def den32 (r : T32) : TinyMT.S := TinyMT.den r.obj

theorem next32_obj (r : T32) : (next32 r).obj = TinyMT.nextState r.obj := by
  unfold next32 TinyMT.nextState T32.obj
  dsimp only
  split <;> rfl

theorem next32_par (r : T32) : (next32 r).mat1 = r.mat1 ∧ (next32 r).mat2 = r.mat2 ∧ (next32 r).tmat = r.tmat := by
  unfold next32
  dsimp only
  split <;> exact ⟨rfl, rfl, rfl⟩

theorem next32_iter (r : T32) (n : ℕ) : TinyMT.SamePar r.obj (next32^[n] r).obj ∧
    den32 (next32^[n] r) = ((TinyMT.T r.obj) ^ n) (den32 r) := by
  induction n with
  | zero => exact ⟨⟨rfl, rfl, rfl, rfl⟩, rfl⟩
  | succ n ih =>
    rw [Function.iterate_succ_apply', den32, next32_obj]
    refine ⟨TinyMT.next_par ih.1, ?_⟩
    rw [TinyMT.next_den ih.1, ← den32, ih.2, pow_succ', Module.End.mul_apply]

theorem T_pow_injective (p : TinyMT.St) (n : ℕ) : Function.Injective ((TinyMT.T p) ^ n) := by
  rw [Module.End.coe_pow]
  exact (TinyMT.T_bijective p).1.iterate n

theorem den32_eq_zero (r : T32) : den32 r = 0 ↔
    (r.s0 &&& 0x7fffffff) = 0 ∧ r.s1 = 0 ∧ r.s2 = 0 ∧ r.s3 = 0 := by
  rw [den32, ← TinyMT.isZero_iff]
  simp only [TinyMT.isZero, T32.obj, Bool.and_eq_true, beq_iff_eq, and_assoc]

theorem den32_eq (r r' : T32) : den32 r = den32 r' ↔
    (r.s0 &&& 0x7fffffff) = (r'.s0 &&& 0x7fffffff) ∧ r.s1 = r'.s1 ∧ r.s2 = r'.s2 ∧ r.s3 = r'.s3 := by
  have h : ∀ a b : BitVec 32, a.setWidth 31 = b.setWidth 31 ↔ (a &&& 0x7fffffff) = (b &&& 0x7fffffff) := by
    intro a b
    rw [TinyMT.low31, TinyMT.low31]
    constructor
    · intro h; rw [h]
    · intro h
      apply BitVec.eq_of_toNat_eq
      have := congrArg BitVec.toNat h
      rw [BitVec.toNat_setWidth, BitVec.toNat_setWidth _ (b.setWidth 31)] at this
      have h1 := (a.setWidth 31).isLt
      have h2 := (b.setWidth 31).isLt
      rwa [Nat.mod_eq_of_lt (by omega), Nat.mod_eq_of_lt (by omega)] at this
  rw [← h]
  constructor
  · intro e
    exact ⟨congrArg (fun q : TinyMT.S => q.1.val) e, congrArg (fun q : TinyMT.S => q.2.1.val) e,
      congrArg (fun q : TinyMT.S => q.2.2.1.val) e, congrArg (fun q : TinyMT.S => q.2.2.2.val) e⟩
  · rintro ⟨h1, h2, h3, h4⟩
    exact Prod.ext (Wd.ext h1) (Prod.ext (Wd.ext h2) (Prod.ext (Wd.ext h3) (Wd.ext h4)))

theorem certify32_ne (r : T32) : den32 (certify32 r) ≠ 0 := by
  rw [Ne, den32_eq_zero]
  unfold certify32
  split
  · rintro ⟨-, h, -⟩
    exact absurd (show (73 : BitVec 32) = 0 from h) (by decide)
  · assumption

theorem certify32_par (r : T32) : (certify32 r).mat1 = r.mat1 ∧ (certify32 r).mat2 = r.mat2 ∧ (certify32 r).tmat = r.tmat := by
  unfold certify32
  split <;> exact ⟨rfl, rfl, rfl⟩

/-! ### The loop of `tinymt32_init` -/

/-- The number added to word `i`. -/
def mix32 (i : BitVec 32) (p : BitVec 32) : BitVec 32 := i + (1812433253 : BitVec 32) * (p ^^^ (p >>> 30))

theorem mix32_inj {i p q : BitVec 32} (h : mix32 i p = mix32 i q) : p = q := by
  unfold mix32 at h
  have h1 : (1812433253 : BitVec 32) * (p ^^^ (p >>> 30)) = (1812433253 : BitVec 32) * (q ^^^ (q >>> 30)) := by
    have := congrArg (fun z => z - i) h
    simpa [BitVec.add_comm i, BitVec.add_sub_cancel] using this
  have h2 : ∀ x : BitVec 32, (2520285293 : BitVec 32) * ((1812433253 : BitVec 32) * x) = x := fun x => by
    rw [← BitVec.mul_assoc, show (2520285293 : BitVec 32) * 1812433253 = 1 by decide]
    exact BitVec.one_mul x
  have h3 : (2520285293 : BitVec 32) * ((1812433253 : BitVec 32) * (p ^^^ (p >>> 30))) =
      (2520285293 : BitVec 32) * ((1812433253 : BitVec 32) * (q ^^^ (q >>> 30))) := by rw [h1]
  exact shr_inj (k := 30) (by omega) ((h2 _).symm.trans (h3.trans (h2 _)))

theorem initLoop32_eq (r : T32) (seed : BitVec 32) :
    let a1 := r.mat1 ^^^ mix32 1 seed
    let a2 := r.mat2 ^^^ mix32 2 a1
    let a3 := r.tmat ^^^ mix32 3 a2
    let b0 := seed ^^^ mix32 4 a3
    let b1 := a1 ^^^ mix32 5 b0
    let b2 := a2 ^^^ mix32 6 b1
    let b3 := a3 ^^^ mix32 7 b2
    initLoop32 r seed = { r with s0 := b0, s1 := b1, s2 := b2, s3 := b3 } := by
  simp only [initLoop32, T32.withStatus, T32.mk.injEq, and_true]
  refine ⟨rfl, rfl, rfl, rfl⟩

/-- The last three words determine the seed. -/
theorem initLoop32_inj (r : T32) {a b : BitVec 32} (h1 : (initLoop32 r a).s1 = (initLoop32 r b).s1)
    (h2 : (initLoop32 r a).s2 = (initLoop32 r b).s2) (h3 : (initLoop32 r a).s3 = (initLoop32 r b).s3) : a = b := by
  rw [initLoop32_eq, initLoop32_eq] at h1 h2 h3
  dsimp only at h1 h2 h3
  have xc : ∀ {x y m n : BitVec 32}, x ^^^ m = y ^^^ n → m = n → x = y := by
    intro x y m n h e
    rw [e] at h
    have := congrArg (· ^^^ n) h
    simpa [BitVec.xor_assoc] using this
  have e3 := xc h3 (by rw [h2])
  have e2 := xc h2 (by rw [h1])
  have e1 := mix32_inj (xor_left_cancel' e2)
  exact mix32_inj (xor_left_cancel' e1)

/-- The loop backwards. -/
def unloop32 (b0 b1 b2 b3 : BitVec 32) : BitVec 32 × BitVec 32 × BitVec 32 × BitVec 32 :=
  let a3 := b3 ^^^ mix32 7 b2
  let a2 := b2 ^^^ mix32 6 b1
  let a1 := b1 ^^^ mix32 5 b0
  let s := b0 ^^^ mix32 4 a3
  (s, a1 ^^^ mix32 1 s, a2 ^^^ mix32 2 a1, a3 ^^^ mix32 3 a2)

theorem unloop32_initLoop32 (r : T32) (a : BitVec 32) :
    unloop32 (initLoop32 r a).s0 (initLoop32 r a).s1 (initLoop32 r a).s2 (initLoop32 r a).s3 =
      (a, r.mat1, r.mat2, r.tmat) := by
  rw [initLoop32_eq]
  simp only [unloop32, BitVec.xor_assoc, BitVec.xor_self, BitVec.xor_zero]

/-- One certified seed and one that hits the replacement cannot exist for the same parameters. -/
theorem certified32 (r : T32) {a b : BitVec 32} (ha : den32 (initLoop32 r a) = 0)
    (hb : den32 (initLoop32 r b) = den32 ({ r with s0 := 84, s1 := 73, s2 := 78, s3 := 89 } : T32)) : False := by
  rw [den32_eq_zero] at ha
  rw [den32_eq] at hb
  have ua := unloop32_initLoop32 r a
  have ub := unloop32_initLoop32 r b
  obtain ⟨-, a1, a2, a3⟩ := ha
  obtain ⟨-, b1, b2, b3⟩ := hb
  dsimp only at b1 b2 b3
  rw [a1, a2, a3] at ua
  rw [b1, b2, b3] at ub
  have e1 : (unloop32 (initLoop32 r a).s0 0 0 0).2.2.2 = r.tmat := by rw [ua]
  have e2 : (unloop32 (initLoop32 r b).s0 73 78 89).2.2.2 = r.tmat := by rw [ub]
  have f1 : (unloop32 (initLoop32 r a).s0 0 0 0).2.2.2 = 0x882d3866 := by
    show ((0 : BitVec 32) ^^^ mix32 7 0) ^^^ mix32 3 ((0 : BitVec 32) ^^^ mix32 6 0) = _
    decide
  have f2 : (unloop32 (initLoop32 r b).s0 73 78 89).2.2.2 = 0x408051cd := by
    show ((89 : BitVec 32) ^^^ mix32 7 78) ^^^ mix32 3 ((78 : BitVec 32) ^^^ mix32 6 73) = _
    decide
  rw [f1] at e1
  rw [f2] at e2
  exact absurd (e1.trans e2.symm) (by decide)

/-! ## 64 bit -/

/-- Effective state space. -/
abbrev S64 := Wd 63 × Wd 64

/-- The effective state of an object. -/
def den64 (r : T64) : S64 := (Wd.of (r.s0.setWidth 63), Wd.of r.s1)

/-- `m` if `b`. -/
def sel (b : Bool) (m : BitVec 64) : BitVec 64 := if b then m else 0

theorem sel_xor (b c : Bool) (m : BitVec 64) : sel (b ^^ c) m = sel b m ^^^ sel c m := by
  cases b <;> cases c <;> simp [sel]

theorem setWidth_xor {v w : ℕ} (x y : BitVec v) : (x ^^^ y).setWidth w = x.setWidth w ^^^ y.setWidth w := by
  apply BitVec.eq_of_getLsbD_eq
  intro i hi
  simp only [BitVec.getLsbD_setWidth, BitVec.getLsbD_xor, hi, decide_true, Bool.true_and]

/-- The shifts of `tinymt64_next_state`. -/
def shifts (x : BitVec 64) : BitVec 64 :=
  let x := x ^^^ (x <<< 12)
  let x := x ^^^ (x >>> 32)
  let x := x ^^^ (x <<< 32)
  x ^^^ (x <<< 11)

theorem shifts_xor (x y : BitVec 64) : shifts (x ^^^ y) = shifts x ^^^ shifts y := by
  have h1 : ∀ (k : ℕ) (x y : BitVec 64), (x ^^^ y) ^^^ ((x ^^^ y) <<< k) = (x ^^^ (x <<< k)) ^^^ (y ^^^ (y <<< k)) := by
    intro k x y; rw [shl_xor]; ac_rfl
  have h2 : ∀ (k : ℕ) (x y : BitVec 64), (x ^^^ y) ^^^ ((x ^^^ y) >>> k) = (x ^^^ (x >>> k)) ^^^ (y ^^^ (y >>> k)) := by
    intro k x y; rw [shr_xor]; ac_rfl
  simp only [shifts, h1, h2]

theorem shifts_inj {x y : BitVec 64} (h : shifts x = shifts y) : x = y :=
  shl_inj (k := 12) (by omega) (shr_inj (k := 32) (by omega) (shl_inj (k := 32) (by omega)
    (shl_inj (k := 11) (by omega) h)))

/-- `x` of `tinymt64_next_state`. -/
def gx (s : S64) : BitVec 64 := shifts (s.1.val.setWidth 64 ^^^ s.2.val)

theorem gx_add (s t : S64) : gx (s + t) = gx s ^^^ gx t := by
  have e1 : (s + t).1.val = s.1.val ^^^ t.1.val := rfl
  have e2 : (s + t).2.val = s.2.val ^^^ t.2.val := rfl
  unfold gx
  rw [e1, e2, setWidth_xor, ← shifts_xor]
  congr 1
  ac_rfl

/-- `status[0]` after a step. -/
def g0 (p : T64) (s : S64) : BitVec 64 := s.2.val ^^^ sel ((gx s).getLsbD 0) (p.mat1.setWidth 64)

/-- `status[1]` after a step. -/
def g1 (p : T64) (s : S64) : BitVec 64 := gx s ^^^ sel ((gx s).getLsbD 0) (p.mat2.setWidth 64 <<< 32)

theorem g0_add (p : T64) (s t : S64) : g0 p (s + t) = g0 p s ^^^ g0 p t := by
  have e2 : (s + t).2.val = s.2.val ^^^ t.2.val := rfl
  unfold g0
  rw [gx_add, e2, BitVec.getLsbD_xor, sel_xor]
  ac_rfl

theorem g1_add (p : T64) (s t : S64) : g1 p (s + t) = g1 p s ^^^ g1 p t := by
  unfold g1
  rw [gx_add, BitVec.getLsbD_xor, sel_xor]
  ac_rfl

/-- Transition on the effective state. -/
def TL (p : T64) : S64 →ₗ[ZMod 2] S64 :=
  linOf (fun s => (Wd.of ((g0 p s).setWidth 63), Wd.of (g1 p s))) (by
    intro s t
    rw [g0_add, g1_add, setWidth_xor]
    rfl)

theorem low63 (x : BitVec 64) : x &&& 0x7fffffffffffffff = (x.setWidth 63).setWidth 64 := by
  apply BitVec.eq_of_getLsbD_eq
  intro i hi
  have h1 : (0x7fffffffffffffff : BitVec 64) = (BitVec.allOnes 63).setWidth 64 := by decide
  rw [h1]
  simp only [BitVec.getLsbD_and, BitVec.getLsbD_setWidth, BitVec.getLsbD_allOnes]
  cases x.getLsbD i <;> simp

theorem and_one_ne (y : BitVec 64) : (y &&& 1 ≠ 0) ↔ y.getLsbD 0 = true := by
  constructor
  · intro h
    by_contra hc
    apply h
    apply BitVec.eq_of_getLsbD_eq
    intro i hi
    rw [BitVec.getLsbD_and, show (1 : BitVec 64) = 1#64 from rfl, BitVec.getLsbD_one]
    cases i with
    | zero => rw [Bool.eq_false_iff.2 hc]; rfl
    | succ i => simp
  · intro h hc
    have := congrArg (fun z => z.getLsbD 0) hc
    rw [BitVec.getLsbD_and, h] at this
    exact absurd this (by decide)

theorem next64_eq (r : T64) : next64 r = { r with s0 := g0 r (den64 r), s1 := g1 r (den64 r) } := by
  have hx : shifts ((r.s0 &&& 0x7fffffffffffffff) ^^^ r.s1) = gx (den64 r) := by rw [low63]; rfl
  have h1 : (den64 r).2.val = r.s1 := rfl
  have e : next64 r = if gx (den64 r) &&& 1 ≠ 0 then
      { r with s0 := r.s1 ^^^ r.mat1.setWidth 64, s1 := gx (den64 r) ^^^ (r.mat2.setWidth 64 <<< 32) }
      else { r with s0 := r.s1, s1 := gx (den64 r) } := by
    rw [← hx]; rfl
  rw [e]
  split
  · next h =>
    rw [and_one_ne] at h
    simp only [g0, g1, h, sel, h1, if_true]
  · next h =>
    rw [and_one_ne, Bool.not_eq_true] at h
    simp only [g0, g1, h, sel, h1, Bool.false_eq_true, if_false]
    simp

/-- Same parameters. -/
def Same64 (p r : T64) : Prop := r.mat1 = p.mat1 ∧ r.mat2 = p.mat2 ∧ r.tmat = p.tmat

theorem next64_den {p r : T64} (h : Same64 p r) : den64 (next64 r) = TL p (den64 r) := by
  rw [next64_eq]
  have e0 : g0 r = g0 p := by funext s; unfold g0; rw [h.1]
  have e1 : g1 r = g1 p := by funext s; unfold g1; rw [h.2.1]
  simp only [den64, TL, linOf_apply, ← e0, ← e1]

theorem next64_par {p r : T64} (h : Same64 p r) : Same64 p (next64 r) := by
  rw [next64_eq]; exact h

theorem next64_iter (r : T64) (n : ℕ) : Same64 r (next64^[n] r) ∧ den64 (next64^[n] r) = ((TL r) ^ n) (den64 r) := by
  induction n with
  | zero => exact ⟨⟨rfl, rfl, rfl⟩, rfl⟩
  | succ n ih =>
    rw [Function.iterate_succ_apply']
    refine ⟨next64_par ih.1, ?_⟩
    rw [next64_den ih.1, ih.2, pow_succ', Module.End.mul_apply]

theorem finrank_S64 : Module.finrank (ZMod 2) S64 = 127 := by
  simp only [Module.finrank_prod, Wd.finrank]

/-- The transition is invertible, whatever the parameters are. -/
theorem TL_bijective (p : T64) : Function.Bijective (TL p) := by
  rw [← Finite.injective_iff_bijective, injective_iff_map_eq_zero]
  rintro s h
  have e0 : (g0 p s).setWidth 63 = 0 := congrArg (fun q : S64 => q.1.val) h
  have e1 : g1 p s = 0 := congrArg (fun q : S64 => q.2.val) h
  have hb : (gx s).getLsbD 0 = false := by
    have := congrArg (fun z => z.getLsbD 0) e1
    unfold g1 at this
    rw [BitVec.getLsbD_xor] at this
    cases hg : (gx s).getLsbD 0
    · rfl
    · rw [hg] at this
      simp [sel] at this
  have hx : gx s = 0 := by
    unfold g1 at e1
    rw [hb] at e1
    simpa [sel] using e1
  have h01 : s.1.val.setWidth 64 ^^^ s.2.val = 0 := by
    apply shifts_inj
    rw [show shifts 0 = 0 by decide]
    exact hx
  have h0 : s.2.val.setWidth 63 = 0 := by
    unfold g0 at e0
    rw [hb] at e0
    simpa [sel] using e0
  have h1 : s.1.val.setWidth 64 = s.2.val := by
    have := congrArg (· ^^^ s.2.val) h01
    simpa [BitVec.xor_assoc] using this
  have h2 : s.1.val = 0 := by
    apply BitVec.eq_of_getLsbD_eq
    intro i hi
    have a1 := congrArg (fun z => z.getLsbD i) h1
    have a2 := congrArg (fun z => z.getLsbD i) h0
    have hi2 : i < 64 := by omega
    simp only [BitVec.getLsbD_setWidth, hi, hi2, decide_true, Bool.true_and] at a1 a2
    rw [a1, a2]
  have h3 : s.2.val = 0 := by rw [← h1, h2]; decide
  exact Prod.ext (Wd.ext h2) (Wd.ext h3)

theorem TL_pow_injective (p : T64) (n : ℕ) : Function.Injective ((TL p) ^ n) := by
  rw [Module.End.coe_pow]
  exact (TL_bijective p).1.iterate n

theorem den64_eq_zero (r : T64) : den64 r = 0 ↔ (r.s0 &&& 0x7fffffffffffffff) = 0 ∧ r.s1 = 0 := by
  rw [low63]
  constructor
  · intro h
    have h1 : r.s0.setWidth 63 = 0 := congrArg (fun q : S64 => q.1.val) h
    rw [h1]
    exact ⟨by decide, congrArg (fun q : S64 => q.2.val) h⟩
  · rintro ⟨h1, h2⟩
    refine Prod.ext (Wd.ext ?_) (Wd.ext h2)
    show r.s0.setWidth 63 = 0
    apply BitVec.eq_of_toNat_eq
    have := congrArg BitVec.toNat h1
    rw [BitVec.toNat_setWidth] at this
    have h3 := (r.s0.setWidth 63).isLt
    rwa [Nat.mod_eq_of_lt (by omega)] at this

theorem certify64_ne (r : T64) : den64 (certify64 r) ≠ 0 := by
  rw [Ne, den64_eq_zero]
  unfold certify64
  split
  · rintro ⟨-, h⟩
    exact absurd (show (77 : BitVec 64) = 0 from h) (by decide)
  · assumption

theorem certify64_par (r : T64) : Same64 r (certify64 r) := by
  unfold certify64
  split <;> exact ⟨rfl, rfl, rfl⟩

/-! ### The loop of `tinymt64_init` -/

/-- The number added to word `i`. -/
def mix64 (i : BitVec 64) (p : BitVec 64) : BitVec 64 := i + (6364136223846793005 : BitVec 64) * (p ^^^ (p >>> 62))

theorem initLoop64_eq (r : T64) (seed : BitVec 64) :
    let a0 := seed ^^^ (r.mat1.setWidth 64 <<< 32)
    let a1 := r.mat2.setWidth 64 ^^^ r.tmat
    let b1 := a1 ^^^ mix64 1 a0
    let b0 := a0 ^^^ mix64 2 b1
    let c1 := b1 ^^^ mix64 3 b0
    let c0 := b0 ^^^ mix64 4 c1
    let d1 := c1 ^^^ mix64 5 c0
    let d0 := c0 ^^^ mix64 6 d1
    let e1 := d1 ^^^ mix64 7 d0
    initLoop64 r seed = { r with s0 := d0, s1 := e1 } := by
  simp only [initLoop64, T64.mk.injEq, and_true]
  exact ⟨rfl, rfl⟩

/-- The loop backwards. -/
def unloop64 (d0 e1 : BitVec 64) : BitVec 64 × BitVec 64 :=
  let d1 := e1 ^^^ mix64 7 d0
  let c0 := d0 ^^^ mix64 6 d1
  let c1 := d1 ^^^ mix64 5 c0
  let b0 := c0 ^^^ mix64 4 c1
  let b1 := c1 ^^^ mix64 3 b0
  let a0 := b0 ^^^ mix64 2 b1
  (a0, b1 ^^^ mix64 1 a0)

theorem unloop64_initLoop64 (r : T64) (a : BitVec 64) : unloop64 (initLoop64 r a).s0 (initLoop64 r a).s1 =
    (a ^^^ (r.mat1.setWidth 64 <<< 32), r.mat2.setWidth 64 ^^^ r.tmat) := by
  rw [initLoop64_eq]
  simp only [unloop64, BitVec.xor_assoc, BitVec.xor_self, BitVec.xor_zero]

theorem initLoop64_inj (r : T64) {a b : BitVec 64} (h0 : (initLoop64 r a).s0 = (initLoop64 r b).s0)
    (h1 : (initLoop64 r a).s1 = (initLoop64 r b).s1) : a = b := by
  have ua := unloop64_initLoop64 r a
  have ub := unloop64_initLoop64 r b
  rw [h0, h1, ub] at ua
  have := congrArg (fun q => q.1 ^^^ (r.mat1.setWidth 64 <<< 32)) ua
  simpa [BitVec.xor_assoc] using this.symm

theorem initLoop64_second (r : T64) (a : BitVec 64) :
    (unloop64 (initLoop64 r a).s0 (initLoop64 r a).s1).2 = r.mat2.setWidth 64 ^^^ r.tmat := by
  rw [unloop64_initLoop64]

theorem low63_zero {x : BitVec 64} (h : x &&& 0x7fffffffffffffff = 0) : x = 0 ∨ x = 0x8000000000000000 := by
  have hb : ∀ i, i < 63 → x.getLsbD i = false := by
    intro i hi
    have := congrArg (fun z => z.getLsbD i) h
    rw [low63] at this
    have h2 : i < 64 := by omega
    simpa [BitVec.getLsbD_setWidth, hi, h2] using this
  cases h63 : x.getLsbD 63 with
  | false =>
    left
    apply BitVec.eq_of_getLsbD_eq
    intro i hi
    by_cases h : i < 63
    · rw [hb i h]; simp
    · rw [show i = 63 by omega, h63]; simp
  | true =>
    right
    apply BitVec.eq_of_getLsbD_eq
    intro i hi
    rw [show (0x8000000000000000 : BitVec 64) = BitVec.twoPow 64 63 by decide, BitVec.getLsbD_twoPow]
    by_cases h : i < 63
    · rw [hb i h]
      have : ¬ 63 = i := by omega
      simp [this]
    · rw [show i = 63 by omega, h63]; simp

end MTT.TinyRef
