import Verif.Tests.Gen
import Verif.Spec.LinGen
import Verif.Spec.Word
import Verif.Spec.RingGen
import Verif.Samples.TinyMTProps

/-!
# The classes `RTiny32` and `RLittle32` as linear generators (helper lemmas)
-/

namespace MTT.Tests

open PIS

/-- `m` if the bit is set. -/
def sel (b : Bool) (m : BitVec 32) : BitVec 32 := if b then m else 0

theorem sel_xor (b c : Bool) (m : BitVec 32) : sel (b ^^ c) m = sel b m ^^^ sel c m := by
  cases b <;> cases c <;> simp [sel]

theorem if_sel (y a m : BitVec 32) : (if (y &&& 1) ≠ 0 then a ^^^ m else a) = a ^^^ sel (y.getLsbD 0) m := by
  by_cases h : (y &&& 1) ≠ 0
  · rw [if_pos h, (TinyMT.and_one_ne y).1 h]; rfl
  · rw [if_neg h]
    have : y.getLsbD 0 = false := by
      rw [← Bool.not_eq_true, ← TinyMT.and_one_ne]; exact h
    rw [this]; simp [sel]

/-- `x ^= x << a; x ^= x >> b`. -/
def lr (a b : ℕ) (x : BitVec 32) : BitVec 32 := (x ^^^ (x <<< a)) ^^^ ((x ^^^ (x <<< a)) >>> b)

/-- `y ^= y >> a; y ^= y << b`. -/
def rl (a b : ℕ) (y : BitVec 32) : BitVec 32 := (y ^^^ (y >>> a)) ^^^ ((y ^^^ (y >>> a)) <<< b)

theorem lr_xor (a b : ℕ) (x y : BitVec 32) : lr a b (x ^^^ y) = lr a b x ^^^ lr a b y := by
  unfold lr
  simp only [shl_xor, shr_xor]
  ac_rfl

theorem rl_xor (a b : ℕ) (x y : BitVec 32) : rl a b (x ^^^ y) = rl a b x ^^^ rl a b y := by
  unfold rl
  simp only [shl_xor, shr_xor]
  ac_rfl

theorem lr_inj {a b : ℕ} (ha : 1 ≤ a) (hb : 1 ≤ b) {x y : BitVec 32} (h : lr a b x = lr a b y) : x = y :=
  shl_inj ha (shr_inj hb h)

/-! ## RTiny32 -/

/-- State space of `RTiny32`. -/
abbrev SR : Type := Wd 32 × Wd 32 × Wd 32 × Wd 32

/-- The state of an object. -/
def rtDen (r : RT) : SR := (Wd.of r.s0, Wd.of r.s1, Wd.of r.s2, Wd.of r.s3)

/-- The word stored last. -/
def rtX (p : RTPar) (s : SR) : BitVec 32 := lr p.sh3 p.sh4 s.1.val ^^^ rl p.sh1 p.sh2 s.2.1.val

theorem rtX_add (p : RTPar) (s t : SR) : rtX p (s + t) = rtX p s ^^^ rtX p t := by
  show lr _ _ (s.1.val ^^^ t.1.val) ^^^ rl _ _ (s.2.1.val ^^^ t.2.1.val) = _
  rw [lr_xor, rl_xor]
  unfold rtX
  ac_rfl

/-- Transition of `RTiny32`. -/
def rtT (p : RTPar) : SR →ₗ[ZMod 2] SR :=
  linOf (fun s => (s.2.1, Wd.of (s.2.2.1.val ^^^ sel ((rtX p s).getLsbD 0) p.mat1),
      Wd.of (s.2.2.2.val ^^^ sel ((rtX p s).getLsbD 0) p.mat2), Wd.of (rtX p s))) (fun s t => by
    refine Prod.ext rfl (Prod.ext ?_ (Prod.ext ?_ ?_))
    · show Wd.of ((s.2.2.1.val ^^^ t.2.2.1.val) ^^^ sel ((rtX p (s + t)).getLsbD 0) p.mat1) = _ + _
      rw [rtX_add, BitVec.getLsbD_xor, sel_xor, ← Wd.of_xor]
      congr 1; ac_rfl
    · show Wd.of ((s.2.2.2.val ^^^ t.2.2.2.val) ^^^ sel ((rtX p (s + t)).getLsbD 0) p.mat2) = _ + _
      rw [rtX_add, BitVec.getLsbD_xor, sel_xor, ← Wd.of_xor]
      congr 1; ac_rfl
    · show Wd.of (rtX p (s + t)) = _ + _
      rw [rtX_add, ← Wd.of_xor])

/-- Output of `RTiny32`. -/
def rtO : SR →ₗ[ZMod 2] V := linOf (fun s => bits s.2.1.val) (fun s t => by rw [← bits_xor]; rfl)

theorem rtGen_eq (r : RT) : rtGen r = (
    { r with
      s0 := r.s1
      s1 := r.s2 ^^^ sel ((rtX r.par (rtDen r)).getLsbD 0) r.par.mat1
      s2 := r.s3 ^^^ sel ((rtX r.par (rtDen r)).getLsbD 0) r.par.mat2
      s3 := rtX r.par (rtDen r) }, r.s1) := by
  have e : rtX r.par (rtDen r) = (r.s0 ^^^ (r.s0 <<< r.par.sh3)) ^^^ ((r.s0 ^^^ (r.s0 <<< r.par.sh3)) >>> r.par.sh4) ^^^
      ((r.s1 ^^^ (r.s1 >>> r.par.sh1)) ^^^ ((r.s1 ^^^ (r.s1 >>> r.par.sh1)) <<< r.par.sh2)) := rfl
  unfold rtGen
  dsimp only
  rw [← e, ← if_sel, ← if_sel]
  generalize rtX r.par (rtDen r) = x
  by_cases h : (x &&& 1) ≠ 0
  · simp only [if_pos h]
  · simp only [if_neg h]

theorem rtOps_linGen (p : RTPar) : LinGen rtOps (fun r => r.par = p) rtDen (rtT p) rtO where
  gen_inv r hr := by show (rtGen r).1.par = p; rw [rtGen_eq]; exact hr
  gen_den r hr := by show rtDen (rtGen r).1 = _; rw [rtGen_eq, hr]; rfl
  gen_out r hr := by show bits (rtGen r).2 = _; rw [rtGen_eq]; rfl
  genV_inv v r _ _ hr := by show (rtGen r).1.par = p; rw [rtGen_eq]; exact hr
  genV_den v r _ _ hr := by show rtDen (rtGen r).1 = _; rw [rtGen_eq, hr]; rfl
  genV_out v r _ hv hr := by
    show bits ((rtGen r).2 &&& _) = _
    rw [TinyMT.allOnes32, bits_and_mask _ hv, rtGen_eq]; rfl
  add_inv a b ha hb := ha
  add_den a b ha hb := rfl
  zero_inv r hr := hr
  zero_den r _ := rfl

theorem finrank_SR : Module.finrank (ZMod 2) SR = 128 := by
  simp only [Module.finrank_prod, Wd.finrank]

theorem rtDen_eq_zero (r : RT) : rtDen r = 0 ↔ r.s0 = 0 ∧ r.s1 = 0 ∧ r.s2 = 0 ∧ r.s3 = 0 := by
  constructor
  · intro h
    exact ⟨congrArg (fun q : SR => q.1.val) h, congrArg (fun q : SR => q.2.1.val) h,
      congrArg (fun q : SR => q.2.2.1.val) h, congrArg (fun q : SR => q.2.2.2.val) h⟩
  · rintro ⟨h1, h2, h3, h4⟩
    unfold rtDen
    rw [h1, h2, h3, h4]; rfl

/-! ## RLittle32 -/

/-- State space of `RLittle32`: the words, oldest first. -/
abbrev SL : Type := Fin 17 → Wd 32

/-- The state of an object. -/
def rlDen (r : RL) : SL := Ring.vec 17 r.state r.index

/-- The new word. -/
def rlF (p : RLPar) (x y : BitVec 32) : BitVec 32 :=
  (lr p.sh3 p.sh4 x ^^^ rl p.sh1 p.sh2 y) ^^^ sel ((rl p.sh1 p.sh2 y).getLsbD 0) p.mat1

theorem rlNew1_eq (p : RLPar) (x y : BitVec 32) : rlNew1 p x y = rlF p x y := by
  unfold rlNew1 rlF
  dsimp only
  rw [← if_sel]
  rfl

theorem rlF_xor (p : RLPar) (x y x' y' : BitVec 32) : rlF p (x ^^^ x') (y ^^^ y') = rlF p x y ^^^ rlF p x' y' := by
  unfold rlF
  rw [lr_xor, rl_xor, BitVec.getLsbD_xor, sel_xor]
  ac_rfl

/-- Index of the word `pos` behind the oldest. -/
abbrev rlPos (p : RLPar) : Fin 17 := ⟨p.pos % 17, Nat.mod_lt _ (by decide)⟩

/-- Transition of `RLittle32`. -/
def rlT (p : RLPar) : SL →ₗ[ZMod 2] SL :=
  linOf (fun s => shiftIn 17 s (Wd.of (rlF p (s 0).val (s (rlPos p)).val))) (fun s t => by
    rw [← shiftIn_add, ← Wd.of_xor, ← rlF_xor]; rfl)

/-- Output of `RLittle32`. -/
def rlO (p : RLPar) : SL →ₗ[ZMod 2] V :=
  linOf (fun s => bits (rlF p (s 0).val (s (rlPos p)).val)) (fun s t => by
    rw [← bits_xor, ← rlF_xor]; rfl)

theorem rlGen_eq (r : RL) : rlGen r = (
    { r with
      index := (r.index + 1) % 17
      state := Function.update r.state ((r.index + 1) % 17) (rlF r.par (rlDen r 0).val (rlDen r (rlPos r.par)).val) }, rlF r.par (rlDen r 0).val (rlDen r (rlPos r.par)).val) := by
  unfold rlGen
  dsimp only
  rw [rlNew1_eq, Nat.mod_mod]
  have h0 : r.state ((r.index + 1) % 17) = (rlDen r 0).val := Ring.read0 r.state r.index (by decide)
  have h1 : r.state (((r.index + 1) % 17 + r.par.pos) % 17) = (rlDen r (rlPos r.par)).val := by
    have := Ring.read r.state r.index (rlPos r.par)
    rw [← Nat.add_mod_mod ((r.index + 1) % 17) r.par.pos 17]
    exact this
  rw [h0, h1]

theorem rlOps_linGen (p : RLPar) : LinGen rlOps (fun r => r.par = p) rlDen (rlT p) (rlO p) where
  gen_inv r hr := by show (rlGen r).1.par = p; rw [rlGen_eq]; exact hr
  gen_den r hr := by
    show rlDen (rlGen r).1 = _
    rw [rlGen_eq, hr]
    exact Ring.vec_store _ _ _
  gen_out r hr := by show bits (rlGen r).2 = _; rw [rlGen_eq, hr]; rfl
  genV_inv v r _ _ hr := by show (rlGen r).1.par = p; rw [rlGen_eq]; exact hr
  genV_den v r _ _ hr := by
    show rlDen (rlGen r).1 = _
    rw [rlGen_eq, hr]
    exact Ring.vec_store _ _ _
  genV_out v r _ hv hr := by
    show bits ((rlGen r).2 &&& _) = _
    rw [TinyMT.allOnes32, bits_and_mask _ hv, rlGen_eq, hr]; rfl
  add_inv a b ha hb := ha
  add_den a b ha hb := Ring.vec_add _ _ _ _
  zero_inv r hr := hr
  zero_den r _ := Ring.vec_clear _ _

theorem finrank_SL : Module.finrank (ZMod 2) SL = 544 := Ring.finrank 17 32

end MTT.Tests
