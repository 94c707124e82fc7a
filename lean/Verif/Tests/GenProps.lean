import Verif.Tests.GenLemmas
import Verif.Samples.TinyRefProps
import Verif.GF2.Small

/-!
# The classes `RTiny32` and `RLittle32` (C92)
-/

namespace MTT.Tests

open PIS Polynomial

theorem xor_right_cancel' {a x y : BitVec 32} (h : x ^^^ a = y ^^^ a) : x = y :=
  xor_left_cancel' (a := a) (by rw [BitVec.xor_comm a x, BitVec.xor_comm a y]; exact h)

/-! ## RTiny32 -/

theorem rtSeed_eq (v : BitVec 32) (r : RT) :
    rtSeed v r =
      { r with
        s0 := (TinyRef.initLoop32 ⟨0, 0, 0, 0, r.par.mat1, r.par.mat2, 0⟩ v).s0
        s1 := (TinyRef.initLoop32 ⟨0, 0, 0, 0, r.par.mat1, r.par.mat2, 0⟩ v).s1
        s2 := (TinyRef.initLoop32 ⟨0, 0, 0, 0, r.par.mat1, r.par.mat2, 0⟩ v).s2
        s3 := (TinyRef.initLoop32 ⟨0, 0, 0, 0, r.par.mat1, r.par.mat2, 0⟩ v).s3 } := by
  rw [TinyRef.initLoop32_eq]
  simp only [rtSeed, RT.mk.injEq, true_and]
  refine ⟨rfl, rfl, rfl, rfl⟩

/-- **C92.**  No seed and no parameters leave the object in the zero state, and different seeds give different states. -/
theorem rtSeed_good (r r' : RT) (v v' : BitVec 32) :
    rtOps.isZero (rtSeed v r) = false ∧ (rtSeed v r).par = r.par ∧ (r.par = r'.par → (rtSeed v r = rtSeed v' r' ↔ v = v')) := by
  refine ⟨?_, rfl, fun hp => ⟨fun h => ?_, ?_⟩⟩
  · rw [Bool.eq_false_iff]
    intro h
    simp only [rtOps, Bool.and_eq_true, beq_iff_eq] at h
    obtain ⟨⟨⟨h0, h1⟩, h2⟩, h3⟩ := h
    rw [rtSeed_eq] at h0 h1 h2 h3
    have u := TinyRef.unloop32_initLoop32 ⟨0, 0, 0, 0, r.par.mat1, r.par.mat2, 0⟩ v
    dsimp only at h0 h1 h2 h3
    rw [h0, h1, h2, h3] at u
    have : (TinyRef.unloop32 0 0 0 0).2.2.2 = 0 := congrArg (fun q => q.2.2.2) u
    exact absurd this (by decide)
  · rw [rtSeed_eq, rtSeed_eq, ← hp] at h
    simp only [RT.mk.injEq] at h
    exact TinyRef.initLoop32_inj _ h.2.2.1 h.2.2.2.1 h.2.2.2.2
  · rintro rfl
    rw [rtSeed_eq, rtSeed_eq, hp]

/-- **C92.**  One call of `generate` loses no information exactly if neither shift of the first word is zero. -/
theorem rtGen_injective_iff (p : RTPar) :
    (∀ r r' : RT, r.par = p → r'.par = p → (rtGen r).1 = (rtGen r').1 → r = r') ↔ p.sh3 ≠ 0 ∧ p.sh4 ≠ 0 := by
  have lr0 : ∀ (a b : ℕ) (x : BitVec 32), a = 0 ∨ b = 0 → lr a b x = 0 := by
    rintro a b x (rfl | rfl) <;> simp [lr]
  constructor
  · intro h
    by_contra hc
    have hz : p.sh3 = 0 ∨ p.sh4 = 0 := by
      by_contra h'
      exact hc ⟨fun e => h' (Or.inl e), fun e => h' (Or.inr e)⟩
    have := h ⟨p, 0, 0, 0, 0⟩ ⟨p, 1, 0, 0, 0⟩ rfl rfl (by
      rw [rtGen_eq, rtGen_eq]
      simp only [rtX, rtDen, lr0 _ _ _ hz])
    exact absurd (show (0 : BitVec 32) = 1 from congrArg RT.s0 this) (by decide)
  · rintro ⟨h3, h4⟩ r r' hr hr' h
    rw [rtGen_eq, rtGen_eq] at h
    simp only [RT.mk.injEq] at h
    obtain ⟨-, e1, e2, e3, eX⟩ := h
    rw [eX, hr, hr'] at e2 e3
    rw [hr, hr'] at eX
    have e2 := xor_right_cancel' e2
    have e3 := xor_right_cancel' e3
    have e0 : r.s0 = r'.s0 := by
      have : rl p.sh1 p.sh2 r.s1 = rl p.sh1 p.sh2 r'.s1 := by rw [e1]
      have eX : lr p.sh3 p.sh4 r.s0 ^^^ rl p.sh1 p.sh2 r.s1 = lr p.sh3 p.sh4 r'.s0 ^^^ rl p.sh1 p.sh2 r'.s1 := eX
      rw [this] at eX
      exact lr_inj (Nat.pos_of_ne_zero h3) (Nat.pos_of_ne_zero h4) (xor_right_cancel' eX)
    rcases r with ⟨_, _, _, _, _⟩
    rcases r' with ⟨_, _, _, _, _⟩
    simp_all

/-- `setUpParam` keeps the state and chooses shifts below 32. -/
theorem rtSetUp_range (f : ℕ → BitVec 32) (r : RT) :
    (rtSetUp f r).par.sh1 < 32 ∧ (rtSetUp f r).par.sh2 < 32 ∧ (rtSetUp f r).par.sh3 < 32 ∧ (rtSetUp f r).par.sh4 < 32 := by
  have h : ∀ x : BitVec 32, (x % 32).toNat < 32 := fun x => by
    rw [BitVec.toNat_umod]; exact Nat.mod_lt _ (by decide)
  exact ⟨h _, h _, h _, h _⟩

/-- The parameters of `RTiny32(value)`. -/
abbrev pA : RTPar := ⟨0x7c9e604d, 0xe91ac974, 2, 16, 24, 23⟩

theorem primA : Primitive2 (GF2.bitPoly (128 + 1) 0x15e5f1f9957ba26c1da19bb412da397a1) 128 :=
  GF2.primitive_of_check (s := 8) (mu := 0x14be919d9c799ea8c321cef5547e98dcd) (by decide) (by decide) (by decide)
    GF2.factors_128 (by decide +kernel)

theorem annA (s : SR) : aeval (rtT pA) (GF2.bitPoly (128 + 1) 0x15e5f1f9957ba26c1da19bb412da397a1) s = 0 := by
  refine GF2.aeval_all (by decide) finrank_SR primA (e := (Wd.of 1, 0, 0, 0)) (by decide) ?_ s
  have h := GF2.ev_spec (T := rtT pA) (fc := GF2.fS) (fun s k => GF2.fS_eq s k) (f := fun s => rtT pA s) (fun _ => rfl) (128 + 1)
    0x15e5f1f9957ba26c1da19bb412da397a1 (Wd.of 1, 0, 0, 0) 0
  rw [zero_add] at h
  rw [← h]
  decide +kernel

theorem rtGen_iter (r : RT) (k : ℕ) : ((fun t => (rtGen t).1)^[k] r).par = r.par ∧
    rtDen ((fun t => (rtGen t).1)^[k] r) = (rtT r.par ^ k) (rtDen r) := by
  induction k with
  | zero => exact ⟨rfl, rfl⟩
  | succ k ih =>
    rw [Function.iterate_succ_apply']
    have h := rtOps_linGen r.par
    refine ⟨h.gen_inv _ ih.1, ?_⟩
    rw [pow_succ', Module.End.mul_apply, ← ih.2]
    exact h.gen_den _ ih.1

theorem rtDen_inj {r r' : RT} (hp : r.par = r'.par) (h : rtDen r = rtDen r') : r = r' := by
  rcases r with ⟨p, a, b, c, d⟩
  rcases r' with ⟨p', a', b', c', d'⟩
  have h0 : a = a' := congrArg (fun q : SR => q.1.val) h
  have h1 : b = b' := congrArg (fun q : SR => q.2.1.val) h
  have h2 : c = c' := congrArg (fun q : SR => q.2.2.1.val) h
  have h3 : d = d' := congrArg (fun q : SR => q.2.2.2.val) h
  simp only at hp
  rw [hp, h0, h1, h2, h3]

/-- **C92.**  `RTiny32(value)`: for every seed the outputs have least period `2^128 - 1`, and the object passes through every state
that is not zero. -/
theorem rtDefault_period (v : BitVec 32) : HasPeriod (stream rtGen (rtDefault v)) (2 ^ 128 - 1) ∧
    ∀ r : RT, r.par = (rtDefault v).par → rtOps.isZero r = false →
      ∃ k, k < 2 ^ 128 - 1 ∧ (fun t => (rtGen t).1)^[k] (rtDefault v) = r := by
  have hne : rtDen (rtDefault v) ≠ 0 := by
    intro h
    have h1 := (rtSeed_good ⟨pA, 0, 0, 0, 0⟩ ⟨pA, 0, 0, 0, 0⟩ v v).1
    rw [rtDen_eq_zero] at h
    rw [Bool.eq_false_iff] at h1
    apply h1
    simp only [rtOps, Bool.and_eq_true, beq_iff_eq]
    exact ⟨⟨⟨h.1, h.2.1⟩, h.2.2.1⟩, h.2.2.2⟩
  constructor
  · have hO : rtO ≠ 0 := fun h => by
      have := congrFun (congrArg (fun q : SR →ₗ[ZMod 2] V => q (0, Wd.of 1, 0, 0)) h) 31
      exact absurd this (by decide)
    have h := lin_period (O := rtO) (by decide) finrank_SR primA annA hO hne
    intro K N
    rw [← h K N]
    have e : ∀ k, rtO ((rtT pA ^ k) (rtDen (rtDefault v))) = bits (stream rtGen (rtDefault v) k) := fun k => by
      obtain ⟨h1, h2⟩ := rtGen_iter (rtDefault v) k
      have h3 := (rtOps_linGen pA).gen_out _ h1
      rw [h2] at h3
      exact h3.symm
    simp only [e]
    exact forall₂_congr fun k _ => ⟨fun h => by rw [h], fun h => bits_inj h⟩
  · intro r hr h0
    have hy : rtDen r ≠ 0 := by
      rw [Ne, rtDen_eq_zero]
      rintro ⟨h0', h1, h2, h3⟩
      rw [Bool.eq_false_iff] at h0
      apply h0
      simp only [rtOps, h0', h1, h2, h3, beq_self_eq_true, Bool.and_self]
    obtain ⟨k, hk, e⟩ := orbit_surj (by decide) finrank_SR primA annA hne hy
    refine ⟨k, hk, ?_⟩
    obtain ⟨h1, h2⟩ := rtGen_iter (rtDefault v) k
    exact rtDen_inj (h1.trans hr.symm) (h2.trans e)

/-! ## RLittle32 -/

/-- The words that `RLittle32::seed` leaves. -/
def rlWord (m v : BitVec 32) : ℕ → BitVec 32
  | 0 => v
  | 1 => m ^^^ TinyRef.mix32 1 v
  | i + 2 => TinyRef.mix32 (BitVec.ofNat 32 (i + 2)) (rlWord m v (i + 1))

theorem rlSeed_state (v : BitVec 32) (r : RL) (i : ℕ) (hi : i < 17) : (rlSeed v r).state i = rlWord r.par.mat1 v i := by
  have z : ∀ n i, i < n → ((List.range n).foldl (fun a i => Function.update a i 0) r.state) i = (0 : BitVec 32) := by
    intro n
    induction n with
    | zero => intro i h; omega
    | succ n ih =>
      intro i h
      rw [List.range_succ, List.foldl_append]
      simp only [List.foldl_cons, List.foldl_nil]
      by_cases he : i = n
      · rw [he, Function.update_self]
      · rw [Function.update_of_ne he]; exact ih i (by omega)
  have key : ∀ n st, st 0 = v → st 1 = r.par.mat1 → (∀ i, 2 ≤ i → i < 17 → st i = (0 : BitVec 32)) → n ≤ 16 →
      ∀ i, i < 17 → ((List.range' 1 n).foldl rlSeedStep st) i = if i ≤ n then rlWord r.par.mat1 v i else st i := by
    intro n st h0 h1 h2
    induction n with
    | zero =>
      intro _ i hi
      by_cases he : i = 0
      · rw [he]; simp [h0, rlWord]
      · rw [if_neg (by omega)]; rfl
    | succ n ih =>
      intro hn i hi
      have ih := ih (by omega)
      rw [List.range'_1_concat, List.foldl_append]
      simp only [List.foldl_cons, List.foldl_nil]
      rw [rlSeedStep]
      by_cases he : i = 1 + n
      · subst he
        rw [Function.update_self, if_pos (by omega), ih (1 + n) (by omega), if_neg (by omega),
          show 1 + n - 1 = n by omega, ih n (by omega), if_pos (le_refl _)]
        cases n with
        | zero => rw [show 1 + 0 = 1 from rfl, h1]; rfl
        | succ n =>
          rw [h2 _ (by omega) (by omega), show 1 + (n + 1) = n + 2 by omega]
          exact BitVec.zero_xor
      · rw [Function.update_of_ne he, ih i hi]
        by_cases hl : i ≤ n
        · rw [if_pos hl, if_pos (by omega)]
        · rw [if_neg hl, if_neg (by omega)]
  unfold rlSeed
  dsimp only
  rw [key 16 _ ?_ ?_ ?_ (le_refl _) i hi, if_pos (by omega)]
  · rw [Function.update_of_ne (by decide), Function.update_self]
  · rw [Function.update_self]
  · intro i h2 hi
    rw [Function.update_of_ne (by omega), Function.update_of_ne (by omega)]
    exact z 17 i hi

/-- **C92.**  `RLittle32::seed`: the words do not depend on what the memory contained, they are never all zero, and they determine the
seed. -/
theorem rlSeed_good (r r' : RL) (v v' : BitVec 32) : rlOps.isZero (rlSeed v r) = false ∧ (rlSeed v r).par = r.par ∧
    (rlSeed v r).index = 16 ∧
    (r.par = r'.par → ((∀ i < 17, (rlSeed v r).state i = (rlSeed v' r').state i) ↔ v = v')) := by
  refine ⟨?_, rfl, rfl, fun hp => ⟨fun h => ?_, ?_⟩⟩
  · rw [Bool.eq_false_iff]
    intro h
    simp only [rlOps, List.all_eq_true, List.mem_range, beq_iff_eq] at h
    have h1 := h 1 (by decide)
    have h2 := h 2 (by decide)
    rw [rlSeed_state v r 1 (by decide)] at h1
    rw [rlSeed_state v r 2 (by decide)] at h2
    have : rlWord r.par.mat1 v 2 = TinyRef.mix32 2 (rlWord r.par.mat1 v 1) := rfl
    rw [this, h1] at h2
    exact absurd h2 (by decide)
  · have := h 0 (by decide)
    rwa [rlSeed_state _ _ 0 (by decide), rlSeed_state _ _ 0 (by decide)] at this
  · rintro rfl i hi
    rw [rlSeed_state _ _ i hi, rlSeed_state _ _ i hi, hp]

/-- **C92.**  One call of `RLittle32::generate` with `pos` not a multiple of 17 loses no information exactly if neither shift of the
oldest word is zero. -/
theorem rlGen_injective_iff (p : RLPar) (hpos : p.pos % 17 ≠ 0) :
    (∀ r r' : RL, r.par = p → r'.par = p → r.index < 17 → r.index = r'.index →
      (∀ i < 17, (rlGen r).1.state i = (rlGen r').1.state i) → ∀ i < 17, r.state i = r'.state i) ↔ p.sh3 ≠ 0 ∧ p.sh4 ≠ 0 := by
  have lr0 : ∀ (a b : ℕ) (x : BitVec 32), a = 0 ∨ b = 0 → lr a b x = 0 := by
    rintro a b x (rfl | rfl) <;> simp [lr]
  have e : ∀ r : RL, r.par = p → (rlGen r).1.state = Function.update r.state ((r.index + 1) % 17)
      (rlF p (r.state ((r.index + 1) % 17)) (r.state (((r.index + 1) % 17 + p.pos) % 17))) := by
    rintro r rfl
    unfold rlGen
    dsimp only
    rw [rlNew1_eq, Nat.mod_mod]
  constructor
  · intro h
    by_contra hc
    have hz : p.sh3 = 0 ∨ p.sh4 = 0 := by
      by_contra h'
      exact hc ⟨fun e => h' (Or.inl e), fun e => h' (Or.inr e)⟩
    have := h ⟨p, 16, fun _ => 0⟩ ⟨p, 16, fun i => if i = 0 then 1 else 0⟩ rfl rfl (show 16 < 17 by decide) rfl (by
      intro i hi
      rw [e _ rfl, e _ rfl]
      dsimp only
      have h17 : (16 + 1) % 17 = 0 := rfl
      rw [h17, Nat.zero_add, if_neg hpos]
      by_cases h0 : i = 0
      · rw [h0, Function.update_self, Function.update_self]
        unfold rlF
        rw [lr0 _ _ _ hz, lr0 _ _ _ hz]
      · rw [Function.update_of_ne h0, Function.update_of_ne h0, if_neg h0]) 0 (by decide)
    exact absurd (show (0 : BitVec 32) = 1 from this) (by decide)
  · rintro ⟨h3, h4⟩ r r' hr hr' hi hix h i hlt
    rw [e r hr, e r' hr', ← hix] at h
    have hj : (r.index + 1) % 17 < 17 := Nat.mod_lt _ (by decide)
    have hk : ((r.index + 1) % 17 + p.pos) % 17 < 17 := Nat.mod_lt _ (by decide)
    have hjk : ((r.index + 1) % 17 + p.pos) % 17 ≠ (r.index + 1) % 17 := by omega
    by_cases hij : i = (r.index + 1) % 17
    · have h1 := h _ hj
      have h2 := h _ hk
      rw [Function.update_of_ne hjk, Function.update_of_ne hjk] at h2
      rw [Function.update_self, Function.update_self, h2] at h1
      unfold rlF at h1
      rw [hij]
      exact lr_inj (Nat.pos_of_ne_zero h3) (Nat.pos_of_ne_zero h4) (xor_right_cancel' (xor_right_cancel' h1))
    · have := h i hlt
      rwa [Function.update_of_ne hij, Function.update_of_ne hij] at this

/-! ## Concrete cases -/

-- both kinds of shifts occur
example : (⟨0x7c9e604d, 0xe91ac974, 2, 16, 24, 23⟩ : RTPar).sh3 ≠ 0 ∧ (rtDefault 1234).par.sh4 ≠ 0 := by decide
example : (rtSetUp (fun i => BitVec.ofNat 32 (32 * i)) (rtDefault 1)).par.sh3 = 0 := by decide
-- the constructor
example : (rtNew ⟨0x59c94057, 0xfd77d893, 15, 16, 3, 9⟩ 1234).s0 = 0x2ce82da0 := by decide
example : rlWord 0x80903834 1234 16 = 0x33d99241 := by decide

end MTT.Tests
