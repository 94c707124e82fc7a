import Verif.Samples.TinyRefLemmas
import Verif.GF2.Small

/-!
# C80, C81: the TinyMT reference code and the classes `Tiny32` and `Tiny64`

Specification: the effective state consists of 127 bits (the highest bit of `status[0]` is not used).
-/

namespace MTT.TinyRef

/-- All effective bits are zero. -/
def Zero32 (r : T32) : Prop := (r.s0 &&& 0x7fffffff) = 0 ∧ r.s1 = 0 ∧ r.s2 = 0 ∧ r.s3 = 0

/-- All effective bits are zero. -/
def Zero64 (r : T64) : Prop := (r.s0 &&& 0x7fffffffffffffff) = 0 ∧ r.s1 = 0

/-- The effective bits agree. -/
def Eq32 (r r' : T32) : Prop :=
  (r.s0 &&& 0x7fffffff) = (r'.s0 &&& 0x7fffffff) ∧ r.s1 = r'.s1 ∧ r.s2 = r'.s2 ∧ r.s3 = r'.s3

/-- The effective bits agree. -/
def Eq64 (r r' : T64) : Prop := (r.s0 &&& 0x7fffffffffffffff) = (r'.s0 &&& 0x7fffffffffffffff) ∧ r.s1 = r'.s1

theorem den64_eq (r r' : T64) : den64 r = den64 r' ↔ Eq64 r r' := by
  have h : ∀ a b : BitVec 64, a.setWidth 63 = b.setWidth 63 ↔
      (a &&& 0x7fffffffffffffff) = (b &&& 0x7fffffffffffffff) := by
    intro a b
    rw [low63, low63]
    constructor
    · intro h; rw [h]
    · intro h
      apply BitVec.eq_of_toNat_eq
      have := congrArg BitVec.toNat h
      rw [BitVec.toNat_setWidth, BitVec.toNat_setWidth _ (b.setWidth 63)] at this
      have h1 := (a.setWidth 63).isLt
      have h2 := (b.setWidth 63).isLt
      rwa [Nat.mod_eq_of_lt (by omega), Nat.mod_eq_of_lt (by omega)] at this
  unfold Eq64
  rw [← h]
  constructor
  · intro e
    exact ⟨congrArg (fun q : S64 => q.1.val) e, congrArg (fun q : S64 => q.2.val) e⟩
  · rintro ⟨h1, h2⟩
    exact Prod.ext (Wd.ext h1) (Wd.ext h2)

/-! ## C80 -/

/-- **C80.**  `tinymt32_next_state` is a bijection of the effective states, for every parameter set: it does not merge two
of them, and every one is the successor of another. -/
theorem next32_bijective (r : T32) :
    (∀ a b : Fin 4 → BitVec 32, Eq32 (next32 (r.withStatus a)) (next32 (r.withStatus b)) ↔
      Eq32 (r.withStatus a) (r.withStatus b)) ∧
    ∀ b : Fin 4 → BitVec 32, ∃ a, Eq32 (next32 (r.withStatus a)) (r.withStatus b) := by
  have hn : ∀ a, den32 (next32 (r.withStatus a)) = TinyMT.T r.obj (den32 (r.withStatus a)) := fun a => by
    rw [den32, next32_obj]
    exact TinyMT.next_den ⟨rfl, rfl, rfl, rfl⟩
  constructor
  · intro a b
    show _ ↔ _
    rw [Eq32, Eq32, ← den32_eq, ← den32_eq, hn, hn]
    exact (TinyMT.T_bijective r.obj).1.eq_iff
  · intro b
    obtain ⟨s, hs⟩ := (TinyMT.T_bijective r.obj).2 (den32 (r.withStatus b))
    refine ⟨fun | 0 => s.1.val.setWidth 32 | 1 => s.2.1.val | 2 => s.2.2.1.val | 3 => s.2.2.2.val, ?_⟩
    rw [Eq32, ← den32_eq, hn, ← hs]
    congr 1
    refine Prod.ext (Wd.ext ?_) rfl
    show (s.1.val.setWidth 32).setWidth 31 = s.1.val
    apply BitVec.eq_of_toNat_eq
    have := s.1.val.isLt
    rw [BitVec.toNat_setWidth, BitVec.toNat_setWidth, Nat.mod_eq_of_lt (a := s.1.val.toNat % _)
      (lt_of_le_of_lt (Nat.mod_le _ _) this), Nat.mod_eq_of_lt (by omega)]

/-- **C80.**  Whatever the parameters and the seed are, after `tinymt32_init` and any number of further steps the effective
state is not zero, and the parameters are unchanged. -/
theorem init32_never_zero (r : T32) (seed : BitVec 32) (n : ℕ) :
    ¬ Zero32 (next32^[n] (init32 r seed)) ∧ (next32^[n] (init32 r seed)).mat1 = r.mat1 ∧
      (next32^[n] (init32 r seed)).mat2 = r.mat2 ∧ (next32^[n] (init32 r seed)).tmat = r.tmat := by
  unfold init32
  rw [← Function.iterate_add_apply]
  obtain ⟨hp, hd⟩ := next32_iter (certify32 (initLoop32 r seed)) (n + 8)
  obtain ⟨c1, c2, c3⟩ := certify32_par (initLoop32 r seed)
  refine ⟨?_, hp.1.trans c1, hp.2.1.trans c2, hp.2.2.1.trans c3⟩
  rw [Zero32, ← den32_eq_zero, hd]
  intro h
  exact certify32_ne _ (T_pow_injective _ _ (h.trans (map_zero _).symm))

/-- **C80.**  For every parameter set different seeds lead to different effective states. -/
theorem init32_injective (r : T32) (a b : BitVec 32) (h : Eq32 (init32 r a) (init32 r b)) : a = b := by
  rw [Eq32, ← den32_eq] at h
  unfold init32 at h
  rw [(next32_iter _ 8).2, (next32_iter _ 8).2] at h
  have e : ∀ s, TinyMT.T (certify32 (initLoop32 r s)).obj = TinyMT.T r.obj := fun s => by
    unfold certify32
    split <;> rfl
  rw [e, e] at h
  have h := T_pow_injective _ _ h
  have hc : ∀ s, den32 (initLoop32 r s) = 0 → certify32 (initLoop32 r s) =
      { r with s0 := 84, s1 := 73, s2 := 78, s3 := 89 } := fun s hs => by
    rw [den32_eq_zero] at hs
    unfold certify32
    rw [if_pos hs]
    rfl
  have hn : ∀ s, den32 (initLoop32 r s) ≠ 0 → certify32 (initLoop32 r s) = initLoop32 r s := fun s hs => by
    rw [Ne, den32_eq_zero] at hs
    unfold certify32
    rw [if_neg hs]
  by_cases ha : den32 (initLoop32 r a) = 0
  · by_cases hb : den32 (initLoop32 r b) = 0
    · rw [← hb, den32_eq] at ha
      exact initLoop32_inj r ha.2.1 ha.2.2.1 ha.2.2.2
    · rw [hc a ha, hn b hb] at h
      exact (certified32 r ha h.symm).elim
  · by_cases hb : den32 (initLoop32 r b) = 0
    · rw [hn a ha, hc b hb] at h
      exact (certified32 r hb h).elim
    · rw [hn a ha, hn b hb, den32_eq] at h
      exact initLoop32_inj r h.2.1 h.2.2.1 h.2.2.2

/-- **C80.**  The same for `tinymt32_init_by_array` and every key of at most `INT_MAX - 1` words; a longer key makes
`key_length + 1` overflow. -/
theorem initByArray32_never_zero (r : T32) (key : List (BitVec 32)) :
    (key.length < 2 ^ 31 - 1 → ∃ r', initByArray32 r key = some r' ∧ r'.mat1 = r.mat1 ∧ r'.mat2 = r.mat2 ∧
      r'.tmat = r.tmat ∧ ∀ n, ¬ Zero32 (next32^[n] r')) ∧
    (2 ^ 31 - 1 ≤ key.length → initByArray32 r key = none) := by
  constructor
  · intro hk
    unfold initByArray32
    rw [if_pos (by omega)]
    refine ⟨_, rfl, ?_⟩
    generalize hst : r.withStatus _ = s
    have hs : s.mat1 = r.mat1 ∧ s.mat2 = r.mat2 ∧ s.tmat = r.tmat := by rw [← hst]; exact ⟨rfl, rfl, rfl⟩
    obtain ⟨c1, c2, c3⟩ := certify32_par s
    obtain ⟨hp, -⟩ := next32_iter (certify32 s) 8
    refine ⟨hp.1.trans (c1.trans hs.1), hp.2.1.trans (c2.trans hs.2.1), hp.2.2.1.trans (c3.trans hs.2.2), fun n => ?_⟩
    rw [← Function.iterate_add_apply, Zero32, ← den32_eq_zero, (next32_iter _ _).2]
    intro h
    exact certify32_ne _ (T_pow_injective _ _ (h.trans (map_zero _).symm))
  · intro hk
    unfold initByArray32
    rw [if_neg (by omega)]

/-- **C80.**  `tinymt64_next_state` is a bijection of the effective states, for every parameter set. -/
theorem next64_bijective (r : T64) :
    (∀ a b a' b' : BitVec 64, Eq64 (next64 { r with s0 := a, s1 := b }) (next64 { r with s0 := a', s1 := b' }) ↔
      Eq64 { r with s0 := a, s1 := b } { r with s0 := a', s1 := b' }) ∧
    ∀ a' b' : BitVec 64, ∃ a b, Eq64 (next64 { r with s0 := a, s1 := b }) { r with s0 := a', s1 := b' } := by
  have hn : ∀ a b, den64 (next64 { r with s0 := a, s1 := b }) = TL r (den64 { r with s0 := a, s1 := b }) := fun a b =>
    next64_den ⟨rfl, rfl, rfl⟩
  constructor
  · intro a b a' b'
    rw [← den64_eq, ← den64_eq, hn, hn]
    exact (TL_bijective r).1.eq_iff
  · intro a' b'
    obtain ⟨s, hs⟩ := (TL_bijective r).2 (den64 { r with s0 := a', s1 := b' })
    refine ⟨s.1.val.setWidth 64, s.2.val, ?_⟩
    rw [← den64_eq, hn, ← hs]
    congr 1
    refine Prod.ext (Wd.ext ?_) rfl
    show (s.1.val.setWidth 64).setWidth 63 = s.1.val
    apply BitVec.eq_of_toNat_eq
    have := s.1.val.isLt
    rw [BitVec.toNat_setWidth, BitVec.toNat_setWidth, Nat.mod_eq_of_lt (a := s.1.val.toNat % _)
      (lt_of_le_of_lt (Nat.mod_le _ _) this), Nat.mod_eq_of_lt (by omega)]

/-- **C80.**  Whatever the parameters and the seed are, after `tinymt64_init` and any number of steps the effective state is
not zero, and the parameters are unchanged. -/
theorem init64_never_zero (r : T64) (seed : BitVec 64) (n : ℕ) :
    ¬ Zero64 (next64^[n] (init64 r seed)) ∧ Same64 r (next64^[n] (init64 r seed)) := by
  obtain ⟨hp, hd⟩ := next64_iter (init64 r seed) n
  have hc : Same64 r (init64 r seed) := by
    obtain ⟨h1, h2, h3⟩ := certify64_par (initLoop64 r seed)
    exact ⟨h1, h2, h3⟩
  refine ⟨?_, hp.1.trans hc.1, hp.2.1.trans hc.2.1, hp.2.2.trans hc.2.2⟩
  rw [Zero64, ← den64_eq_zero, hd]
  intro h
  exact certify64_ne _ (TL_pow_injective _ _ (h.trans (map_zero _).symm))

/-- **C80.**  For every parameter set different seeds lead to different words in `status`. -/
theorem init64_injective (r : T64) (a b : BitVec 64) (h : init64 r a = init64 r b) : a = b := by
  have hz : ∀ s, den64 (initLoop64 r s) = 0 → r.mat2.setWidth 64 ^^^ r.tmat = (unloop64 0 0).2 ∧ (initLoop64 r s).s0 = 0 ∨
      r.mat2.setWidth 64 ^^^ r.tmat = (unloop64 0x8000000000000000 0).2 ∧ (initLoop64 r s).s0 = 0x8000000000000000 := by
    intro s hs
    rw [den64_eq_zero] at hs
    have h2 := initLoop64_second r s
    rw [hs.2] at h2
    rcases low63_zero hs.1 with h0 | h0 <;> rw [h0] at h2
    · exact .inl ⟨h2.symm, h0⟩
    · exact .inr ⟨h2.symm, h0⟩
  have hc : ∀ s, den64 (initLoop64 r s) = 0 → init64 r s = { r with s0 := 84, s1 := 77 } := fun s hs => by
    rw [den64_eq_zero] at hs
    unfold init64 certify64
    rw [if_pos hs]
    rfl
  have hn : ∀ s, den64 (initLoop64 r s) ≠ 0 → init64 r s = initLoop64 r s := fun s hs => by
    rw [Ne, den64_eq_zero] at hs
    unfold init64 certify64
    rw [if_neg hs]
  have hmix : ∀ s t, den64 (initLoop64 r s) = 0 → initLoop64 r t = { r with s0 := 84, s1 := 77 } → False := by
    intro s t hs ht
    have h2 : (unloop64 84 77).2 = r.mat2.setWidth 64 ^^^ r.tmat := by
      have h2 := initLoop64_second r t
      rwa [ht] at h2
    rcases hz s hs with h0 | h0
    · exact absurd (h0.1.symm.trans h2.symm) (by decide)
    · exact absurd (h0.1.symm.trans h2.symm) (by decide)
  by_cases ha : den64 (initLoop64 r a) = 0
  · by_cases hb : den64 (initLoop64 r b) = 0
    · have h1 : (initLoop64 r a).s1 = (initLoop64 r b).s1 := by
        rw [((den64_eq_zero _).1 ha).2, ((den64_eq_zero _).1 hb).2]
      rcases hz a ha with h2 | h2 <;> rcases hz b hb with h3 | h3
      · exact initLoop64_inj r (h2.2.trans h3.2.symm) h1
      · exact absurd (h2.1.symm.trans h3.1) (by decide)
      · exact absurd (h2.1.symm.trans h3.1) (by decide)
      · exact initLoop64_inj r (h2.2.trans h3.2.symm) h1
    · rw [hc a ha, hn b hb] at h
      exact (hmix a b ha h.symm).elim
  · by_cases hb : den64 (initLoop64 r b) = 0
    · rw [hn a ha, hc b hb] at h
      exact (hmix b a hb h).elim
    · rw [hn a ha, hn b hb] at h
      exact initLoop64_inj r (by rw [h]) (by rw [h])

/-- **C80.**  The same for `tinymt64_init_by_array`. -/
theorem initByArray64_never_zero (r : T64) (key : List (BitVec 64)) :
    (key.length < 2 ^ 31 - 1 → ∃ r', initByArray64 r key = some r' ∧ Same64 r r' ∧ ∀ n, ¬ Zero64 (next64^[n] r')) ∧
    (2 ^ 31 - 1 ≤ key.length → initByArray64 r key = none) := by
  constructor
  · intro hk
    unfold initByArray64
    rw [if_pos (by omega)]
    refine ⟨_, rfl, certify64_par _, fun n => ?_⟩
    rw [Zero64, ← den64_eq_zero, (next64_iter _ _).2]
    intro h
    exact certify64_ne _ (TL_pow_injective _ _ (h.trans (map_zero _).symm))
  · intro hk
    unfold initByArray64
    rw [if_neg (by omega)]

/-! ## C81 -/

theorem stream_gen32 (lin : Bool) (r : T32) (k : ℕ) :
    stream (gen32 lin) r k = temper32 lin (next32 (next32^[k] r)) := rfl

theorem stream_gen64 (lin : Bool) (r : T64) (k : ℕ) :
    stream (gen64 lin) r k = temper64 lin (next64 (next64^[k] r)) := rfl

/-- The object with the given effective state. -/
def ofDen32 (p : T32) (s : TinyMT.S) : T32 :=
  { p with s0 := s.1.val.setWidth 32, s1 := s.2.1.val, s2 := s.2.2.1.val, s3 := s.2.2.2.val }

/-- A step depends on the effective state only. -/
theorem next32_ofDen (p r : T32) (h : r.mat1 = p.mat1 ∧ r.mat2 = p.mat2 ∧ r.tmat = p.tmat) :
    next32 r = next32 (ofDen32 p (den32 r)) := by
  have e : ∀ r : T32, next32 r = { r with
      s0 := r.s1, s1 := TinyMT.f1 r.obj (den32 r), s2 := TinyMT.f2 r.obj (den32 r), s3 := TinyMT.fy (den32 r) } := by
    intro r
    have h1 := next32_obj r
    rw [TinyMT.nextState_eq] at h1
    have h2 := next32_par r
    generalize next32 r = q at h1 h2
    obtain ⟨q0, q1, q2, q3, m1, m2, m3⟩ := q
    unfold T32.obj at h1
    simp only [TinyMT.St.mk.injEq] at h1
    obtain ⟨a0, a1, a2, a3, -⟩ := h1
    obtain ⟨b1, b2, b3⟩ := h2
    dsimp only at b1 b2 b3
    rw [a0, a1, a2, a3, b1, b2, b3]
    rfl
  have hd : den32 (ofDen32 p (den32 r)) = den32 r := by
    refine Prod.ext (Wd.ext ?_) rfl
    show ((r.s0.setWidth 31).setWidth 32).setWidth 31 = r.s0.setWidth 31
    apply BitVec.eq_of_toNat_eq
    have := (r.s0.setWidth 31).isLt
    rw [BitVec.toNat_setWidth, BitVec.toNat_setWidth, Nat.mod_eq_of_lt (a := (r.s0.setWidth 31).toNat) (by omega),
      Nat.mod_eq_of_lt this]
  have hp : TinyMT.SamePar (ofDen32 p (den32 r)).obj r.obj := ⟨h.1, h.2.1, h.2.2, rfl⟩
  rw [e r, e (ofDen32 p (den32 r)), hd, (TinyMT.f_par hp).1, (TinyMT.f_par hp).2.1]
  obtain ⟨h1, h2, h3⟩ := h
  simp only [ofDen32, T32.mk.injEq, h1, h2, h3, and_true]
  rfl

/-- The object with the given effective state. -/
def ofDen64 (p : T64) (s : S64) : T64 := { p with s0 := s.1.val.setWidth 64, s1 := s.2.val }

theorem next64_ofDen (p r : T64) (h : Same64 p r) : next64 r = next64 (ofDen64 p (den64 r)) := by
  have hd : den64 (ofDen64 p (den64 r)) = den64 r := by
    refine Prod.ext (Wd.ext ?_) rfl
    show ((r.s0.setWidth 63).setWidth 64).setWidth 63 = r.s0.setWidth 63
    apply BitVec.eq_of_toNat_eq
    have := (r.s0.setWidth 63).isLt
    rw [BitVec.toNat_setWidth, BitVec.toNat_setWidth, Nat.mod_eq_of_lt (a := (r.s0.setWidth 63).toNat) (by omega),
      Nat.mod_eq_of_lt this]
  rw [next64_eq, next64_eq (ofDen64 _ _), hd]
  obtain ⟨h1, h2, h3⟩ := h
  simp only [ofDen64, g0, g1, h1, h2, h3]

/-- Parameters of `Tiny32`, as in its constructor. -/
def HasTiny32 (r : T32) : Prop := r.mat1 = 0x8f7011ee ∧ r.mat2 = 0xfc78ff1f ∧ r.tmat = 0x3793fdff

/-- Parameters of `Tiny64`, as in its constructor. -/
def HasTiny64 (r : T64) : Prop := r.mat1 = 0xfa051f40 ∧ r.mat2 = 0xffd0fff4 ∧ r.tmat = 0x58d02ffeffbfffbc

/-- Objects of `Tiny32` and `Tiny64` have these parameters and a non-zero effective state, whatever the seed. -/
theorem tiny_constructed (s32 : BitVec 32) (s64 : BitVec 64) :
    (HasTiny32 (tiny32 s32) ∧ ¬ Zero32 (tiny32 s32)) ∧ HasTiny64 (tiny64 s64) ∧ ¬ Zero64 (tiny64 s64) := by
  obtain ⟨h1, h2, h3, h4⟩ := init32_never_zero ⟨0, 0, 0, 0, 0x8f7011ee, 0xfc78ff1f, 0x3793fdff⟩ s32 0
  obtain ⟨g1, g2, g3, g4⟩ := init64_never_zero ⟨0, 0, 0xfa051f40, 0xffd0fff4, 0x58d02ffeffbfffbc⟩ s64 0
  exact ⟨⟨⟨h2, h3, h4⟩, h1⟩, ⟨g2, g3, g4⟩, g1⟩

theorem T32_eq {r : T32} (h : HasTiny32 r) : TinyMT.T r.obj =
    TinyMT.T ⟨0, 0, 0, 0, 0, 0x8f7011ee, 0xfc78ff1f, 0x3793fdff, false⟩ := by
  obtain ⟨s0, s1, s2, s3, m1, m2, t⟩ := r
  obtain ⟨h1, h2, h3⟩ := h
  dsimp only at h1 h2 h3
  subst h1 h2 h3
  rfl

theorem T64_eq {r : T64} (h : HasTiny64 r) : TL r = TL ⟨0, 0, 0xfa051f40, 0xffd0fff4, 0x58d02ffeffbfffbc⟩ := by
  obtain ⟨s0, s1, m1, m2, t⟩ := r
  obtain ⟨h1, h2, h3⟩ := h
  dsimp only at h1 h2 h3
  subst h1 h2 h3
  rfl

/-- **C81.**  With the parameters of `Tiny32`, from every state that is not zero, the numbers returned by
`tinymt32_generate_uint32` have the least period `2^127-1`, with and without `LINEARITY_CHECK`; the effective state returns
to its value exactly after the multiples of `2^127-1` steps, and every non-zero effective state is passed. -/
theorem tiny32_period (lin : Bool) (r : T32) (hr : HasTiny32 r) (h0 : ¬ Zero32 r) :
    HasPeriod (stream (gen32 lin) r) (2 ^ 127 - 1) ∧
    (∀ k, Eq32 (next32^[k] r) r ↔ 2 ^ 127 - 1 ∣ k) ∧
    ∀ st : Fin 4 → BitVec 32, ¬ Zero32 (r.withStatus st) → ∃ k, k < 2 ^ 127 - 1 ∧ Eq32 (next32^[k] r) (r.withStatus st) := by
  have hne : den32 r ≠ 0 := fun h => h0 ((den32_eq_zero r).1 h)
  have ha := GF2.ann_t32
  rw [← T32_eq hr] at ha
  refine ⟨?_, fun k => ?_, fun st hst => ?_⟩
  · have h := fun_period (by decide) TinyMT.finrank_S GF2.prim_t32 ha Mexp.prime127
      (F := fun s => temper32 lin (next32 (ofDen32 ⟨0, 0, 0, 0, 0x8f7011ee, 0xfc78ff1f, 0x3793fdff⟩ s)))
      ⟨(Wd.of 1, 0, 0, 0), (Wd.of 2, 0, 0, 0), by decide, by decide, by cases lin <;> decide +kernel⟩ hne
    have e : stream (gen32 lin) r = fun k => temper32 lin (next32 (ofDen32 ⟨0, 0, 0, 0, 0x8f7011ee, 0xfc78ff1f, 0x3793fdff⟩
        ((TinyMT.T r.obj ^ k) (den32 r)))) := by
      funext k
      obtain ⟨hp, hd⟩ := next32_iter r k
      rw [stream_gen32, ← hd]
      rw [next32_ofDen ⟨0, 0, 0, 0, 0x8f7011ee, 0xfc78ff1f, 0x3793fdff⟩ (next32^[k] r)
        ⟨hp.1.trans hr.1, hp.2.1.trans hr.2.1, hp.2.2.1.trans hr.2.2⟩]
    rw [e]
    exact h
  · rw [Eq32, ← den32_eq, (next32_iter r k).2]
    exact Search.period_of_primitive (by decide) GF2.prim_t32 (ha _) hne k
  · have hne' : den32 (r.withStatus st) ≠ 0 := fun h => hst ((den32_eq_zero _).1 h)
    obtain ⟨k, hk, e⟩ := orbit_surj (by decide) TinyMT.finrank_S GF2.prim_t32 ha hne hne'
    refine ⟨k, hk, ?_⟩
    rw [Eq32, ← den32_eq, (next32_iter r k).2, e]

/-- **C81.**  The same for the parameters of `Tiny64` and `tinymt64_generate_uint64`. -/
theorem tiny64_period (lin : Bool) (r : T64) (hr : HasTiny64 r) (h0 : ¬ Zero64 r) :
    HasPeriod (stream (gen64 lin) r) (2 ^ 127 - 1) ∧
    (∀ k, Eq64 (next64^[k] r) r ↔ 2 ^ 127 - 1 ∣ k) ∧
    ∀ a b : BitVec 64, ¬ Zero64 { r with s0 := a, s1 := b } →
      ∃ k, k < 2 ^ 127 - 1 ∧ Eq64 (next64^[k] r) { r with s0 := a, s1 := b } := by
  have hne : den64 r ≠ 0 := fun h => h0 ((den64_eq_zero r).1 h)
  have ha := GF2.ann_t64
  rw [← T64_eq hr] at ha
  refine ⟨?_, fun k => ?_, fun a b hst => ?_⟩
  · have h := fun_period (by decide) finrank_S64 GF2.prim_t64 ha Mexp.prime127
      (F := fun s => temper64 lin (next64 (ofDen64 ⟨0, 0, 0xfa051f40, 0xffd0fff4, 0x58d02ffeffbfffbc⟩ s)))
      ⟨(Wd.of 1, 0), (Wd.of 2, 0), by decide, by decide, by cases lin <;> decide +kernel⟩ hne
    have e : stream (gen64 lin) r = fun k => temper64 lin (next64 (ofDen64 ⟨0, 0, 0xfa051f40, 0xffd0fff4, 0x58d02ffeffbfffbc⟩
        ((TL r ^ k) (den64 r)))) := by
      funext k
      obtain ⟨hp, hd⟩ := next64_iter r k
      rw [stream_gen64, ← hd]
      rw [next64_ofDen ⟨0, 0, 0xfa051f40, 0xffd0fff4, 0x58d02ffeffbfffbc⟩ (next64^[k] r)
        ⟨hp.1.trans hr.1, hp.2.1.trans hr.2.1, hp.2.2.trans hr.2.2⟩]
    rw [e]
    exact h
  · rw [← den64_eq, (next64_iter r k).2]
    exact Search.period_of_primitive (by decide) GF2.prim_t64 (ha _) hne k
  · have hne' : den64 { r with s0 := a, s1 := b } ≠ 0 := fun h => hst ((den64_eq_zero _).1 h)
    obtain ⟨k, hk, e⟩ := orbit_surj (by decide) finrank_S64 GF2.prim_t64 ha hne hne'
    refine ⟨k, hk, ?_⟩
    rw [← den64_eq, (next64_iter r k).2, e]

/-! ## Concrete cases -/

-- a parameter set and a seed for which the loop ends in the zero state, so that the certification replaces it
example : Zero32 (initLoop32 ⟨0, 0, 0, 0, 0x90de5650, 0x1c25aefd, 0x882d3866⟩ 0xf434c1c7) := by
  unfold Zero32; decide

example : ¬ Zero32 (init32 ⟨0, 0, 0, 0, 0x90de5650, 0x1c25aefd, 0x882d3866⟩ 0xf434c1c7) :=
  (init32_never_zero _ _ 0).1

example : Zero64 (initLoop64 ⟨0, 0, 0, 0, 0x973f4b585254109a⟩ 0x6774e8e58a4a1a06) := by
  unfold Zero64; decide

-- the first numbers for the seed 1
example : (List.range 5).map (stream (gen32 false) (tiny32 1)) = [2545341989, 981918433, 3715302833, 2387538352, 3591001365] := by
  decide +kernel

example : ∃ r, HasTiny32 r ∧ ¬ Zero32 r := ⟨tiny32 1, (tiny_constructed 1 1).1⟩

end MTT.TinyRef
