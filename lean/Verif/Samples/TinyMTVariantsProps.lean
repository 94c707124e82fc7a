import Verif.Samples.TinyMTVariants
import Verif.Samples.TinyMTDCProps
import Verif.Samples.TinyMTSeed
import Verif.Samples.TinyRefProps
import Verif.MT.Orbit

/-!
# C128: `tinymt32` compiled with `NON_LINEAR` or `NO_TEMPER`
-/

namespace MTT.TinyMT

open Polynomial PIS Search

theorem stateAt_C (c : Macro) (s : St) (k : ℕ) : stateAt (opsC c) s k = stateAt ops s k := by
  induction k with
  | zero => rfl
  | succ k ih =>
    show nextState (stateAt (opsC c) s k) = nextState (stateAt ops s k)
    rw [ih]

theorem add_low (x y : BitVec 32) : (x + y) &&& 1 = (x ^^^ y) &&& 1 := by
  have hb : (x + y).getLsbD 0 = (x ^^^ y).getLsbD 0 := by
    rw [BitVec.getLsbD_add (by decide), BitVec.getLsbD_xor]
    simp [BitVec.carry_zero]
  apply BitVec.eq_of_getLsbD_eq
  intro i hi
  rw [BitVec.getLsbD_and, BitVec.getLsbD_and]
  rcases i with _ | i
  · rw [hb]
  · have : (1 : BitVec 32).getLsbD (i + 1) = false := by
      rw [show (1 : BitVec 32) = 1#32 from rfl]
      simp
    rw [this, Bool.and_false, Bool.and_false]

/-- **C128.**  The lowest bit of the output is the same with `NON_LINEAR` as without. -/
theorem nonLinear_low (s : St) : temperC .nonLinear s &&& 1 = temper s &&& 1 := by
  have h := add_low s.s0 (s.s2 >>> 8)
  have hx : ∀ a b c : BitVec 32, b &&& 1 = c &&& 1 → (a ^^^ b) &&& 1 = (a ^^^ c) &&& 1 := by
    intro a b c hbc
    apply BitVec.eq_of_getLsbD_eq
    intro i hi
    have := congrArg (fun z => z.getLsbD i) hbc
    simp only [BitVec.getLsbD_and, BitVec.getLsbD_xor] at this ⊢
    revert this
    cases a.getLsbD i <;> cases b.getLsbD i <;> cases c.getLsbD i <;> cases (1 : BitVec 32).getLsbD i <;> decide
  have hx' : ∀ a b c : BitVec 32, b &&& 1 = c &&& 1 → (b ^^^ a) &&& 1 = (c ^^^ a) &&& 1 := by
    intro a b c hbc
    rw [BitVec.xor_comm b, BitVec.xor_comm c]
    exact hx a b c hbc
  unfold temperC temper
  dsimp only
  rw [h]
  split
  · exact hx' _ _ _ (hx _ _ _ h)
  · exact hx _ _ _ h

theorem collect_nonLinear (n : ℕ) (s : St) : collect (opsC .nonLinear) 0 n s = collect ops 0 n s := by
  have hb : ∀ x y : BitVec 32, x &&& 1 = y &&& 1 → Util.getBitOfPos x 0 = Util.getBitOfPos y 0 := by
    intro x y h
    simp only [Util.getBitOfPos, Int.toNat_zero, BitVec.ushiftRight_zero]
    rw [show (1#32 : BitVec 32) = 1 from rfl, h]
  induction n generalizing s with
  | zero => rfl
  | succ n ih =>
    show (match Util.getBitOfPos (temperC .nonLinear (nextState s)) 0 with
      | none => none
      | some b => (collect (opsC .nonLinear) 0 n (nextState s)).map fun q : St × List (ZMod 2) => (q.1, (b : ZMod 2) :: q.2)) =
      (match Util.getBitOfPos (temper (nextState s)) 0 with
      | none => none
      | some b => (collect ops 0 n (nextState s)).map fun q : St × List (ZMod 2) => (q.1, (b : ZMod 2) :: q.2))
    rw [hb _ _ (nonLinear_low (nextState s)), ih]

theorem tryOnce_nonLinear (mps : MPS) (prim : ℕ → (ZMod 2)[X] → Option Bool) (st : Search.St St (Seq.St 32)) :
    tryOnce mps (searchOpsC .nonLinear) prim st = tryOnce mps searchOps prim st := by
  have h : ∀ s, minpoly mps (opsC .nonLinear) 0 0 s = minpoly mps ops 0 0 s := by
    intro s
    unfold Search.minpoly
    dsimp only
    rw [collect_nonLinear]
    rfl
  unfold tryOnce
  have e1 : (searchOpsC .nonLinear).gen = opsC .nonLinear := rfl
  have e2 : (searchOpsC .nonLinear).setUp = searchOps.setUp := rfl
  have e3 : (searchOpsC .nonLinear).seedOne = searchOps.seedOne := rfl
  have e4 : searchOps.gen = ops := rfl
  have e5 : (opsC .nonLinear).bitSize = ops.bitSize := rfl
  simp only [e1, e2, e3, e4, e5, h]

/-- **C128.**  A search of the recursion compiled with `NON_LINEAR` does exactly what it does without: it looks only at the
lowest bit. -/
theorem nonLinear_search (mps : MPS) (prim : ℕ → (ZMod 2)[X] → Option Bool) (n : ℕ) (st : Search.St St (Seq.St 32)) :
    start mps (searchOpsC .nonLinear) prim n st = start mps searchOps prim n st := by
  induction n generalizing st with
  | zero => rfl
  | succ n ih =>
    simp only [start, tryOnce_nonLinear, ih]

theorem next_words (a b c d i m1 m2 t x : BitVec 32) (r : Bool)
    (hx : ((a &&& 0x7fffffff) ^^^ b ^^^ c) ^^^ (((a &&& 0x7fffffff) ^^^ b ^^^ c) <<< 1) = x) (hy : d ^^^ (d >>> 1 ^^^ x) = 0) :
    nextState ⟨a, b, c, d, i, m1, m2, t, r⟩ = ⟨b, c, x, 0, i, m1, m2, t, r⟩ := by
  rw [nextState_aux ⟨a, b, c, d, i, m1, m2, t, r⟩ x 0 hx hy, if_neg (by decide)]
  have : x ^^^ (0 : BitVec 32) <<< 10 = x := by simp
  rw [this]

/-- Two states whose outputs do not add up with `NON_LINEAR`; the parameters are those of `p`. -/
def lefts (p : St) : St := { p with s0 := 0, s1 := 2, s2 := 2, s3 := 0 }
def rights (p : St) : St := { p with s0 := 0, s1 := 0, s2 := 0xfffffe00, s3 := 0x3ff }

theorem next_lefts (p : St) : nextState (lefts p) = ⟨2, 2, 0, 0, p.id, p.mat1, p.mat2, p.tmat, p.rev⟩ :=
  next_words 0 2 2 0 _ _ _ _ 0 _ (by decide) (by decide)

theorem next_rights (p : St) : nextState (rights p) = ⟨0, 0xfffffe00, 0x200, 0, p.id, p.mat1, p.mat2, p.tmat, p.rev⟩ :=
  next_words 0 0 0xfffffe00 0x3ff _ _ _ _ 0x200 _ (by decide) (by decide)

theorem next_both (p : St) : nextState (add (lefts p) (rights p)) =
    ⟨2, 0xfffffe02, 0x200, 0, p.id, p.mat1, p.mat2, p.tmat, p.rev⟩ := by
  have ha : add (lefts p) (rights p) = ⟨0, 2, 0xfffffe02, 0x3ff, p.id, p.mat1, p.mat2, p.tmat, p.rev⟩ := by
    unfold add
    rw [add_same (p := p) (a := lefts p) (b := rights p) ⟨rfl, rfl, rfl, rfl⟩ ⟨rfl, rfl, rfl, rfl⟩]
    show (⟨(0 : BitVec 32) ^^^ 0, 2 ^^^ 0, 2 ^^^ 0xfffffe00, 0 ^^^ 0x3ff, p.id, p.mat1, p.mat2, p.tmat, p.rev⟩ : St) = _
    rw [show (0 : BitVec 32) ^^^ 0 = 0 by decide, show (2 : BitVec 32) ^^^ 0 = 2 by decide,
      show (2 : BitVec 32) ^^^ 0xfffffe00 = 0xfffffe02 by decide, show (0 : BitVec 32) ^^^ 0x3ff = 0x3ff by decide]
  rw [ha]
  exact next_words 0 2 0xfffffe02 0x3ff _ _ _ _ 0x200 _ (by decide) (by decide)

/-- Tempering a word whose `t1` is even. -/
theorem temper_even (a b c i m1 m2 t : BitVec 32) (r : Bool) :
    (((a ^^^ c >>> 8) &&& 1 = 0) → temper ⟨a, b, c, 0, i, m1, m2, t, r⟩ = a ^^^ c >>> 8) ∧
    (((a + c >>> 8) &&& 1 = 0) → temperC .nonLinear ⟨a, b, c, 0, i, m1, m2, t, r⟩ = a + c >>> 8) := by
  constructor
  · intro h
    unfold temper
    dsimp only
    rw [if_neg (not_not.2 h)]
    exact BitVec.zero_xor
  · intro h
    unfold temperC
    dsimp only
    rw [if_neg (not_not.2 h)]
    exact BitVec.zero_xor

theorem outs (p : St) :
    ((generateC .nonLinear (lefts p)).2 = 2 ∧ (generateC .nonLinear (rights p)).2 = 2 ∧
      (generateC .nonLinear (add (lefts p) (rights p))).2 = 4) ∧
    ((generate (lefts p)).2 = 2 ∧ (generate (add (lefts p) (rights p))).2 = 0) ∧
    (generateC .noTemper (lefts p)).2 = 2 ∧ (generateC .noTemper (rights p)).2 = 0 := by
  unfold generateC generate
  dsimp only
  rw [next_lefts, next_rights, next_both, (temper_even 2 2 0 _ _ _ _ _).2 (by decide), (temper_even 2 2 0 _ _ _ _ _).1 (by decide),
    (temper_even 0 0xfffffe00 0x200 _ _ _ _ _).2 (by decide), (temper_even 2 0xfffffe02 0x200 _ _ _ _ _).2 (by decide),
    (temper_even 2 0xfffffe02 0x200 _ _ _ _ _).1 (by decide)]
  exact ⟨⟨by decide, by decide, by decide⟩, ⟨by decide, by decide⟩, rfl, rfl⟩

/-- **C128.**  With `NON_LINEAR` the class does not meet the contract of the equidistribution calculation, whatever the
parameters are: there is no linear map that gives the output. -/
theorem nonLinear_not_linear (p : St) :
    (∃ a b, SamePar p a ∧ SamePar p b ∧ addE a b = some (add a b) ∧
      (generateC .nonLinear (add a b)).2 ≠ (generateC .nonLinear a).2 ^^^ (generateC .nonLinear b).2) ∧
    ¬ ∃ (T' : S →ₗ[ZMod 2] S) (O' : S →ₗ[ZMod 2] V), LinGen (opsC .nonLinear) (SamePar p) den T' O' := by
  have hl : SamePar p (lefts p) := ⟨rfl, rfl, rfl, rfl⟩
  have hr : SamePar p (rights p) := ⟨rfl, rfl, rfl, rfl⟩
  obtain ⟨⟨h1, h2, h3⟩, -, -⟩ := outs p
  refine ⟨⟨lefts p, rights p, hl, hr, ?_, ?_⟩, ?_⟩
  · unfold add
    rw [add_same (p := p) hl hr]
    rfl
  · rw [h1, h2, h3]; decide
  · rintro ⟨T', O', h⟩
    have e1 := h.gen_out _ hl
    have e2 := h.gen_out _ hr
    have e3 := h.gen_out _ (h.add_inv _ _ hl hr)
    rw [h.add_den _ _ hl hr, map_add, ← e1, ← e2] at e3
    have e4 : bits (4 : BitVec 32) = bits (2 : BitVec 32) + bits (2 : BitVec 32) :=
      (congrArg bits h3).symm.trans (e3.trans (congrArg₂ (· + ·) (congrArg bits h1) (congrArg bits h2)))
    rw [← bits_xor] at e4
    have := bits_inj e4
    exact absurd this (by decide)

/-- **C128.**  With `NON_LINEAR` the output is that of `tinymt32_temper` in tinymt32.h, which is used with the parameters
found; without, that of tinymt32.h with `LINEARITY_CHECK`. -/
theorem nonLinear_reference (r : TinyRef.T32) : temperC .nonLinear r.obj = TinyRef.temper32 false r ∧
    temper r.obj = TinyRef.temper32 true r := ⟨rfl, rfl⟩

/-! ## `NO_TEMPER` -/

theorem noTemper_out (s : St) : (generateC .noTemper s).2 = s.s1 := by
  show (nextState s).s0 = _
  rw [nextState_eq]

/-- The output with `NO_TEMPER` as a linear map of the effective state: the second word of the state before the step. -/
def O0 : S →ₗ[ZMod 2] V := linOf (fun s => bits s.2.1.val) (fun _ _ => bits_xor _ _)

def OR0 : S →ₗ[ZMod 2] V := linOf (fun s => bits s.2.1.val.reverse) (fun s t => by
  show bits ((s.2.1.val ^^^ t.2.1.val).reverse) = _
  rw [reverse_xor, bits_xor])

/-- **C128.**  With `NO_TEMPER` the class meets the contract of a linear generator. -/
theorem noTemper_linGen (p : St) (hp : p.rev = false) : LinGen (opsC .noTemper) (SamePar p) den (T p) O0 where
  gen_inv s hs := next_par hs
  gen_den s hs := next_den hs
  gen_out s hs := by
    show bits (generateC .noTemper s).2 = _
    rw [noTemper_out]; rfl
  genV_inv v s _ _ hs := next_par hs
  genV_den v s _ _ hs := next_den hs
  genV_out v s _ hv hs := by
    have hr : s.rev = false := hs.2.2.2.trans hp
    show bits (generateVC .noTemper v s).2 = _
    simp only [generateVC, noTemper_out, hr, allOnes32]
    rw [if_neg (by decide), bits_and_mask _ hv]
    rfl
  add_inv a b ha hb := (add_spec ha hb).1
  add_den a b ha hb := (add_spec ha hb).2
  zero_inv s hs := hs
  zero_den s _ := rfl

theorem noTemper_view (p : St) :
    LinGen (view (opsC .noTemper)) (SamePar p) den (T p) (if p.rev then OR0 else O0) where
  gen_inv s hs := next_par hs
  gen_den s hs := next_den hs
  gen_out s hs := by
    have hm : (BitVec.allOnes 32) <<< (32 - 32) = BitVec.allOnes 32 := by decide
    show bits (generateVC .noTemper 32 s).2 = _
    simp only [generateVC, noTemper_out, allOnes32, hm, BitVec.and_allOnes, hs.2.2.2]
    rw [(Util.reverse_bit_correct.1 _).1]
    split <;> rfl
  genV_inv v s _ _ hs := next_par hs
  genV_den v s _ _ hs := next_den hs
  genV_out v s _ hv hs := by
    show bits (generateVC .noTemper v s).2 = _
    simp only [generateVC, noTemper_out, allOnes32, hs.2.2.2]
    rw [bits_and_mask _ hv, (Util.reverse_bit_correct.1 _).1]
    congr 1
    split <;> rfl
  add_inv a b ha hb := (add_spec ha hb).1
  add_den a b ha hb := (add_spec ha hb).2
  zero_inv s hs := hs
  zero_den s _ := rfl

/-- **C128.**  With `NO_TEMPER` the calculation of the equidistribution gives the dimensions of the first word of the state,
in both orders, whatever the tempering matrix is. -/
theorem noTemper_equidist (s : St) (veq0 : ℕ → ℕ) :
    ∃ r, getAllEquidist (opsC .noTemper) Util.calc1posWrap32 s 32 127 (32 * (33 * 127) + 33) veq0 = .ok r ∧
      (∀ v, 1 ≤ v → v ≤ 32 →
        IsGreatest {k | Equidist (T s) (if s.rev then OR0 else O0) (cyc (T s) (den s)) v k} (r.veq (v - 1))) ∧
      r.sum = ∑ v ∈ Finset.Icc 1 32, ((127 / v : ℕ) - (r.veq (v - 1) : ℤ)) := by
  obtain ⟨hm, h0, hd⟩ := charpoly_hyps (T s) (den s)
  rw [finrank_S] at hd
  obtain ⟨r, e1, e2, _, e4⟩ := getAllEquidist_correct (noTemper_view s) (g := s) ⟨rfl, rfl, rfl, rfl⟩ hm h0
    (by rw [hd]; decide) (stateBitSize := 127) (by omega) Util.isCalc1pos_32 (bitLen := 32) (by omega)
    (by omega) (fuel := 32 * (33 * 127) + 33) (by rw [hd]) veq0
  exact ⟨r, e1, e2, e4⟩

/-- **C128.**  With `NO_TEMPER` no tempering pattern has any effect on the output, so that a tempering search measures the same
for all of them. -/
theorem noTemper_pattern (m q : BitVec 32) (j : ℕ) (s : St) (veq0 : ℕ → ℕ) :
    (∀ k, outAt (opsC .noTemper) (setTemperingPattern m q j s) k = outAt (opsC .noTemper) s k) ∧
    ∃ r r', getAllEquidist (opsC .noTemper) Util.calc1posWrap32 (setTemperingPattern m q j s) 32 127
        (32 * (33 * 127) + 33) veq0 = .ok r ∧
      getAllEquidist (opsC .noTemper) Util.calc1posWrap32 s 32 127 (32 * (33 * 127) + 33) veq0 = .ok r' ∧ r.sum = r'.sum := by
  have hT : T (setTemperingPattern m q j s) = T s := T_congr rfl rfl
  constructor
  · intro k
    show (generateC .noTemper _).2 = (generateC .noTemper _).2
    rw [noTemper_out, noTemper_out, stateAt_C, stateAt_C]
    have h1 := (stateAt_den (setTemperingPattern m q j s) k).2
    rw [hT] at h1
    have h2 := (stateAt_den s k).2
    have h3 : den (stateAt ops (setTemperingPattern m q j s) k) = den (stateAt ops s k) := h1.trans h2.symm
    exact congrArg (fun y : S => y.2.1.val) h3
  · obtain ⟨r, e1, e2, e3⟩ := noTemper_equidist (setTemperingPattern m q j s) veq0
    obtain ⟨r', g1, g2, g3⟩ := noTemper_equidist s veq0
    refine ⟨r, r', e1, g1, ?_⟩
    rw [e3, g3]
    refine Finset.sum_congr rfl fun v hv => ?_
    rw [Finset.mem_Icc] at hv
    have a1 := e2 v hv.1 hv.2
    rw [hT] at a1
    rw [IsGreatest.unique (a1 : IsGreatest {k | Equidist (T s) (if s.rev then OR0 else O0) (cyc (T s) (den s)) v k} _)
      (g2 v hv.1 hv.2)]

/-- **C33 for `NO_TEMPER`.** -/
theorem noTemper_family : Family (searchOpsC .noTemper) (fun s => s.rev = false) par den (fun p => T (parSt p))
    (fun _ => O0) where
  lin p := by
    have : (fun s : St => s.rev = false ∧ par s = p) = SamePar (parSt p) := by
      funext s; rw [samePar_iff]
    rw [this]
    exact noTemper_linGen (parSt p) rfl
  dim := finrank_S
  pos := family.pos
  wpos := by omega
  setUp_inv := family.setUp_inv
  seed_inv := fun _ h => h
  seed_par := fun _ _ => rfl

theorem noTemper_max (p : Par) : MaxPeriod (searchOpsC .noTemper) (fun s => s.rev = false) par den p 127 ↔ Maximal p.1 p.2.1 := by
  rw [maximal_iff]
  unfold MaxPeriod
  show (∀ s, _ → _ → _ → ∀ k, den (stateAt (opsC .noTemper) s k) = den s ↔ _) ↔ _
  simp only [stateAt_C]
  rfl

theorem noTemper_bit {s : St} (h : Maximal s.mat1 s.mat2) (hs : isZero s = false) :
    ∃ i, (outAt (opsC .noTemper) s i).getLsbD 0 = true := by
  have hden : den s ≠ 0 := by rw [Ne, ← isZero_iff, hs]; simp
  obtain ⟨k, -, h2⟩ := orbit_all (T := T s) (n := 127) (by omega) finrank_S hden (fun k => by
    rw [← h s rfl rfl hs k, (stateAt_den s k).2]) (y := (0, Wd.of 1, 0, 0)) (by
    intro h0
    have : (1 : BitVec 32) = 0 := congrArg (fun y : S => y.2.1.val) h0
    exact absurd this (by decide))
  refine ⟨k, ?_⟩
  show (generateC .noTemper _).2.getLsbD 0 = true
  rw [noTemper_out, stateAt_C]
  have e : (stateAt ops s k).s1 = 1 := congrArg (fun y : S => y.2.1.val) ((stateAt_den s k).2.trans h2)
  rw [e]; decide

/-- The polynomial of the recursion is primitive if the recursion is maximal. -/
theorem maximal_primitive {s : St} (h : Maximal s.mat1 s.mat2) : Primitive2 (T s).charpoly 127 := by
  set t : St := ⟨0, 0, 0, 1, 0, s.mat1, s.mat2, s.tmat, false⟩ with ht
  have hz : isZero t = false := by
    rw [← Bool.not_eq_true, isZero_iff]
    intro h0
    exact absurd (congrArg (fun y : S => y.2.2.2.val) h0) (by decide : ¬ (1 : BitVec 32) = 0)
  obtain ⟨i, hi⟩ := noTemper_bit (s := t) h hz
  have hne : bitAt (opsC .noTemper) t 0 ≠ 0 := fun h0 => by
    have := congrFun h0 i
    unfold bitAt at this
    rw [hi] at this
    exact one_ne_zero this
  obtain ⟨h1, h2, h3⟩ := charpoly_hyps (T t) (den t)
  obtain ⟨mps, hm⟩ := minPolySeqSpec_sat
  obtain ⟨p, -, hp⟩ := minpoly_dim hm
    (noTemper_linGen t rfl) (s := t) ⟨rfl, rfl, rfl, rfl⟩ (pos := 0) (by omega) finrank_S.le
  have hpp := primitive_of_maxPeriod noTemper_family (s := t) rfl hp hne ((noTemper_max _).2 h)
  have := (maxPeriod_of_primitive noTemper_family (s := t) rfl hp hpp).1
  rw [this] at hpp
  have e : T (parSt (par t)) = T s := T_congr rfl rfl
  rwa [e] at hpp

/-! ## The search and the period -/

/-- Two outcomes of a search that differ at most in the polynomial of a set that has been rejected. -/
def Agree : Res (Search.St St (Seq.St 32)) → Res (Search.St St (Seq.St 32)) → Prop
  | .ret b s, .ret b' s' => b = b' ∧ s.rand = s'.rand ∧ s.src = s'.src ∧ s.count = s'.count ∧ (b = true → s = s')
  | .threw s, .threw s' => s.rand = s'.rand ∧ s.src = s'.src ∧ s.count = s'.count
  | _, _ => False

variable {mps : MPS} {prim : ℕ → (ZMod 2)[X] → Option Bool}

theorem setUp_par {s r : St} {src src' : Seq.St 32} (h : searchOps.setUp s src = some (r, src')) : r.tmat = 0 := by
  have h'' : (match Seq.getUint32 src with
    | (src', some r) => some (setUpParam r s, src') | (_, none) => none) = some (r, src') := h
  split at h''
  · injection h'' with e
    injection e with e1 e2
    rw [← e1]; rfl
  · cases h''

theorem tryOnce_agree (hm : MinPolySeqSpec mps) (hprim : PrimOK prim 127) (s s' : Search.St St (Seq.St 32))
    (h1 : s.rand = s'.rand) (h2 : s.src = s'.src) (h3 : s.count = s'.count) (hr : s.rand.rev = false) :
    Agree (tryOnce mps (searchOpsC .noTemper) prim s) (tryOnce mps searchOps prim s') ∧
    ∀ b t, tryOnce mps searchOps prim s' = .ret b t → t.rand.rev = false := by
  rcases tryOnce_correct hm noTemper_family hprim s hr with ⟨a1, a2⟩ | ⟨r, src, t, b, a1, a2, a3, a4, a5, a6, a7, a8, a9⟩ <;>
  rcases tryOnce_correct hm family hprim s' (h1 ▸ hr) with ⟨b1, b2⟩ |
    ⟨r', src', t', b', b1, b2, b3, b4, b5, b6, b7, b8, b9⟩
  · rw [a2, b2]
    exact ⟨⟨h1, h2, h3⟩, fun _ _ h => by cases h⟩
  · exfalso
    have : searchOps.setUp s.rand s.src = none := a1
    rw [h1, h2, b1] at this
    cases this
  · exfalso
    have : searchOps.setUp s.rand s.src = some (r, src) := a1
    rw [h1, h2, b1] at this
    cases this
  · have e : searchOps.setUp s.rand s.src = some (r, src) := a1
    have htm := setUp_par e
    rw [h1, h2, b1] at e
    injection e with e
    injection e with e1 e2
    subst e1 e2
    have hrand : t.rand = t'.rand := by
      rw [a5, b5]
      exact stateAt_C _ _ _
    have hbb : b = true ↔ b' = true := by
      rw [a8, b8]
      have m1 := noTemper_max (par r')
      have m2 := maximal_iff (par r')
      have hz : isZero (seed 1 r') = false := by rw [← Bool.not_eq_true, seed_isZero]; decide
      constructor
      · intro h
        have hM := m1.1 h.1
        exact ⟨m2.1 hM, bit_of_maximal (s := seed 1 r') hM htm hz⟩
      · intro h
        have hM := m2.2 h.1
        exact ⟨m1.2 hM, noTemper_bit (s := seed 1 r') hM hz⟩
    have hb : b = b' := by cases b <;> cases b' <;> simp_all
    rw [a2, b2]
    refine ⟨⟨hb, hrand, a4.trans b4.symm, by rw [a3, b3, h3], fun hbt => ?_⟩, fun b0 t0 h0 => ?_⟩
    · obtain ⟨q1, -⟩ := a9 hbt
      obtain ⟨q2, -⟩ := b9 (hb ▸ hbt)
      obtain ⟨x1, x2, x3, x4⟩ := t
      obtain ⟨y1, y2, y3, y4⟩ := t'
      dsimp only at *
      rw [hrand, a4, b4, a3, b3, h3, q1, q2]
    · cases h0
      exact b6

/-- **C128.**  A search of the recursion compiled with `NO_TEMPER` draws and accepts the same parameter sets as without, counts the
same, leaves the same object, and for a set that is accepted the same polynomial; an exception comes at the same point. -/
theorem noTemper_search (hm : MinPolySeqSpec mps) (hprim : PrimOK prim 127) (n : ℕ) (st : Search.St St (Seq.St 32))
    (hr : st.rand.rev = false) :
    Agree (start mps (searchOpsC .noTemper) prim n st) (start mps searchOps prim n st) := by
  have key : ∀ n (s s' : Search.St St (Seq.St 32)), s.rand = s'.rand → s.src = s'.src → s.count = s'.count →
      s.rand.rev = false → Agree (start mps (searchOpsC .noTemper) prim n s) (start mps searchOps prim n s') := by
    intro n
    induction n with
    | zero => exact fun s s' h1 h2 h3 _ => ⟨rfl, h1, h2, h3, fun h => by cases h⟩
    | succ n ih =>
      intro s s' h1 h2 h3 hr
      obtain ⟨ha, hrev⟩ := tryOnce_agree hm hprim s s' h1 h2 h3 hr
      unfold start
      revert ha
      cases e1 : tryOnce mps (searchOpsC .noTemper) prim s with
      | undef => exact fun h => h.elim
      | threw t =>
        cases e2 : tryOnce mps searchOps prim s' with
        | undef => exact fun h => h.elim
        | ret b t' => exact fun h => h.elim
        | threw t' => exact fun h => h
      | ret b t =>
        cases e2 : tryOnce mps searchOps prim s' with
        | undef => exact fun h => h.elim
        | threw t' => exact fun h => h.elim
        | ret b' t' =>
          intro h
          obtain ⟨q1, q2, q3, q4, q5⟩ := h
          subst q1
          cases b
          · exact ih t t' q2 q3 q4 (q2 ▸ hrev _ _ e2)
          · exact ⟨rfl, q2, q3, q4, q5⟩
  exact key n st st rfl rfl rfl hr

/-- **C128.**  If the recursion is maximal, the outputs have the least period `2^127 - 1` from every state that is not zero, with
each of the macros and with any tempering matrix. -/
theorem variants_period (c : Macro) {s : St} (h : Maximal s.mat1 s.mat2) (hs : isZero s = false) :
    HasPeriod (outAt (opsC c) s) (2 ^ 127 - 1) := by
  have hden : den s ≠ 0 := by rw [Ne, ← isZero_iff, hs]; simp
  have hF : ∀ t, SamePar s t → (generateC c t).2 = (generateC c (mk (den t) (par s))).2 := by
    intro t ht
    have e : nextState (mk (den t) (par s)) = { nextState t with id := 0, rev := false } := by
      rw [nextState_eq, nextState_eq, den_mk]
      obtain ⟨g1, g2, g3, g4⟩ := ht
      have k1 : f1 (mk (den t) (par s)) = f1 t := by funext x; unfold f1; rw [g1]; rfl
      have k2 : f2 (mk (den t) (par s)) = f2 t := by funext x; unfold f2; rw [g2]; rfl
      rw [k1, k2]
      simp only [mk, par, den, g1, g2, g3]
      rfl
    unfold generateC
    dsimp only
    rw [e]
    cases c <;> rfl
  have hp := fun_period (S := S) (T := T s) (p := (T s).charpoly) (by omega) finrank_S (maximal_primitive h)
    (fun x => (charpoly_hyps (T s) x).2.1) prime127 (F := fun x => (generateC c (mk x (par s))).2) ?_ hden
  · have e : outAt (opsC c) s = fun k => (generateC c (mk ((T s ^ k) (den s)) (par s))).2 := by
      funext k
      show (generateC c (stateAt (opsC c) s k)).2 = _
      rw [stateAt_C]
      obtain ⟨g1, g2⟩ := stateAt_den s k
      rw [hF _ g1, g2]
    rw [e]
    exact hp
  · have hl : SamePar s (lefts s) := ⟨rfl, rfl, rfl, rfl⟩
    have hr : SamePar s (rights s) := ⟨rfl, rfl, rfl, rfl⟩
    obtain ⟨hb, hd⟩ := add_spec hl hr
    obtain ⟨⟨o1, o2, o3⟩, ⟨o4, o5⟩, o6, o7⟩ := outs s
    have nl : den (lefts s) ≠ 0 := fun h0 => absurd (congrArg (fun y : S => y.2.1.val) h0) (by decide : ¬ (2 : BitVec 32) = 0)
    have nr : den (rights s) ≠ 0 := fun h0 => absurd (congrArg (fun y : S => y.2.2.2.val) h0) (by decide : ¬ (0x3ff : BitVec 32) = 0)
    have nb : den (add (lefts s) (rights s)) ≠ 0 := by
      rw [hd]
      exact fun h0 => absurd (congrArg (fun y : S => y.2.2.2.val) h0) (by decide : ¬ (0 : BitVec 32) ^^^ 0x3ff = 0)
    cases c
    · refine ⟨_, _, nl, nb, ?_⟩
      rw [← hF _ hl, ← hF _ hb]
      show (generate _).2 ≠ (generate _).2
      rw [o4, o5]; decide
    · refine ⟨_, _, nl, nb, ?_⟩
      rw [← hF _ hl, ← hF _ hb, o1, o3]; decide
    · refine ⟨_, _, nl, nr, ?_⟩
      rw [← hF _ hl, ← hF _ hr, o6, o7]; decide

/-- The parameters of `Tiny32` in the tests are maximal, so that the theorems apply to them. -/
example : Maximal 0x8f7011ee 0xfc78ff1f := by
  intro s h1 h2 hz k
  have hden : den s ≠ 0 := by rw [Ne, ← isZero_iff, hz]; simp
  have ha := GF2.ann_t32
  rw [T_congr (t := s) h1.symm h2.symm] at ha
  rw [(stateAt_den s k).2]
  exact Search.period_of_primitive (by decide) GF2.prim_t32 (ha _) hden k

/-- The hypotheses of `noTemper_search` are met by the test of the library, any number of turns and the objects of the program. -/
example (n : ℕ) (src : Seq.St 32) : ∃ mps : MPS,
    Agree (start mps (searchOpsC .noTemper) (Period.primitivityOp none) n ⟨ctor 1, src, 0, 0⟩)
      (start mps searchOps (Period.primitivityOp none) n ⟨ctor 1, src, 0, 0⟩) := by
  obtain ⟨mps, hm⟩ := minPolySeqSpec_sat
  exact ⟨mps, noTemper_search hm (primOK_mersenne prime127) n _ rfl⟩

/-- The three outputs of one state differ. -/
example : (generateC .none ⟨0, 3, 0xfffffe01, 0, 0, 0, 0, 0, false⟩).2 ≠ (generateC .nonLinear ⟨0, 3, 0xfffffe01, 0, 0, 0, 0, 0, false⟩).2 ∧
    (generateC .none ⟨0, 3, 0xfffffe01, 0, 0, 0, 0, 0, false⟩).2 ≠ (generateC .noTemper ⟨0, 3, 0xfffffe01, 0, 0, 0, 0, 0, false⟩).2 := by
  decide

end MTT.TinyMT
