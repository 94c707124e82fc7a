import Verif.Samples.RMT
import Verif.Spec.RingGen
import Verif.Spec.MTRec
import Verif.MT.Props
import Verif.Samples.TinyMTProps

/-!
# C40, C41, C53, C54: `RMT64Search`

`n` is the number of words.
-/

namespace MTT.RMT

open PIS

variable {n : ℕ}

/-- State space: the words, oldest first. -/
abbrev S (n : ℕ) : Type := Fin n → Wd 64

/-- The state of an object. -/
def den (n : ℕ) (s : St) : S n := Ring.vec n s.state s.index

/-- Objects built by the constructors (and, for `pos`, by `setUpParam`) with `n` words. -/
structure Inv (n : ℕ) (s : St) : Prop where
  size : s.size = n
  index : s.index < n
  pos : s.pos < n

/-- Parameters: `pos`, `mata`, `maskb`, `maskc`, output order. -/
structure Par where
  pos : ℕ
  mata : BitVec 64
  maskb : BitVec 64
  maskc : BitVec 64
  rev : Bool

def par (s : St) : Par := ⟨s.pos, s.mata, s.maskb, s.maskc, s.rev⟩

/-- The recurrence (specification): the new word from the oldest word `x` and the word `y` number `pos`. -/
def new (p : Par) (x y : BitVec 64) : BitVec 64 :=
  (y ^^^ (y <<< 17)) ^^^ ((x >>> 1) ^^^ (if x.getLsbD 0 then p.mata else 0))

theorem new_xor (p : Par) (x y x' y' : BitVec 64) :
    new p (x ^^^ x') (y ^^^ y') = new p x y ^^^ new p x' y' := by
  have h : (if (x ^^^ x').getLsbD 0 then p.mata else 0) =
      (if x.getLsbD 0 then p.mata else 0) ^^^ (if x'.getLsbD 0 then p.mata else 0) := by
    rw [BitVec.getLsbD_xor]
    cases x.getLsbD 0 <;> cases x'.getLsbD 0 <;> simp
  unfold new
  rw [h, shl_xor, shr_xor]
  generalize (if x.getLsbD 0 then p.mata else 0) = a
  generalize (if x'.getLsbD 0 then p.mata else 0) = b
  generalize x >>> 1 = c
  generalize x' >>> 1 = d
  generalize y <<< 17 = e
  generalize y' <<< 17 = f
  ac_rfl

/-- Word number `k` of a state (0 outside). -/
def at' (s : S n) (k : ℕ) : BitVec 64 := if h : k < n then (s ⟨k, h⟩).val else 0

theorem at_add (s t : S n) (k : ℕ) : at' (s + t) k = at' s k ^^^ at' t k := by
  unfold at'
  split
  · rfl
  · simp

/-- The new word as a function of the state. -/
def newOf (p : Par) (s : S n) : BitVec 64 := new p (at' s 0) (at' s p.pos)

/-- Transition. -/
def T (n : ℕ) (p : Par) : S n →ₗ[ZMod 2] S n :=
  linOf (fun s => shiftIn n s (Wd.of (newOf p s))) (fun s t => by
    rw [← shiftIn_add, ← Wd.of_xor, newOf, at_add, at_add, new_xor]; rfl)

/-- Tempering. -/
def temper (p : Par) (x : BitVec 64) : BitVec 64 :=
  let x := x ^^^ ((x >>> 29) &&& 0x5555555555555555)
  let x := x ^^^ ((x <<< 17) &&& p.maskb)
  let x := x ^^^ ((x <<< 37) &&& p.maskc)
  x ^^^ (x >>> 43)

theorem shr_and_step_xor (k : ℕ) (m x y : BitVec 64) : (x ^^^ y) ^^^ (((x ^^^ y) >>> k) &&& m) =
    (x ^^^ ((x >>> k) &&& m)) ^^^ (y ^^^ ((y >>> k) &&& m)) := by
  rw [shr_xor, and_xor]; ac_rfl

theorem temper_xor (p : Par) (x y : BitVec 64) : temper p (x ^^^ y) = temper p x ^^^ temper p y := by
  unfold temper
  dsimp only
  rw [shr_and_step_xor 29, MT.shl_and_step_xor 17, MT.shl_and_step_xor 37, MT.shr_step_xor 43]

/-- The tempering is invertible for all masks. -/
theorem temper_injective (p : Par) : Function.Injective (temper p) := by
  intro x y h
  unfold temper at h
  dsimp only at h
  exact shr_step_inj (k := 29) (by norm_num) _ (shl_step_inj (k := 17) (by norm_num) _
    (shl_step_inj (k := 37) (by norm_num) _ (shr_inj (k := 43) (by norm_num) h)))

/-- The output word. -/
def out (p : Par) (s : S n) : BitVec 64 := temper p (newOf p s)

theorem out_add (p : Par) (s t : S n) : out p (s + t) = out p s ^^^ out p t := by
  unfold out newOf; rw [at_add, at_add, new_xor, temper_xor]

/-- Output, most significant bit first. -/
def O (n : ℕ) (p : Par) : S n →ₗ[ZMod 2] V :=
  linOf (fun s => bits (out p s)) (fun s t => by rw [out_add, bits_xor])

/-- Output, least significant bit first. -/
def OR (n : ℕ) (p : Par) : S n →ₗ[ZMod 2] V :=
  linOf (fun s => bits (out p s).reverse) (fun s t => by rw [out_add, reverse_xor, bits_xor])

/-! ### `generate` -/

theorem generate_eq {s : St} (hs : Inv n s) : generate s =
    ({ s with index := (s.index + 1) % n,
              state := Function.update s.state ((s.index + 1) % n) (newOf (par s) (den n s)) },
      out (par s) (den n s)) := by
  have hn : 0 < n := by have := hs.pos; omega
  have e0 : s.state ((s.index + 1) % n) = at' (den n s) 0 := by
    unfold at'; rw [dif_pos hn]; exact Ring.read0 _ _ hn
  have e1 : s.state (((s.index + 1) % n + s.pos) % n) = at' (den n s) s.pos := by
    unfold at'; rw [dif_pos hs.pos]; exact Ring.read s.state s.index ⟨s.pos, hs.pos⟩
  have hnew : (at' (den n s) s.pos ^^^ (at' (den n s) s.pos <<< 17)) ^^^ (at' (den n s) 0 >>> 1) ^^^
      (if (at' (den n s) 0 &&& 1) = 1 then s.mata else 0) = newOf (par s) (den n s) := by
    unfold newOf new
    rw [BitVec.xor_assoc _ (at' (den n s) 0 >>> 1)]
    congr 2
    by_cases h : (at' (den n s) 0).getLsbD 0 = true
    · rw [if_pos ((MT.and_one_eq _ (by omega)).2 h), if_pos h]; rfl
    · rw [if_neg (fun h' => h ((MT.and_one_eq _ (by omega)).1 h')), if_neg h]
  unfold generate
  dsimp only
  rw [hs.size, e1, e0, hnew]
  rfl

theorem generate_spec {s : St} (hs : Inv n s) : (Inv n (generate s).1 ∧ par (generate s).1 = par s) ∧
    den n (generate s).1 = T n (par s) (den n s) ∧ (generate s).2 = out (par s) (den n s) := by
  rw [generate_eq hs]
  refine ⟨⟨⟨hs.size, Nat.mod_lt _ (by have := hs.pos; omega), hs.pos⟩, rfl⟩, ?_, rfl⟩
  exact Ring.vec_store _ _ _

theorem add_inv {a b : St} (ha : Inv n a) : Inv n (add a b) ∧ par (add a b) = par a :=
  ⟨⟨ha.size, ha.index, ha.pos⟩, rfl⟩

theorem add_den {a b : St} (ha : Inv n a) : den n (add a b) = den n a + den n b := by
  unfold den add
  rw [ha.size]
  exact Ring.vec_add a.state b.state a.index b.index

theorem zero_inv {s : St} (hs : Inv n s) : Inv n (setZero s) ∧ par (setZero s) = par s :=
  ⟨⟨hs.size, by show s.size - 1 < n; rw [hs.size]; have := hs.pos; omega, hs.pos⟩, rfl⟩

theorem zero_den {s : St} (hs : Inv n s) : den n (setZero s) = 0 := by
  unfold den setZero
  rw [hs.size]
  exact Ring.vec_clear _ _

/-- **C40.**  `isZero` is exactly the test for the zero vector. -/
theorem isZero_iff {s : St} (hs : Inv n s) : isZero s = true ↔ den n s = 0 := by
  unfold den isZero
  rw [Ring.vec_eq_zero, List.all_eq_true, hs.size]
  constructor
  · intro h k hk
    exact eq_of_beq (h k (List.mem_range.2 hk))
  · intro h k hk
    exact beq_iff_eq.2 (h k (List.mem_range.1 hk))

theorem allOnes64 : (~~~ (0 : BitVec 64)) = BitVec.allOnes 64 := by decide

/-- **C40, C54.**  With normal output order the class satisfies the contract of a linear generator, for any
positions of the indices in the buffers. -/
theorem linGen (p : Par) (hp : p.rev = false) :
    LinGen (ops n) (fun s => Inv n s ∧ par s = p) (den n) (T n p) (O n p) where
  gen_inv s hs := ⟨(generate_spec hs.1).1.1, (generate_spec hs.1).1.2.trans hs.2⟩
  gen_den s hs := by rw [← hs.2]; exact (generate_spec hs.1).2.1
  gen_out s hs := by
    show bits (generate s).2 = _
    rw [(generate_spec hs.1).2.2, hs.2]; rfl
  genV_inv v s _ _ hs := ⟨(generate_spec hs.1).1.1, (generate_spec hs.1).1.2.trans hs.2⟩
  genV_den v s _ _ hs := by rw [← hs.2]; exact (generate_spec hs.1).2.1
  genV_out v s _ hv hs := by
    have hr : s.rev = false := (congrArg Par.rev hs.2).trans hp
    simp only [ops, generateV, hr, allOnes64]
    rw [if_neg (by decide), bits_and_mask _ hv, (generate_spec hs.1).2.2, hs.2]
    rfl
  add_inv a b ha _ := ⟨(add_inv ha.1).1, (add_inv ha.1).2.trans ha.2⟩
  add_den a b ha _ := add_den ha.1
  zero_inv s hs := ⟨(zero_inv hs.1).1, (zero_inv hs.1).2.trans hs.2⟩
  zero_den s hs := zero_den hs.1

/-- **C40, C54.**  In either output order the class, as seen through `generate(v)`, satisfies the contract. -/
theorem linGen_view (p : Par) :
    LinGen (view (ops n)) (fun s => Inv n s ∧ par s = p) (den n) (T n p)
      (if p.rev then OR n p else O n p) where
  gen_inv s hs := ⟨(generate_spec hs.1).1.1, (generate_spec hs.1).1.2.trans hs.2⟩
  gen_den s hs := by rw [← hs.2]; exact (generate_spec hs.1).2.1
  gen_out s hs := by
    have hm : (BitVec.allOnes 64) <<< (64 - 64) = BitVec.allOnes 64 := by decide
    have hr : s.rev = p.rev := congrArg Par.rev hs.2
    simp only [view, ops, generateV, allOnes64, hm, BitVec.and_allOnes, hr]
    rw [(generate_spec hs.1).2.2, (Util.reverse_bit_correct.2 _).1, hs.2]
    split <;> rfl
  genV_inv v s _ _ hs := ⟨(generate_spec hs.1).1.1, (generate_spec hs.1).1.2.trans hs.2⟩
  genV_den v s _ _ hs := by rw [← hs.2]; exact (generate_spec hs.1).2.1
  genV_out v s _ hv hs := by
    have hr : s.rev = p.rev := congrArg Par.rev hs.2
    simp only [view, ops, generateV, allOnes64, hr]
    rw [bits_and_mask _ hv, (generate_spec hs.1).2.2, (Util.reverse_bit_correct.2 _).1, hs.2]
    congr 1
    split <;> rfl
  add_inv a b ha _ := ⟨(add_inv ha.1).1, (add_inv ha.1).2.trans ha.2⟩
  add_den a b ha _ := add_den ha.1
  zero_inv s hs := ⟨(zero_inv hs.1).1, (zero_inv hs.1).2.trans hs.2⟩
  zero_den s hs := zero_den hs.1

/-- **C40.**  The dimension of the state space is what `bitSize` returns. -/
theorem finrank_S (n : ℕ) : Module.finrank (ZMod 2) (S n) = (ops n).bitSize := Ring.finrank n 64

/-- The transition is invertible if `pos` is not 0 and the highest bit of `mata` is set. -/
theorem T_bijective (p : Par) (hpos : 1 ≤ p.pos) (hn : p.pos < n) (ha : p.mata.getLsbD 63 = true) :
    Function.Bijective (T n p) := by
  rw [← Finite.injective_iff_bijective, ← LinearMap.ker_eq_bot, LinearMap.ker_eq_bot']
  intro s hs
  have hs : shiftIn n s (Wd.of (newOf p s)) = 0 := hs
  have h1 : ∀ k, 1 ≤ k → (hk : k < n) → s ⟨k, hk⟩ = 0 := by
    intro k h1 hk
    have := congrFun hs ⟨k - 1, by omega⟩
    unfold shiftIn at this
    rw [dif_pos (show k - 1 + 1 < n by omega)] at this
    have e : (⟨k - 1 + 1, by omega⟩ : Fin n) = ⟨k, hk⟩ := Fin.ext (by show k - 1 + 1 = k; omega)
    rw [e] at this
    exact this
  have h2 : newOf p s = 0 := by
    have := congrFun hs ⟨n - 1, by omega⟩
    unfold shiftIn at this
    rw [dif_neg (show ¬ (n - 1 + 1 < n) by omega)] at this
    exact this
  have hp0 : at' s p.pos = 0 := by
    unfold at'; rw [dif_pos hn, h1 _ hpos hn]; rfl
  have h3 : at' s 0 = 0 := by
    unfold newOf new at h2
    rw [hp0] at h2
    have h4 : (at' s 0 >>> 1) ^^^ (if (at' s 0).getLsbD 0 then p.mata else 0) = 0 := by
      simpa using h2
    have hb : (at' s 0).getLsbD 0 = false := by
      by_contra hc
      have hc : (at' s 0).getLsbD 0 = true := by simpa using hc
      rw [if_pos hc] at h4
      have := congrArg (fun z : BitVec 64 => z.getLsbD 63) h4
      simp only [BitVec.getLsbD_xor, BitVec.getLsbD_ushiftRight, ha] at this
      rw [BitVec.getLsbD_of_ge _ _ (by omega : 64 ≤ 1 + 63)] at this
      exact absurd this (by decide)
    rw [hb, if_neg (by decide)] at h4
    have h4 : at' s 0 >>> 1 = 0 := (BitVec.xor_zero (x := at' s 0 >>> 1)).symm.trans h4
    apply BitVec.eq_of_getLsbD_eq
    intro i hi
    rw [show (0 : BitVec 64).getLsbD i = false from BitVec.getLsbD_zero]
    rcases Nat.eq_zero_or_pos i with h | h
    · rw [h]; exact hb
    · have := congrArg (fun z : BitVec 64 => z.getLsbD (i - 1)) h4
      simp only [BitVec.getLsbD_ushiftRight] at this
      rw [show (0 : BitVec 64).getLsbD (i - 1) = false from BitVec.getLsbD_zero] at this
      rwa [show 1 + (i - 1) = i by omega] at this
  funext j
  rcases Nat.eq_zero_or_pos j.1 with h | h
  · have : at' s 0 = (s ⟨0, by omega⟩).val := by unfold at'; rw [dif_pos (by omega)]
    rw [h3] at this
    have e : j = ⟨0, by omega⟩ := Fin.ext h
    rw [e]
    exact Wd.ext this.symm
  · exact h1 j.1 h j.2

/-! ### `setOneBit` -/

/-- The bits `64*i + k`: bit `k` of cell `i` of the array. -/
def bitAt (s : St) (i : ℕ) : Bool := (s.state (i / 64)).getLsbD (i % 64)

theorem intOneShift_low {r : ℕ} (h : r < 31) : intOneShift r = some ((1 : BitVec 64) <<< r) := by
  unfold intOneShift
  rw [if_pos (by omega)]
  have : ∀ r : Fin 31, ((1 : BitVec 32) <<< (r : ℕ)).signExtend 64 = (1 : BitVec 64) <<< (r : ℕ) := by decide
  rw [this ⟨r, h⟩]

/-- **C41**, the part of it that holds: for the lower 31 positions of each word exactly the requested bit is
set.  Missing: positions 31 to 63, where it fails (`setOneBit_wrong`). -/
theorem setOneBit_partial {s : St} (hs : Inv n s) {i : ℕ} (hi : i < 64 * n) (h31 : i % 64 < 31) :
    ∃ s', setOneBit i s = some s' ∧ Inv n s' ∧ par s' = par s ∧
      ∀ j, j < 64 * n → bitAt s' j = decide (j = i) := by
  have hx : ¬ (i / 64 ≥ (setZero s).size) := by
    show ¬ (i / 64 ≥ s.size); rw [hs.size]; omega
  refine ⟨{ setZero s with state := Function.update (setZero s).state (i / 64) ((1 : BitVec 64) <<< (i % 64)) },
    ?_, ?_, rfl, ?_⟩
  · unfold setOneBit
    dsimp only
    rw [if_neg hx, intOneShift_low h31]
  · exact ⟨hs.size, (zero_inv hs).1.index, hs.pos⟩
  · intro j hj
    have hz : (setZero s).state (j / 64) = 0 := by
      unfold setZero
      rw [hs.size]
      exact Ring.clear n s.state (show j / 64 < n by omega)
    unfold bitAt
    dsimp only
    by_cases h : j / 64 = i / 64
    · rw [h, Function.update_self, BitVec.getLsbD_shiftLeft]
      by_cases h' : j % 64 = i % 64
      · have e : j = i := by omega
        rw [e]; simp; omega
      · have e : j ≠ i := fun e => h' (by rw [e])
        have h1 : (1 : BitVec 64).getLsbD (j % 64 - i % 64) = decide (j % 64 - i % 64 = 0) := by
          have : ∀ k : Fin 64, (1 : BitVec 64).getLsbD (k : ℕ) = decide ((k : ℕ) = 0) := by decide
          exact this ⟨j % 64 - i % 64, by omega⟩
        rw [h1]
        rw [decide_eq_false e]
        by_cases h3 : j % 64 < i % 64
        · simp [h3]
        · have : ¬ (j % 64 - i % 64 = 0) := by omega
          rw [decide_eq_false this]; simp
    · rw [Function.update_of_ne h, hz]
      rw [decide_eq_false (fun e => h (by rw [e]))]
      exact BitVec.getLsbD_zero

/-- **C41 (negation).**  For the positions 32 to 63 of every word the call is undefined, and for position 31
it sets 33 bits. -/
theorem setOneBit_wrong {s : St} (hs : Inv n s) {i : ℕ} (hi : i < 64 * n) :
    (32 ≤ i % 64 → setOneBit i s = none) ∧
    (i % 64 = 31 → ∃ s', setOneBit i s = some s' ∧ s'.state (i / 64) = 0xffffffff80000000) := by
  have hx : ¬ (i / 64 ≥ (setZero s).size) := by
    show ¬ (i / 64 ≥ s.size); rw [hs.size]; omega
  constructor
  · intro h
    unfold setOneBit
    dsimp only
    rw [if_neg hx, intOneShift, if_neg (by omega)]
  · intro h
    refine ⟨_, by unfold setOneBit; dsimp only; rw [if_neg hx, intOneShift, h, if_pos (by decide)], ?_⟩
    dsimp only
    rw [Function.update_self]
    decide

/-! ### Construction and parameters -/

/-- The constructors followed by `setUpParam` give a usable object for every exponent, with unchanged masks. -/
theorem ctor_setUp (mexp : ℕ) (v : BitVec 64) (jp : ℕ) (ja : BitVec 64) (junk : ℕ → BitVec 64)
    (r1 r2 : BitVec 64) :
    Inv (mexp / 64 + 1) (setUpParam r1 r2 (ctor mexp v jp ja junk)) ∧
    par (setUpParam r1 r2 (ctor mexp v jp ja junk)) = ⟨r1.toNat % (mexp / 64 + 1), r2, 0, 0, false⟩ :=
  ⟨⟨rfl, by show mexp / 64 + 1 - 1 < mexp / 64 + 1; omega, Nat.mod_lt _ (show 0 < mexp / 64 + 1 by omega)⟩, rfl⟩

theorem ctorPar_inv (mexp pos : ℕ) (mata mb mc v : BitVec 64) (junk : ℕ → BitVec 64) (h : pos < mexp / 64 + 1) :
    Inv (mexp / 64 + 1) (ctorPar mexp pos mata mb mc v junk) ∧
    par (ctorPar mexp pos mata mb mc v junk) = ⟨pos, mata, mb, mc, false⟩ :=
  ⟨⟨rfl, by show mexp / 64 + 1 - 1 < mexp / 64 + 1; omega, h⟩, rfl⟩

/-- **C53** for `RMT64Search`. -/
theorem setPat_spec (mask pattern : BitVec 64) (k : ℕ) (s : St) :
    (∀ i, i < 64 → (setTemperingPattern mask pattern k s).maskb.getLsbD i =
      if k = 0 ∧ mask.getLsbD i = true then pattern.getLsbD i else s.maskb.getLsbD i) ∧
    (∀ i, i < 64 → (setTemperingPattern mask pattern k s).maskc.getLsbD i =
      if k ≠ 0 ∧ mask.getLsbD i = true then pattern.getLsbD i else s.maskc.getLsbD i) ∧
    (∀ p', setTemperingPattern mask pattern k (setTemperingPattern mask p' k s) =
      setTemperingPattern mask pattern k s) ∧
    ∃ b c, setTemperingPattern mask pattern k s = { s with maskb := b, maskc := c } := by
  have key : ∀ x : BitVec 64, ∀ i, i < 64 → ((x &&& ~~~ mask) ||| (pattern &&& mask)).getLsbD i =
      if mask.getLsbD i = true then pattern.getLsbD i else x.getLsbD i := by
    intro x i hi
    rw [BitVec.getLsbD_or, BitVec.getLsbD_and, BitVec.getLsbD_and, BitVec.getLsbD_not]
    cases mask.getLsbD i <;> simp [hi]
  have key2 : ∀ x p' : BitVec 64, ((((x &&& ~~~ mask) ||| (p' &&& mask)) &&& ~~~ mask) ||| (pattern &&& mask)) =
      (x &&& ~~~ mask) ||| (pattern &&& mask) := by
    intro x p'
    apply BitVec.eq_of_getLsbD_eq
    intro i hi
    simp only [BitVec.getLsbD_or, BitVec.getLsbD_and, BitVec.getLsbD_not, hi, decide_true, Bool.true_and]
    cases mask.getLsbD i <;> simp
  by_cases hk : k = 0
  · subst hk
    refine ⟨fun i hi => ?_, fun i hi => ?_, fun p' => ?_, _, s.maskc, rfl⟩
    · simp only [setTemperingPattern, if_true, key _ i hi, true_and]
    · simp [setTemperingPattern]
    · simp only [setTemperingPattern, if_true, key2]
  · refine ⟨fun i hi => ?_, fun i hi => ?_, fun p' => ?_, s.maskb, (s.maskc &&& ~~~ mask) ||| (pattern &&& mask), ?_⟩
    · simp [setTemperingPattern, hk]
    · simp only [setTemperingPattern, hk, if_false, key _ i hi, ne_eq, not_false_eq_true, true_and]
    · simp only [setTemperingPattern, hk, if_false, key2]
    · simp only [setTemperingPattern, hk, if_false]

theorem shl_shr_shl (x m : BitVec 64) (k : ℕ) : (x <<< k) &&& ((m >>> k) <<< k) = (x <<< k) &&& m := by
  apply BitVec.eq_of_getLsbD_eq
  intro i hi
  simp only [BitVec.getLsbD_and, BitVec.getLsbD_shiftLeft, BitVec.getLsbD_ushiftRight]
  by_cases h : i < k
  · simp [h]
  · rw [show k + (i - k) = i by omega]; simp [h, hi]

/-- `getParamString` changes the masks of the object, but not the behaviour: the outputs stay the same. -/
theorem getParamString_keeps (s : St) (x : BitVec 64) :
    temper (par (getParamString s)) x = temper (par s) x := by
  unfold temper getParamString par
  dsimp only
  rw [shl_shr_shl, shl_shr_shl]

/-- **C22–C24 for `RMT64Search`** in both output orders: the numbers delivered for the full state. -/
theorem equidist {s : St} (hs : Inv n s) (veq0 : ℕ → ℕ) :
    ∃ q, getAllEquidist (ops n) Util.calc1posWrap64 s 64 (n * 64) (64 * (65 * (n * 64)) + 65) veq0 = .ok q ∧
      (∀ v, 1 ≤ v → v ≤ 64 →
        IsGreatest {k | Equidist (T n (par s)) (if s.rev then OR n (par s) else O n (par s))
          (cyc (T n (par s)) (den n s)) v k} (q.veq (v - 1))) ∧
      q.sum = ∑ v ∈ Finset.Icc 1 64, ((n * 64 / v : ℕ) - (q.veq (v - 1) : ℤ)) := by
  obtain ⟨hm, h0, hd⟩ := charpoly_hyps (T n (par s)) (den n s)
  rw [Ring.finrank] at hd
  obtain ⟨q, e1, e2, _, e4⟩ := getAllEquidist_correct (linGen_view (n := n) (par s)) (g := s) ⟨hs, rfl⟩ hm h0
    (by rw [hd]; show n * 64 ≤ 2 * (n * 64) + 1; omega) (stateBitSize := n * 64) (by omega) Util.isCalc1pos_64
    (bitLen := 64) (by omega) (by omega) (fuel := 64 * (65 * (n * 64)) + 65) (by rw [hd]) veq0
  exact ⟨q, e1, e2, e4⟩

theorem seed_first (v : BitVec 64) (s : St) : (seed v s).state 0 = v := by
  have h2 : ∀ k i (m : ℕ → BitVec 64), 1 ≤ i → seedLoop k i m 0 = m 0 := by
    intro k
    induction k with
    | zero => intros; rfl
    | succ k ih => intro i m hi; rw [seedLoop, ih _ _ (by omega), Function.update_of_ne (by omega)]
  show seedLoop _ 1 (Function.update s.state 0 v) 0 = v
  rw [h2 _ _ _ le_rfl, Function.update_self]

/-- Seeding with a non-zero value gives a non-zero state. -/
theorem seed_ne_zero {s : St} {v : BitVec 64} (hs : Inv n (seed v s)) (hv : v ≠ 0) :
    isZero (seed v s) = false := by
  rw [Bool.eq_false_iff, Ne, isZero_iff hs]
  intro h
  have h0 := (Ring.vec_eq_zero _ _).1 h 0 (by have := hs.pos; omega)
  rw [seed_first] at h0
  exact hv h0

-- An object for the exponent 19937.
example : ∃ s, Inv 312 s ∧ isZero s = false ∧ (par s).pos = 23 ∧ Function.Bijective (T 312 (par s)) := by
  obtain ⟨h1, h2⟩ := ctorPar_inv 19937 23 0x8000000000000001 0 0 1 (fun _ => 0) (by decide)
  refine ⟨_, h1, seed_ne_zero h1 (by decide), by rw [h2], T_bijective _ ?_ ?_ ?_⟩
  · rw [h2]; decide
  · rw [h2]; decide
  · rw [h2]; decide

end MTT.RMT
