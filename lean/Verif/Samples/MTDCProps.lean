import Verif.Samples.MTDC
import Verif.Spec.MTRec
import Verif.Spec.Ring
import Verif.MT.Lemmas
import Verif.MT.Props
import Verif.Samples.TinyMTProps

/-!
# C42, C53, C54: `MT32Search`

`n` is the number of words, `r` the number of bits of the oldest word that are not part of the state.
-/

namespace MTT.MTDC

open PIS MTRec

variable {n r : ℕ}

/-- Effective state space: the upper bits of the oldest word and all other words. -/
abbrev S (n r : ℕ) : Type := Wd (32 - r) × (Fin (n - 1) → Wd 32)

/-- The words of the buffer, oldest first. -/
def words (n : ℕ) (s : St) (j : ℕ) : BitVec 32 := Ring.rel n s.state s.index (j + 1)

/-- The effective state of an object. -/
def den (n r : ℕ) (s : St) : S n r := (Wd.of (hi r (words n s 0)), fun j => Wd.of (words n s (1 + j)))

/-- Objects built by the constructors and `setUpParam` for a word count `n` and `r` unused bits. -/
structure Inv (n r : ℕ) (s : St) : Prop where
  size : s.size = n
  mexp : s.mexp + r = 32 * n
  rlt : r < 32
  index : s.index < n
  upper : s.upper = MTRec.upper 32 r
  lower : s.lower = ~~~ MTRec.upper 32 r
  pos1 : 1 ≤ s.pos
  posn : s.pos < n

/-- Parameters: `pos`, `mata`, `maskb`, `maskc`, output order. -/
structure Par where
  pos : ℕ
  mata : BitVec 32
  maskb : BitVec 32
  maskc : BitVec 32
  rev : Bool

def par (s : St) : Par := ⟨s.pos, s.mata, s.maskb, s.maskc, s.rev⟩

/-- The recurrence (a specification: the one of the Mersenne Twister, C14). -/
abbrev rec (n r : ℕ) (p : Par) : MTPar 32 := ⟨n, p.pos, r, p.mata⟩

/-- Transition on the effective state. -/
def T (n r : ℕ) (p : Par) : S n r →ₗ[ZMod 2] S n r := MTRec.T (rec n r p)

/-- Tempering. -/
def temper (p : Par) (y : BitVec 32) : BitVec 32 :=
  let y := y ^^^ (y >>> 12)
  let y := y ^^^ ((y <<< 7) &&& p.maskb)
  let y := y ^^^ ((y <<< 15) &&& p.maskc)
  y ^^^ (y >>> 18)

theorem temper_xor (p : Par) (x y : BitVec 32) : temper p (x ^^^ y) = temper p x ^^^ temper p y := by
  unfold temper
  dsimp only
  rw [MT.shr_step_xor 12, MT.shl_and_step_xor 7, MT.shl_and_step_xor 15, MT.shr_step_xor 18]

/-- The tempering is invertible for all masks. -/
theorem temper_injective (p : Par) : Function.Injective (temper p) := by
  intro x y h
  unfold temper at h
  dsimp only at h
  exact shr_inj (k := 12) (by norm_num) (shl_step_inj (k := 7) (by norm_num) _
    (shl_step_inj (k := 15) (by norm_num) _ (shr_inj (k := 18) (by norm_num) h)))

/-- The output word as a function of the effective state. -/
def out (n r : ℕ) (p : Par) (s : S n r) : BitVec 32 := temper p (newWord (P := rec n r p) s)

theorem out_add (p : Par) (s t : S n r) : out n r p (s + t) = out n r p s ^^^ out n r p t := by
  exact (congrArg (temper p) (newWord_add (P := rec n r p) s t)).trans (temper_xor ..)

/-- Output, most significant bit first. -/
def O (n r : ℕ) (p : Par) : S n r →ₗ[ZMod 2] V :=
  linOf (fun s => bits (out n r p s)) (fun s t => by rw [out_add, bits_xor])

/-- Output, least significant bit first. -/
def OR (n r : ℕ) (p : Par) : S n r →ₗ[ZMod 2] V :=
  linOf (fun s => bits (out n r p s).reverse) (fun s t => by rw [out_add, TinyMT.reverse_xor, bits_xor])

/-! ### `generate` -/

/-- The word written by `generate`. -/
def new (s : St) : BitVec 32 :=
  let y := (words s.size s 0 &&& s.upper) ||| (words s.size s 1 &&& s.lower)
  words s.size s s.pos ^^^ (y >>> 1) ^^^ (if (y &&& 1) = 1 then s.mata else 0)

theorem generate_eq (s : St) : generate s =
    ({ s with index := (s.index + 1) % s.size,
              state := Function.update s.state ((s.index + 1) % s.size) (new s) },
      temper (par s) (new s)) := by
  have e1 : s.state (((s.index + 1) % s.size + 1) % s.size) = words s.size s 1 := by
    unfold words Ring.rel; rw [Nat.mod_add_mod]
  have e2 : s.state (((s.index + 1) % s.size + s.pos) % s.size) = words s.size s s.pos := by
    unfold words Ring.rel; rw [Nat.mod_add_mod]; congr 2; omega
  have e0 : s.state ((s.index + 1) % s.size) = words s.size s 0 := rfl
  unfold generate
  dsimp only
  rw [e1, e2, e0]
  rfl

theorem den_seqState {s : St} {p : Par} {x : ℕ → BitVec 32} (h : ∀ j, j < n → words n s j = x j)
    (hn : 0 < n) : den n r s = seqState (rec n r p) x 0 := by
  unfold den seqState
  apply Prod.ext
  · show Wd.of (hi r (words n s 0)) = Wd.of (hi r (x 0))
    rw [h 0 hn]
  · funext j
    show Wd.of (words n s (1 + j)) = Wd.of (x (0 + 1 + j))
    have : (j : ℕ) < n - 1 := j.2
    rw [h _ (by omega), Nat.zero_add]

theorem new_eq {s : St} (hs : Inv n r s) : new s = words n s s.pos ^^^
    twist s.mata (join r (words n s 0) (words n s 1)) := by
  unfold new twist
  dsimp only
  rw [hs.size, hs.upper, hs.lower]
  have : (words n s 0 &&& MTRec.upper 32 r) ||| (words n s 1 &&& ~~~ MTRec.upper 32 r) =
    join r (words n s 0) (words n s 1) := rfl
  rw [this, BitVec.xor_assoc]
  congr 2
  by_cases h : (join r (words n s 0) (words n s 1)).getLsbD 0 = true
  · rw [if_pos ((MT.and_one_eq _ (by omega)).2 h), if_pos h]
  · rw [if_neg (fun h' => h ((MT.and_one_eq _ (by omega)).1 h')), if_neg h]

/-- The words after a step. -/
theorem words_generate {s : St} (hs : Inv n r s) {j : ℕ} (hj : j < n) :
    words n (generate s).1 j = if j + 1 < n then words n s (j + 1) else new s := by
  rw [generate_eq]
  unfold words
  dsimp only
  rw [hs.size]
  have hi : (s.index + 1) % n < n := Nat.mod_lt _ (by omega)
  by_cases h : j + 1 < n
  · rw [if_pos h, Ring.rel_write0 _ hi _ h, if_neg (by omega), Ring.rel_next]
  · rw [if_neg h, show j + 1 = n by omega, Ring.rel_self, Ring.rel_write0 _ hi _ (by omega), if_pos rfl]

theorem generate_inv {s : St} (hs : Inv n r s) : Inv n r (generate s).1 ∧ par (generate s).1 = par s := by
  rw [generate_eq]
  refine ⟨⟨hs.size, hs.mexp, hs.rlt, ?_, hs.upper, hs.lower, hs.pos1, hs.posn⟩, rfl⟩
  show (s.index + 1) % s.size < n
  rw [hs.size]
  exact Nat.mod_lt _ (by have := hs.posn; omega)

theorem rec_ok {s : St} (hs : Inv n r s) : (rec n r (par s)).OK := ⟨hs.pos1, hs.posn, hs.rlt⟩

theorem generate_den {s : St} (hs : Inv n r s) : den n r (generate s).1 = T n r (par s) (den n r s) := by
  have hn : 0 < n := by have := hs.posn; omega
  have h1 := hs.pos1
  have h2 := hs.posn
  let x : ℕ → BitVec 32 := fun j => if j < n then words n s j else new s
  have hx : ∀ j, j < n → x j = words n s j := fun j hj => if_pos hj
  have hxn : x n = new s := if_neg (by omega)
  have e1 : den n r s = seqState (rec n r (par s)) x 0 := den_seqState (fun j hj => (hx j hj).symm) hn
  have e2 : den n r (generate s).1 = seqState (rec n r (par s)) x (0 + 1) := by
    rw [den_seqState (p := par s) (x := fun j => x (j + 1)) _ hn]
    · unfold seqState
      apply Prod.ext
      · rfl
      · funext j
        show Wd.of (x (0 + 1 + j + 1)) = Wd.of (x (0 + 1 + 1 + j))
        congr 2; omega
    · intro j hj
      rw [words_generate hs hj]
  rw [e1, e2]
  refine (T_seqState' (rec_ok hs) 0 ?_).symm
  show x (0 + n) = x (0 + s.pos) ^^^ twist s.mata (join r (x 0) (x (0 + 1)))
  rw [zero_add, zero_add, zero_add, hxn, new_eq hs, hx _ h2, hx 0 hn, hx 1 (by omega)]

theorem new_den {s : St} (hs : Inv n r s) : new s = newWord (P := rec n r (par s)) (den n r s) := by
  have hn : 0 < n := by have := hs.posn; omega
  have h1 := hs.pos1
  have h2 := hs.posn
  rw [den_seqState (p := par s) (x := words n s) (fun _ _ => rfl) hn, newWord_seqState (rec_ok hs), new_eq hs]
  show words n s s.pos ^^^ _ = words n s (0 + s.pos) ^^^ _
  rw [zero_add]
  rfl

theorem generate_out {s : St} (hs : Inv n r s) : (generate s).2 = out n r (par s) (den n r s) := by
  rw [generate_eq]
  unfold out
  rw [← new_den hs]

/-! ### `add`, `setZero` -/

theorem add_inv {a b : St} (ha : Inv n r a) : Inv n r (add a b) ∧ par (add a b) = par a :=
  ⟨⟨ha.size, ha.mexp, ha.rlt, ha.index, ha.upper, ha.lower, ha.pos1, ha.posn⟩, rfl⟩

theorem words_add {a b : St} (ha : Inv n r a) {j : ℕ} (hj : j < n) :
    words n (add a b) j = words n a j ^^^ words n b j := by
  have key : ∀ j, j < n → Ring.rel n (add a b).state (add a b).index j =
      Ring.rel n a.state a.index j ^^^ Ring.rel n b.state b.index j := by
    intro j hj
    have := Ring.rel_fold (n := n) (fun k x => x ^^^ b.state ((b.index + k) % n)) a.index a.state n le_rfl j hj
    rw [if_pos hj] at this
    unfold add
    rw [ha.size]
    exact this
  unfold words
  rw [← Ring.rel_mod, key _ (Nat.mod_lt _ (by omega)), Ring.rel_mod, Ring.rel_mod]

theorem add_den {a b : St} (ha : Inv n r a) : den n r (add a b) = den n r a + den n r b := by
  have hn : 0 < n := by have := ha.posn; omega
  unfold den
  apply Prod.ext
  · show Wd.of (hi r (words n (add a b) 0)) = Wd.of (hi r (words n a 0)) + Wd.of (hi r (words n b 0))
    rw [words_add ha hn, hi_xor, Wd.of_xor]
  · funext j
    show Wd.of (words n (add a b) (1 + j)) = Wd.of (words n a (1 + j)) + Wd.of (words n b (1 + j))
    have : (j : ℕ) < n - 1 := j.2
    rw [words_add ha (by omega), Wd.of_xor]

theorem setZero_state (s : St) {i : ℕ} (hi : i < s.size) : (setZero s).state i = 0 := by
  unfold setZero
  dsimp only
  have : ∀ m (a : ℕ → BitVec 32), i < m →
      (List.range m).foldl (fun a i => Function.update a i 0) a i = 0 := by
    intro m
    induction m with
    | zero => intro a h; omega
    | succ m ih =>
      intro a h
      rw [List.range_succ, List.foldl_append, List.foldl_cons, List.foldl_nil]
      by_cases hm : i = m
      · rw [hm, Function.update_self]
      · rw [Function.update_of_ne hm]
        exact ih a (by omega)
  exact this _ _ hi

theorem zero_inv {s : St} (hs : Inv n r s) : Inv n r (setZero s) ∧ par (setZero s) = par s :=
  ⟨⟨hs.size, hs.mexp, hs.rlt, by have := hs.posn; show 0 < n; omega, hs.upper, hs.lower, hs.pos1, hs.posn⟩, rfl⟩

theorem zero_den {s : St} (hs : Inv n r s) : den n r (setZero s) = 0 := by
  have hn : 0 < n := by have := hs.posn; omega
  have h : ∀ j, words n (setZero s) j = 0 := fun j =>
    setZero_state s (by rw [hs.size]; exact Nat.mod_lt _ hn)
  unfold den
  apply Prod.ext
  · show Wd.of (hi r (words n (setZero s) 0)) = Wd.of 0
    rw [h, hi_zero]
  · funext j
    show Wd.of (words n (setZero s) (1 + j)) = Wd.of 0
    rw [h]

/-! ### The contract -/

/-- **C42, C54.**  With normal output order the class satisfies the contract of a linear generator on its
effective bits, for any positions of the indices in the buffers. -/
theorem linGen (mexp : ℕ) (p : Par) (hp : p.rev = false) :
    LinGen (ops mexp) (fun s => Inv n r s ∧ par s = p) (den n r) (T n r p) (O n r p) where
  gen_inv s hs := ⟨(generate_inv hs.1).1, (generate_inv hs.1).2.trans hs.2⟩
  gen_den s hs := by rw [← hs.2]; exact generate_den hs.1
  gen_out s hs := by
    show bits (generate s).2 = _
    rw [generate_out hs.1, hs.2]; rfl
  genV_inv v s _ _ hs := ⟨(generate_inv hs.1).1, (generate_inv hs.1).2.trans hs.2⟩
  genV_den v s _ _ hs := by rw [← hs.2]; exact generate_den hs.1
  genV_out v s _ hv hs := by
    have hr : s.rev = false := (congrArg Par.rev hs.2).trans hp
    simp only [ops, generateV, hr, TinyMT.allOnes32]
    rw [if_neg (by decide), bits_and_mask _ hv, generate_out hs.1, hs.2]
    rfl
  add_inv a b ha _ := ⟨(add_inv ha.1).1, (add_inv ha.1).2.trans ha.2⟩
  add_den a b ha _ := add_den ha.1
  zero_inv s hs := ⟨(zero_inv hs.1).1, (zero_inv hs.1).2.trans hs.2⟩
  zero_den s hs := zero_den hs.1

/-- **C42, C54.**  In either output order the class, as seen through `generate(v)`, satisfies the contract, the
output being reversed in reverse mode. -/
theorem linGen_view (mexp : ℕ) (p : Par) :
    LinGen (view (ops mexp)) (fun s => Inv n r s ∧ par s = p) (den n r) (T n r p)
      (if p.rev then OR n r p else O n r p) where
  gen_inv s hs := ⟨(generate_inv hs.1).1, (generate_inv hs.1).2.trans hs.2⟩
  gen_den s hs := by rw [← hs.2]; exact generate_den hs.1
  gen_out s hs := by
    have hm : (BitVec.allOnes 32) <<< (32 - 32) = BitVec.allOnes 32 := by decide
    have hr : s.rev = p.rev := congrArg Par.rev hs.2
    simp only [view, ops, generateV, TinyMT.allOnes32, hm, BitVec.and_allOnes, hr]
    rw [generate_out hs.1, (Util.reverse_bit_correct.1 _).1, hs.2]
    split <;> rfl
  genV_inv v s _ _ hs := ⟨(generate_inv hs.1).1, (generate_inv hs.1).2.trans hs.2⟩
  genV_den v s _ _ hs := by rw [← hs.2]; exact generate_den hs.1
  genV_out v s _ hv hs := by
    have hr : s.rev = p.rev := congrArg Par.rev hs.2
    simp only [view, ops, generateV, TinyMT.allOnes32, hr]
    rw [bits_and_mask _ hv, generate_out hs.1, (Util.reverse_bit_correct.1 _).1, hs.2]
    congr 1
    split <;> rfl
  add_inv a b ha _ := ⟨(add_inv ha.1).1, (add_inv ha.1).2.trans ha.2⟩
  add_den a b ha _ := add_den ha.1
  zero_inv s hs := ⟨(zero_inv hs.1).1, (zero_inv hs.1).2.trans hs.2⟩
  zero_den s hs := zero_den hs.1

/-- **C42.**  The effective state has `mexp` bits. -/
theorem finrank_S {s : St} (hs : Inv n r s) : Module.finrank (ZMod 2) (S n r) = s.mexp := by
  have h := finrank_state (rec n r (par s))
  have h1 := hs.mexp
  have h2 := hs.rlt
  have h3 := hs.posn
  have : Module.finrank (ZMod 2) (S n r) = (32 - r) + (n - 1) * 32 := h
  rw [this]; omega

/-- **C42.**  The behaviour depends on the effective bits only: two objects with the same parameters and the
same effective bits (the indices may differ, and so may the lower bits of the oldest words) give the same
output for ever. -/
theorem effective {s t : St} (hs : Inv n r s) (ht : Inv n r t) (hp : par s = par t)
    (h : den n r s = den n r t) (mexp : ℕ) (k : ℕ) :
    (generate (stateAt (ops mexp) s k)).2 = (generate (stateAt (ops mexp) t k)).2 := by
  have key : ∀ k, (Inv n r (stateAt (ops mexp) s k) ∧ par (stateAt (ops mexp) s k) = par s) ∧
      (Inv n r (stateAt (ops mexp) t k) ∧ par (stateAt (ops mexp) t k) = par t) ∧
      den n r (stateAt (ops mexp) s k) = den n r (stateAt (ops mexp) t k) := by
    intro k
    induction k with
    | zero => exact ⟨⟨hs, rfl⟩, ⟨ht, rfl⟩, h⟩
    | succ k ih =>
      obtain ⟨⟨a1, a2⟩, ⟨b1, b2⟩, c⟩ := ih
      refine ⟨⟨(generate_inv a1).1, (generate_inv a1).2.trans a2⟩,
        ⟨(generate_inv b1).1, (generate_inv b1).2.trans b2⟩, ?_⟩
      show den n r (generate _).1 = den n r (generate _).1
      rw [generate_den a1, generate_den b1, a2, b2, hp, c]
  obtain ⟨⟨a1, a2⟩, ⟨b1, b2⟩, c⟩ := key k
  rw [generate_out a1, generate_out b1, a2, b2, hp, c]

/-- The transition is invertible if `pos ≥ 2` (as `setUpParam` makes it) and the highest bit of `mata` is
set. -/
theorem T_bijective {s : St} (hs : Inv n r s) (h2 : 2 ≤ s.pos) (ha : s.mata.getLsbD 31 = true) :
    Function.Bijective (T n r (par s)) := by
  rw [← Finite.injective_iff_bijective]
  exact T_injective (rec_ok hs) h2 ha

/-- **C42.**  What `isZero` really tests: the upper bits of the *newest* word and all bits of all other
words. -/
theorem isZero_iff {s : St} (hs : Inv n r s) : isZero s = true ↔
    hi r (words n s (n - 1)) = 0 ∧ ∀ j, j < n - 1 → words n s j = 0 := by
  have hn : 0 < n := by have := hs.posn; omega
  have e0 : words n s (n - 1) = s.state s.index := by
    unfold words
    rw [show n - 1 + 1 = n by omega, Ring.rel_self]
    unfold Ring.rel
    rw [Nat.add_zero, Nat.mod_eq_of_lt hs.index]
  have hu : (s.upper &&& s.state s.index) = 0 ↔ hi r (words n s (n - 1)) = 0 := by
    rw [e0, hs.upper, BitVec.and_comm, ← lift_hi]
    constructor
    · intro h
      apply lift_inj hs.rlt.le
      rw [h]
      apply BitVec.eq_of_getLsbD_eq
      intro i _
      rw [lift_bit]; simp
    · intro h
      rw [h]
      apply BitVec.eq_of_getLsbD_eq
      intro i _
      rw [lift_bit]; simp
  have hl : ((List.range' 1 (s.size - 1)).all fun i => s.state ((s.index + i) % s.size) == 0) = true ↔
      ∀ j, j < n - 1 → words n s j = 0 := by
    rw [List.all_eq_true, hs.size]
    constructor
    · intro h j hj
      have := h (j + 1) (by rw [List.mem_range'_1]; omega)
      exact eq_of_beq this
    · intro h i hi
      rw [List.mem_range'_1] at hi
      have := h (i - 1) (by omega)
      rw [beq_iff_eq, ← this]
      unfold words Ring.rel
      rw [show i - 1 + 1 = i by omega]
  unfold isZero
  by_cases h : (s.upper &&& s.state s.index) = 0
  · rw [if_neg (not_not.2 h), hl]
    exact ⟨fun h' => ⟨hu.1 h, h'⟩, fun h' => h'.2⟩
  · rw [if_pos h]
    exact ⟨fun h' => absurd h' (by decide), fun h' => absurd (hu.2 h'.1) h⟩

/-- **C42**, the part of it that holds: the effective state is zero if `isZero` returns true and the lower
bits of the newest word are zero; after `setZero` it returns true. Missing: the general equivalence, which is
false (`isZero_wrong`). -/
theorem isZero_partial {s : St} (hs : Inv n r s) :
    isZero (setZero s) = true ∧
    (words n s (n - 1) &&& ~~~ MTRec.upper 32 r = 0 → isZero s = true → den n r s = 0) ∧
    (words n s 0 &&& MTRec.upper 32 r = words n s 0 → den n r s = 0 → isZero s = true) := by
  have hn : 1 < n := by have := hs.posn; have := hs.pos1; omega
  refine ⟨?_, ?_, ?_⟩
  · rw [isZero_iff (zero_inv hs).1]
    have h : ∀ j, words n (setZero s) j = 0 := fun j =>
      setZero_state s (by rw [hs.size]; exact Nat.mod_lt _ (by omega))
    exact ⟨by rw [h, hi_zero], fun j _ => h j⟩
  · intro h1 h2
    obtain ⟨h3, h4⟩ := (isZero_iff hs).1 h2
    have h5 := and_split r _ h3 h1
    have h6 : ∀ j, j < n → words n s j = 0 := by
      intro j hj
      by_cases h : j < n - 1
      · exact h4 j h
      · rw [show j = n - 1 by omega]; exact h5
    unfold den
    apply Prod.ext
    · show Wd.of (hi r (words n s 0)) = Wd.of 0
      rw [h6 0 (by omega), hi_zero]
    · funext j
      show Wd.of (words n s (1 + j)) = Wd.of 0
      have : (j : ℕ) < n - 1 := j.2
      rw [h6 _ (by omega)]
  · intro h1 h2
    have e0 : hi r (words n s 0) = 0 := congrArg (fun q : S n r => q.1.val) h2
    have ej : ∀ j, 1 ≤ j → j < n → words n s j = 0 := fun j a b => by
      have := congrArg (fun q : S n r => (q.2 ⟨j - 1, by omega⟩).val) h2
      have h3 : words n s (1 + (j - 1)) = 0 := this
      rwa [show 1 + (j - 1) = j by omega] at h3
    rw [isZero_iff hs]
    refine ⟨by rw [ej _ (by omega) (by omega), hi_zero], fun j hj => ?_⟩
    by_cases h : j = 0
    · rw [h, ← h1, ← lift_hi, e0]
      apply BitVec.eq_of_getLsbD_eq
      intro i _
      rw [lift_bit]; simp
    · exact ej j (by omega) (by omega)

theorem den_zero {s : St} (h : den n r s = 0) (j : Fin (n - 1)) : words n s (1 + j) = 0 :=
  congrArg (fun q : S n r => (q.2 j).val) h

/-- An object for the exponent 89 (three words) whose newest word is 1 and which is zero elsewhere. -/
def badSt : St :=
  ⟨89, 3, 0, fun i => if i = 0 then 1 else 0, 2, 0, 0, 0, MTRec.upper 32 7, ~~~ MTRec.upper 32 7, 0, false⟩

/-- **C42 (negation).**  `isZero` returns true for a state whose effective bits are not all zero, and false
for a state whose effective bits are all zero. -/
theorem isZero_wrong :
    (Inv 3 7 badSt ∧ isZero badSt = true ∧ den 3 7 badSt ≠ 0 ∧ (generate (generate badSt).1).2 ≠ 0) ∧
    (Inv 3 7 { badSt with index := 2 } ∧ isZero { badSt with index := 2 } = false ∧
      den 3 7 { badSt with index := 2 } = 0) := by
  refine ⟨⟨⟨rfl, rfl, by omega, by decide, rfl, rfl, by decide, by decide⟩, by decide, ?_, by decide⟩,
    ⟨⟨rfl, rfl, by omega, by decide, rfl, rfl, by decide, by decide⟩, by decide, ?_⟩⟩
  · intro h
    have := den_zero h ⟨1, by decide⟩
    exact absurd this (by decide)
  · have h0 : hi 7 (1 : BitVec 32) = 0 := by decide
    apply Prod.ext
    · exact Wd.ext h0
    · funext j
      apply Wd.ext
      show words 3 { badSt with index := 2 } (1 + j) = 0
      revert j
      decide

/-! ### Constructor, `setUpParam`, tempering parameters -/

/-- The constructor followed by `setUpParam` gives a usable object: the exponent must not be a multiple of 32
and at least 64. -/
theorem ctor_setUp (mexp : ℕ) (id : ℤ) (v : BitVec 32) (jp : ℕ) (ja : BitVec 32) (junk : ℕ → BitVec 32)
    (h32 : mexp % 32 ≠ 0) (h64 : 64 ≤ mexp) : ∃ s, ctor mexp id v jp ja junk = some s ∧
      ∀ r1 r2, ∃ s', setUpParam r1 r2 s = some s' ∧
        Inv (mexp / 32 + 1) (32 - mexp % 32) s' ∧ 2 ≤ s'.pos ∧
        s'.maskb = s.maskb ∧ s'.maskc = s.maskc ∧ s'.rev = s.rev := by
  have e : (mexp / 32 + 1) * 32 - mexp = 32 - mexp % 32 := by omega
  refine ⟨_, by unfold ctor; dsimp only; rw [e, if_pos (by omega)], fun r1 r2 => ?_⟩
  unfold setUpParam
  have hsz : (mexp / 32 + 1 - 2 = 0) = False := by simp; omega
  simp only [seed, hsz, if_false]
  have hpos : r1.toNat % (mexp / 32 + 1 - 2) < mexp / 32 + 1 - 2 := Nat.mod_lt _ (by omega)
  refine ⟨_, rfl, ⟨rfl, ?_, by omega, ?_, rfl, rfl, ?_, ?_⟩, ?_, rfl, rfl, rfl⟩
  · show mexp + _ = _; omega
  · show mexp / 32 + 1 - 1 < _; omega
  · show 1 ≤ r1.toNat % (mexp / 32 + 1 - 2) + 2; omega
  · show r1.toNat % (mexp / 32 + 1 - 2) + 2 < _; omega
  · show 2 ≤ r1.toNat % (mexp / 32 + 1 - 2) + 2; omega

/-- **C53** for `MT32Search`: exactly the bits of the selected mask (0: `maskb`, otherwise `maskc`) under `mask`
are replaced; a second call under the same mask leaves no trace of the first. -/
theorem setPat_spec (mask pattern : BitVec 32) (k : ℕ) (s : St) :
    (∀ i, i < 32 → (setTemperingPattern mask pattern k s).maskb.getLsbD i =
      if k = 0 ∧ mask.getLsbD i = true then pattern.getLsbD i else s.maskb.getLsbD i) ∧
    (∀ i, i < 32 → (setTemperingPattern mask pattern k s).maskc.getLsbD i =
      if k ≠ 0 ∧ mask.getLsbD i = true then pattern.getLsbD i else s.maskc.getLsbD i) ∧
    (∀ p', setTemperingPattern mask pattern k (setTemperingPattern mask p' k s) =
      setTemperingPattern mask pattern k s) ∧
    ∃ b c, setTemperingPattern mask pattern k s = { s with maskb := b, maskc := c } := by
  have key : ∀ x : BitVec 32, ∀ i, i < 32 → ((x &&& ~~~ mask) ||| (pattern &&& mask)).getLsbD i =
      if mask.getLsbD i = true then pattern.getLsbD i else x.getLsbD i := by
    intro x i hi
    rw [BitVec.getLsbD_or, BitVec.getLsbD_and, BitVec.getLsbD_and, BitVec.getLsbD_not]
    cases mask.getLsbD i <;> simp [hi]
  have key2 : ∀ x p' : BitVec 32, ((((x &&& ~~~ mask) ||| (p' &&& mask)) &&& ~~~ mask) ||| (pattern &&& mask)) =
      (x &&& ~~~ mask) ||| (pattern &&& mask) := by
    intro x p'
    apply BitVec.eq_of_getLsbD_eq
    intro i hi
    simp only [BitVec.getLsbD_or, BitVec.getLsbD_and, BitVec.getLsbD_not, hi, decide_true, Bool.true_and]
    cases mask.getLsbD i <;> simp
  by_cases hk : k = 0
  · subst hk
    refine ⟨fun i hi => ?_, fun i hi => ?_, fun p' => ?_, _, s.maskc, rfl⟩
    · simp only [setTemperingPattern, if_true, key _ i hi, true_and]
    · simp [setTemperingPattern]
    · simp only [setTemperingPattern, if_true, key2]
  · refine ⟨fun i hi => ?_, fun i hi => ?_, fun p' => ?_, s.maskb, (s.maskc &&& ~~~ mask) ||| (pattern &&& mask), ?_⟩
    · simp [setTemperingPattern, hk]
    · simp only [setTemperingPattern, hk, if_false, key _ i hi, ne_eq, not_false_eq_true, true_and]
    · simp only [setTemperingPattern, hk, if_false, key2]
    · simp only [setTemperingPattern, hk, if_false]

/-- **C22–C24 for `MT32Search`** in both output orders. -/
theorem equidist {s : St} (hs : Inv n r s) (hmexp : 1 ≤ s.mexp) (veq0 : ℕ → ℕ) :
    ∃ q, getAllEquidist (ops s.mexp) Util.calc1posWrap32 s 32 s.mexp (32 * (33 * s.mexp) + 33) veq0 = .ok q ∧
      (∀ v, 1 ≤ v → v ≤ 32 →
        IsGreatest {k | Equidist (T n r (par s)) (if s.rev then OR n r (par s) else O n r (par s))
          (cyc (T n r (par s)) (den n r s)) v k} (q.veq (v - 1))) ∧
      q.sum = ∑ v ∈ Finset.Icc 1 32, ((s.mexp / v : ℕ) - (q.veq (v - 1) : ℤ)) := by
  obtain ⟨hm, h0, hd⟩ := charpoly_hyps (T n r (par s)) (den n r s)
  rw [finrank_S hs] at hd
  obtain ⟨q, e1, e2, _, e4⟩ := getAllEquidist_correct (linGen_view s.mexp (par s)) (g := s) ⟨hs, rfl⟩ hm h0
    (by rw [hd]; show s.mexp ≤ 2 * s.mexp + 1; omega) (stateBitSize := s.mexp) (by omega) Util.isCalc1pos_32 (bitLen := 32) (by omega)
    (by omega) (fuel := 32 * (33 * s.mexp) + 33) (by rw [hd]) veq0
  exact ⟨q, e1, e2, e4⟩

/-- The parameters of MT19937-like generators meet the hypotheses. -/
example : ∃ s, ctor 19937 0 1 0 0 (fun _ => 0) = some s ∧ ∃ s', setUpParam 5 7 s = some s' ∧
    Inv 624 31 s' := by
  obtain ⟨s, h1, h2⟩ := ctor_setUp 19937 0 1 0 0 (fun _ => 0) (by norm_num) (by norm_num)
  obtain ⟨s', h3, h4, _⟩ := h2 5 7
  exact ⟨s, h1, s', h3, h4⟩

end MTT.MTDC
