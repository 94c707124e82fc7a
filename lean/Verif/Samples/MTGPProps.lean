import Verif.Samples.MTGP
import Verif.Spec.RingHi
import Verif.MT.Props
import Verif.Samples.TinyMTProps
import Verif.Util.Props

/-!
# C52, C53, C54, C60, C62: `mtgp32`

`n` is the number of words, `r` the number of bits of the oldest word that are not part of the state.
-/

namespace MTT.MTGP

open PIS RingHi
open MTRec (upper hi lift lift_bit hi_bit)

variable {n r : ℕ}

/-! ### The tables -/

/-- Specification: the row vector of the lower four bits of `i` times the matrix with the rows `t 0`, …, `t 3`. -/
def comb (t : ℕ → BitVec 32) (i : ℕ) : BitVec 32 :=
  (if i.testBit 0 then t 0 else 0) ^^^ (if i.testBit 1 then t 1 else 0) ^^^
    (if i.testBit 2 then t 2 else 0) ^^^ (if i.testBit 3 then t 3 else 0)

theorem cond_xor (a b : Bool) (x : BitVec 32) : (if (a ^^ b) = true then x else 0) =
    (if a = true then x else 0) ^^^ (if b = true then x else 0) := by
  cases a <;> cases b <;> simp

theorem comb_xor (t : ℕ → BitVec 32) (i j : ℕ) : comb t (i ^^^ j) = comb t i ^^^ comb t j := by
  unfold comb
  simp only [Nat.testBit_xor, cond_xor]
  generalize (if i.testBit 0 = true then t 0 else 0) = a0
  generalize (if i.testBit 1 = true then t 1 else 0) = a1
  generalize (if i.testBit 2 = true then t 2 else 0) = a2
  generalize (if i.testBit 3 = true then t 3 else 0) = a3
  generalize (if j.testBit 0 = true then t 0 else 0) = b0
  generalize (if j.testBit 1 = true then t 1 else 0) = b1
  generalize (if j.testBit 2 = true then t 2 else 0) = b2
  generalize (if j.testBit 3 = true then t 3 else 0) = b3
  ac_rfl

theorem selectXor_comb (src : ℕ → BitVec 32) {i : ℕ} (hi : i < 16) (m : ℕ) :
    Util.selectXor src i (4 + m) = comb src i := by
  induction m with
  | zero =>
    show (((0 ^^^ _) ^^^ _) ^^^ _) ^^^ _ = _
    unfold comb
    rw [show ∀ x : BitVec 32, 0 ^^^ x = x from fun x => BitVec.zero_xor]
  | succ m ih =>
    show Util.selectXor src i (4 + m) ^^^ _ = _
    rw [ih, Nat.testBit_lt_two_pow (lt_of_lt_of_le hi (by
      calc 16 = 2 ^ 4 := by norm_num
        _ ≤ 2 ^ (4 + m) := Nat.pow_le_pow_right (by omega) (by omega)))]
    simp

theorem fillLoop_comb (src : ℕ → BitVec 32) {i : ℕ} (hi : i < 16) : Util.fillLoop src i 31 1 0 0 = comb src i := by
  have := Util.fillLoop_spec src i 31 0 0 (lt_trans hi (by norm_num))
  rw [pow_zero] at this
  rw [this, Util.foldl_selectXor, selectXor_comb src hi 27]
  exact BitVec.zero_xor

theorem fillTable_fold (d src : ℕ → BitVec 32) (m : ℕ) (i : ℕ) :
    (List.range m).foldl
      (fun (d : ℕ → BitVec 32) i => Function.update d (i + 1) (Util.fillLoop src (i + 1) 31 1 0 0)) d i =
      if 1 ≤ i ∧ i ≤ m then Util.fillLoop src i 31 1 0 0 else d i := by
  induction m with
  | zero => rw [List.range_zero, List.foldl_nil, if_neg (by omega)]
  | succ m ih =>
    rw [List.range_succ, List.foldl_append, List.foldl_cons, List.foldl_nil]
    by_cases h : i = m + 1
    · rw [h, Function.update_self, if_pos (by omega)]
    · rw [Function.update_of_ne h, ih]
      by_cases h2 : 1 ≤ i ∧ i ≤ m
      · rw [if_pos h2, if_pos (by omega)]
      · rw [if_neg h2, if_neg (by omega)]

/-- **C52.**  The 16-entry table built from the four rows `src` is the matrix, whatever it contained. -/
theorem fillTable_spec (dist src : ℕ → BitVec 32) (i : ℕ) :
    fillTable dist src 16 i = if i < 16 then comb src i else dist i := by
  unfold fillTable
  rw [fillTable_fold]
  by_cases h0 : i = 0
  · subst h0
    rw [if_neg (by omega), Function.update_self, if_pos (by omega)]
    simp [comb]
  · by_cases h : i < 16
    · rw [if_pos (by omega), if_pos h, fillLoop_comb src h]
    · rw [if_neg (by omega), if_neg h, Function.update_of_ne h0]

/-- The lower four bits of a word. -/
theorem low4_lt (x : BitVec 32) : (x &&& 0x0f).toNat < 16 := by
  rw [BitVec.toNat_and]
  exact lt_of_le_of_lt Nat.and_le_right (by decide)

theorem comb_low4_xor (t : ℕ → BitVec 32) (x y : BitVec 32) : comb t ((x ^^^ y) &&& 0x0f).toNat =
    comb t (x &&& 0x0f).toNat ^^^ comb t (y &&& 0x0f).toNat := by
  rw [and_xor, BitVec.toNat_xor, comb_xor]

/-! ### State and parameters -/

/-- The effective state of an object: the upper bits of the oldest word, and the other words. -/
def den (n r : ℕ) (s : St) : S 32 n r := proj n r (Ring.vec n s.state s.idx)

/-- Objects built by the constructor, `setUpParam` and `setUpTempering` for `n` words and `r` unused bits. -/
structure Inv (n r : ℕ) (s : St) : Prop where
  size : s.size = n
  mexp : s.mexp + r = 32 * n
  rlt : r < 32
  idx : s.idx < n
  mask : s.mask = upper 32 r
  pos2 : 2 ≤ s.pos
  posn : s.pos < n
  p : ∀ i, i < 16 → s.p i = comb s.tbl i
  tp : ∀ i, i < 16 → s.tp i = comb s.tmp i

/-- Parameters: `pos`, the shifts, the rows of the recursion matrix and of the tempering matrix, output order. -/
structure Par where
  pos : ℕ
  sh1 : ℕ
  sh2 : ℕ
  tbl : ℕ → BitVec 32
  tmp : ℕ → BitVec 32
  rev : Bool

def par (s : St) : Par := ⟨s.pos, s.sh1, s.sh2, s.tbl, s.tmp, s.rev⟩

/-- `x` plus its lower four bits times the matrix `t`. -/
def mat (t : ℕ → BitVec 32) (x : BitVec 32) : BitVec 32 := x ^^^ comb t (x &&& 0x0f).toNat

theorem mat_xor (t : ℕ → BitVec 32) (x y : BitVec 32) : mat t (x ^^^ y) = mat t x ^^^ mat t y := by
  unfold mat; rw [comb_low4_xor]
  generalize comb t (x &&& 0x0f).toNat = a
  generalize comb t (y &&& 0x0f).toNat = b
  ac_rfl

/-- The recurrence: the new word from the effective part of the oldest word, the next one and word `pos`. -/
def new (p : Par) (x0 x1 xp : BitVec 32) : BitVec 32 :=
  mat p.tbl (((x0 ^^^ x1) ^^^ ((x0 ^^^ x1) <<< p.sh1)) ^^^ (xp >>> p.sh2))

theorem new_xor (p : Par) (x0 x1 xp y0 y1 yp : BitVec 32) :
    new p (x0 ^^^ y0) (x1 ^^^ y1) (xp ^^^ yp) = new p x0 x1 xp ^^^ new p y0 y1 yp := by
  unfold new
  rw [← mat_xor]
  congr 1
  rw [show x0 ^^^ y0 ^^^ (x1 ^^^ y1) = (x0 ^^^ x1) ^^^ (y0 ^^^ y1) by ac_rfl, shl_xor, shr_xor]
  generalize (x0 ^^^ x1) <<< p.sh1 = a
  generalize (y0 ^^^ y1) <<< p.sh1 = b
  generalize xp >>> p.sh2 = c
  generalize yp >>> p.sh2 = d
  ac_rfl

def newOf (p : Par) (s : S 32 n r) : BitVec 32 := new p (word s 0) (word s 1) (word s p.pos)

theorem newOf_add (p : Par) (s t : S 32 n r) : newOf p (s + t) = newOf p s ^^^ newOf p t := by
  unfold newOf; rw [word_add, word_add, word_add, new_xor]

/-- Transition. -/
def T (n r : ℕ) (p : Par) : S 32 n r →ₗ[ZMod 2] S 32 n r :=
  linOf (fun s => shift s (newOf p s)) (fun s t => by rw [newOf_add, shift_add])

/-- The four bits which select the tempering: the exclusive or of the lower half bytes of the four bytes of `t`. -/
def fold4 (t : BitVec 32) : BitVec 32 := (t ^^^ (t >>> 16)) ^^^ ((t ^^^ (t >>> 16)) >>> 8)

theorem fold4_xor (x y : BitVec 32) : fold4 (x ^^^ y) = fold4 x ^^^ fold4 y := by
  unfold fold4; rw [MT.shr_step_xor 16, MT.shr_step_xor 8]

/-- The output word. -/
def out (p : Par) (s : S 32 n r) : BitVec 32 :=
  newOf p s ^^^ comb p.tmp (fold4 (word s (p.pos - 1)) &&& 0x0f).toNat

theorem out_add (p : Par) (s t : S 32 n r) : out p (s + t) = out p s ^^^ out p t := by
  unfold out
  rw [newOf_add, word_add, fold4_xor, comb_low4_xor]
  generalize comb p.tmp (fold4 (word s (p.pos - 1)) &&& 0x0f).toNat = a
  generalize comb p.tmp (fold4 (word t (p.pos - 1)) &&& 0x0f).toNat = b
  ac_rfl

/-- Output, most significant bit first. -/
def O (n r : ℕ) (p : Par) : S 32 n r →ₗ[ZMod 2] V :=
  linOf (fun s => bits (out p s)) (fun s t => by rw [out_add, bits_xor])

/-- Output, least significant bit first. -/
def OR (n r : ℕ) (p : Par) : S 32 n r →ₗ[ZMod 2] V :=
  linOf (fun s => bits (out p s).reverse) (fun s t => by rw [out_add, reverse_xor, bits_xor])

/-! ### `generate` -/

theorem nextState_eq {s : St} (hs : Inv n r s) : nextState s =
    { s with idx := (s.idx + 1) % n,
             state := Function.update s.state ((s.idx + 1) % n) (newOf (par s) (den n r s)) } := by
  have hn : 0 < n := by have := hs.posn; omega
  have h1 : 1 < n := by have := hs.posn; have := hs.pos2; omega
  have e0 : s.state ((s.idx + 1) % n) &&& s.mask = word (den n r s) 0 := by
    unfold den
    rw [word_proj0 _ hn, hs.mask, ← Ring.read0]
  have e1 : s.state (((s.idx + 1) % n + 1) % n) = word (den n r s) 1 := by
    unfold den
    rw [word_proj _ le_rfl h1]; exact Ring.read s.state s.idx ⟨1, h1⟩
  have e2 : s.state (((s.idx + 1) % n + s.pos) % n) = word (den n r s) s.pos := by
    unfold den
    rw [word_proj _ (by have := hs.pos2; omega) hs.posn]; exact Ring.read s.state s.idx ⟨s.pos, hs.posn⟩
  unfold nextState
  dsimp only
  unfold recur
  dsimp only
  rw [hs.size, e2, e1, e0, hs.p _ (low4_lt _)]
  rfl

theorem temper_eq {s : St} (hs : Inv n r s) : temper (nextState s) = out (par s) (den n r s) := by
  have hn : 0 < n := by have := hs.posn; omega
  have h2 := hs.pos2
  have hp : s.pos - 1 < n := by have := hs.posn; omega
  have e : (s.idx + 1) % n + s.pos - 1 = (s.idx + 1) % n + (s.pos - 1) := by omega
  have hne : ((s.idx + 1) % n + (s.pos - 1)) % n ≠ (s.idx + 1) % n := by
    intro h
    have := Ring.pos_inj (i := (s.idx + 1) % n) (k := 0) hp hn (by
      rw [h]; exact (Nat.mod_mod _ _).symm)
    omega
  have et : s.state (((s.idx + 1) % n + (s.pos - 1)) % n) = word (den n r s) (s.pos - 1) := by
    unfold den
    rw [word_proj _ (by omega) hp]; exact Ring.read s.state s.idx ⟨s.pos - 1, hp⟩
  rw [nextState_eq hs]
  unfold temper
  dsimp only
  rw [hs.size, e, Function.update_self, Function.update_of_ne hne, et, hs.tp _ (low4_lt _)]
  rfl

theorem generate_spec {s : St} (hs : Inv n r s) : (Inv n r (generate s).1 ∧ par (generate s).1 = par s) ∧
    den n r (generate s).1 = T n r (par s) (den n r s) ∧ (generate s).2 = out (par s) (den n r s) := by
  refine ⟨?_, ?_, temper_eq hs⟩
  · show Inv n r (nextState s) ∧ par (nextState s) = par s
    rw [nextState_eq hs]
    exact ⟨⟨hs.size, hs.mexp, hs.rlt, Nat.mod_lt _ (by have := hs.posn; omega), hs.mask, hs.pos2, hs.posn, hs.p,
      hs.tp⟩, rfl⟩
  · show den n r (nextState s) = _
    rw [nextState_eq hs]
    unfold den
    dsimp only
    rw [Ring.vec_store, proj_shiftIn (by have := hs.posn; have := hs.pos2; omega)]
    rfl

theorem add_inv {a b : St} (ha : Inv n r a) : Inv n r (add a b) ∧ par (add a b) = par a :=
  ⟨⟨ha.size, ha.mexp, ha.rlt, ha.idx, ha.mask, ha.pos2, ha.posn, ha.p, ha.tp⟩, rfl⟩

theorem add_den {a b : St} (ha : Inv n r a) : den n r (add a b) = den n r a + den n r b := by
  unfold den add
  rw [ha.size, ← proj_add]
  congr 1
  exact Ring.vec_add a.state b.state a.idx b.idx

theorem zero_inv {s : St} (hs : Inv n r s) : Inv n r (setZero s) ∧ par (setZero s) = par s :=
  ⟨⟨hs.size, hs.mexp, hs.rlt, hs.idx, hs.mask, hs.pos2, hs.posn, hs.p, hs.tp⟩, rfl⟩

theorem zero_den {s : St} (hs : Inv n r s) : den n r (setZero s) = 0 := by
  unfold den setZero
  rw [hs.size]
  dsimp only
  rw [Ring.vec_clear, proj_zero]

theorem allOnes32 : (~~~ (0 : BitVec 32)) = BitVec.allOnes 32 := by decide

/-- **C52, C54.**  With normal output order the class satisfies the contract of a linear generator. -/
theorem linGen (mexp : ℕ) (p : Par) (hp : p.rev = false) :
    LinGen (ops mexp) (fun s => Inv n r s ∧ par s = p) (den n r) (T n r p) (O n r p) where
  gen_inv s hs := ⟨(generate_spec hs.1).1.1, (generate_spec hs.1).1.2.trans hs.2⟩
  gen_den s hs := by rw [← hs.2]; exact (generate_spec hs.1).2.1
  gen_out s hs := by
    show bits (generate s).2 = _
    rw [(generate_spec hs.1).2.2, hs.2]; rfl
  genV_inv v s _ _ hs := ⟨(generate_spec hs.1).1.1, (generate_spec hs.1).1.2.trans hs.2⟩
  genV_den v s _ _ hs := by rw [← hs.2]; exact (generate_spec hs.1).2.1
  genV_out v s _ hv hs := by
    have hr : s.rev = false := (congrArg Par.rev hs.2).trans hp
    simp only [ops, generateV, hr, allOnes32]
    rw [if_neg (by decide), bits_and_mask _ hv, (generate_spec hs.1).2.2, hs.2]
    rfl
  add_inv a b ha _ := ⟨(add_inv ha.1).1, (add_inv ha.1).2.trans ha.2⟩
  add_den a b ha _ := add_den ha.1
  zero_inv s hs := ⟨(zero_inv hs.1).1, (zero_inv hs.1).2.trans hs.2⟩
  zero_den s hs := zero_den hs.1

/-- **C52, C54.**  In either output order the class, as seen through `generate(v)`, satisfies the contract. -/
theorem linGen_view (mexp : ℕ) (p : Par) :
    LinGen (view (ops mexp)) (fun s => Inv n r s ∧ par s = p) (den n r) (T n r p)
      (if p.rev then OR n r p else O n r p) where
  gen_inv s hs := ⟨(generate_spec hs.1).1.1, (generate_spec hs.1).1.2.trans hs.2⟩
  gen_den s hs := by rw [← hs.2]; exact (generate_spec hs.1).2.1
  gen_out s hs := by
    have hm : (BitVec.allOnes 32) <<< (32 - 32) = BitVec.allOnes 32 := by decide
    have hr : s.rev = p.rev := congrArg Par.rev hs.2
    simp only [view, ops, generateV, allOnes32, hm, BitVec.and_allOnes, hr]
    rw [(generate_spec hs.1).2.2, (Util.reverse_bit_correct.1 _).1, hs.2]
    split <;> rfl
  genV_inv v s _ _ hs := ⟨(generate_spec hs.1).1.1, (generate_spec hs.1).1.2.trans hs.2⟩
  genV_den v s _ _ hs := by rw [← hs.2]; exact (generate_spec hs.1).2.1
  genV_out v s _ hv hs := by
    have hr : s.rev = p.rev := congrArg Par.rev hs.2
    simp only [view, ops, generateV, allOnes32, hr]
    rw [bits_and_mask _ hv, (generate_spec hs.1).2.2, (Util.reverse_bit_correct.1 _).1, hs.2]
    congr 1
    split <;> rfl
  add_inv a b ha _ := ⟨(add_inv ha.1).1, (add_inv ha.1).2.trans ha.2⟩
  add_den a b ha _ := add_den ha.1
  zero_inv s hs := ⟨(zero_inv hs.1).1, (zero_inv hs.1).2.trans hs.2⟩
  zero_den s hs := zero_den hs.1

/-- The dimension of the effective state space is what `bitSize` returns. -/
theorem finrank_S {s : St} (hs : Inv n r s) : Module.finrank (ZMod 2) (S 32 n r) = (ops s.mexp).bitSize := by
  have := RingHi.finrank (w := 32) (n := n) (r := r) (by have := hs.posn; omega) (by have := hs.rlt; omega)
  have h2 := hs.mexp
  show _ = s.mexp
  omega

/-- The transition is invertible as soon as the recursion matrix is. -/
theorem T_bijective (p : Par) (hr : r < 32) (h2 : 2 ≤ p.pos) (hn : p.pos < n) (hsh : 1 ≤ p.sh1)
    (ha : ∀ x, mat p.tbl x = 0 → x = 0) : Function.Bijective (T n r p) := by
  rw [← Finite.injective_iff_bijective, ← LinearMap.ker_eq_bot, LinearMap.ker_eq_bot']
  intro s hs
  obtain ⟨g1, g2, g3⟩ := shift_zero (s := s) (v := newOf p s) (by omega) hs
  have g4 := ha _ g3
  rw [g2 _ h2 hn] at g4
  have g5 : (word s 0 ^^^ word s 1) ^^^ ((word s 0 ^^^ word s 1) <<< p.sh1) = 0 := by
    simpa using g4
  have g6 : word s 0 ^^^ word s 1 = 0 := shl_inj hsh (by rw [g5]; simp)
  have g7 : word s 1 = 0 := by
    apply BitVec.eq_of_getLsbD_eq
    intro i hi'
    rw [show (0 : BitVec 32).getLsbD i = false from BitVec.getLsbD_zero]
    have h0 := congrArg (fun z : BitVec 32 => z.getLsbD i) g6
    simp only [BitVec.getLsbD_xor] at h0
    rw [show (0 : BitVec 32).getLsbD i = false from BitVec.getLsbD_zero] at h0
    by_cases hir : i < r
    · have : (word s 0).getLsbD i = false := by
        unfold word
        rw [if_pos rfl, lift_bit]
        have : decide (r ≤ i) = false := by simpa using hir
        rw [this]; simp
      rw [this] at h0
      simpa using h0
    · have := congrArg (fun z : BitVec (32 - r) => z.getLsbD (i - r)) g1
      simp only [hi_bit] at this
      rw [show r + (i - r) = i by omega] at this
      have h3 : decide (i - r < 32 - r) = true := by simp; omega
      rw [h3, show (0 : BitVec (32 - r)).getLsbD (i - r) = false from BitVec.getLsbD_zero] at this
      simpa using this
  have g8 : word s 0 = 0 := by
    rw [g7] at g6
    exact (BitVec.xor_zero (x := word s 0)).symm.trans g6
  refine RingHi.eq_zero (by omega) (fun j hj => ?_) (by omega)
  rcases Nat.lt_or_ge j 2 with h | h
  · interval_cases j
    · exact g8
    · exact g7
  · exact g2 j h hj

/-! ### `isZero` -/

/-- What `isZero` tests. -/
theorem isZero_iff {s : St} (hs : Inv n r s) : isZero s = true ↔
    (Ring.vec n s.state s.idx ⟨n - 1, by have := hs.posn; omega⟩).val &&& s.mask0 = 0 ∧
      ∀ j : Fin n, (j : ℕ) + 1 < n → Ring.vec n s.state s.idx j = 0 := by
  unfold isZero
  rw [← Ring.read_last _ hs.idx, hs.size]
  by_cases h : s.state s.idx &&& s.mask0 = 0
  · rw [if_neg (by simpa using h), List.all_eq_true]
    constructor
    · intro h1
      refine ⟨h, fun j hj => ?_⟩
      exact Wd.ext (eq_of_beq (h1 j (List.mem_range.2 (by omega))))
    · rintro ⟨-, h1⟩ i hi
      rw [List.mem_range] at hi
      exact beq_iff_eq.2 (congrArg Wd.val (h1 ⟨i, by omega⟩ (show i + 1 < n by omega)))
  · rw [if_pos (by simpa using h)]
    constructor
    · intro h'; cases h'
    · rintro ⟨h1, -⟩; exact absurd h1 h

/-- **C60**, the part of it that holds: whatever the uninitialised member contains, a zero buffer is reported
zero.  Missing: the converse, and that zero effective states are reported zero (`isZero_wrong`). -/
theorem isZero_partial {s : St} (hs : Inv n r s) (h : ∀ k, k < n → s.state k = 0) : isZero s = true := by
  rw [isZero_iff hs]
  have := (Ring.vec_eq_zero (n := n) s.state s.idx).2 h
  rw [this]
  exact ⟨BitVec.zero_and, fun _ _ => rfl⟩

/-- A good set of parameters for 96 bits in 4 words (31 unused bits would need 97), used in counterexamples. -/
def smallSt (m0 : BitVec 32) (st : ℕ → BitVec 32) : St :=
  ⟨97, 2, 13, 4, 0, upper 32 31, fun _ => 0, fun _ => 0, fun _ => 0, fun _ => 0, 4, 3, false, m0, st⟩

theorem smallSt_inv (m0 : BitVec 32) (st : ℕ → BitVec 32) : Inv 4 31 (smallSt m0 st) :=
  ⟨rfl, rfl, by omega, by show 3 < 4; omega, rfl, by show 2 ≤ 2; omega, by show 2 < 4; omega,
    fun i _ => by simp [smallSt, comb], fun i _ => by simp [smallSt, comb]⟩

/-- **C60 (negation).**  `isZero` depends on the uninitialised member `mask` — the same contents are reported
zero or not zero, and a non-zero effective state can be reported zero — and it looks at the newest instead of
the oldest word, so that a zero effective state is not reported zero for any value of that member. -/
theorem isZero_wrong :
    (∃ st, isZero (smallSt 0 st) = true ∧ isZero (smallSt 1 st) = false ∧ den 4 31 (smallSt 0 st) ≠ 0) ∧
    (∃ st, den 4 31 (smallSt 0 st) = 0 ∧ ∀ m0, isZero (smallSt m0 st) = false) := by
  constructor
  · refine ⟨fun k => if k = 3 then 1 else 0, by decide, by decide, fun h => ?_⟩
    have := congrFun (congrArg Prod.snd h) (⟨2, by omega⟩ : Fin 3)
    have h3 : (1 : BitVec 32) = 0 := this
    exact absurd h3 (by decide)
  · refine ⟨fun k => if k = 0 then 1 else 0, ?_, fun m0 => ?_⟩
    · refine Prod.ext ?_ ?_
      · show Wd.of (hi 31 (1 : BitVec 32)) = Wd.of 0
        decide
      · funext j
        revert j
        show ∀ j : Fin 3, Wd.of (if (3 + ((j : ℕ) + 1 + 1)) % 4 = 0 then (1 : BitVec 32) else 0) = Wd.of 0
        decide
    · rw [Bool.eq_false_iff, Ne, isZero_iff (smallSt_inv m0 _)]
      rintro ⟨-, h⟩
      have h3 := h ⟨0, by omega⟩ (by decide)
      have h4 : ∀ x : BitVec 32, Wd.of x = 0 → x ≠ 1 := fun x hx h => by
        rw [show x = 0 from hx] at h; exact absurd h (by decide)
      exact h4 _ h3 (by show (if _ then _ else _) = _; rw [if_pos (by show (3 + (0 + 1)) % 4 = 0; norm_num)])

/-! ### Constructor and `setUpParam` -/

/-- The sizes for which `setUpParam` finds a position. -/
def SizeOK (size : ℕ) : Prop :=
  (size ≤ 100 ∧ 8 ≤ size) ∨ (100 < size ∧ size ≤ 2 ^ 31 ∧ ∃ k, 2 ^ k + 4 ≤ size ∧ size < 2 ^ (k + 1))

theorem posEnd_spec {size : ℕ} (h : SizeOK size) : ∃ e : ℤ, posEnd size = some e ∧ 3 ≤ e ∧ e < size ∧
    e - 3 < 2147483647 := by
  unfold posEnd
  rcases h with ⟨h1, h2⟩ | ⟨h1, hb, k, h2, h3⟩
  · rw [if_neg (by omega)]
    exact ⟨_, rfl, by omega, by omega, by omega⟩
  · rw [if_pos (by omega)]
    obtain ⟨k', e, h4, h5⟩ := Util.floor2p_correct.1 size (by omega) size le_rfl
    have hk : k' = k := by
      have a : k' < k + 1 := (Nat.pow_lt_pow_iff_right (by omega)).1 (lt_of_le_of_lt h4 h3)
      have b : k < k' + 1 := (Nat.pow_lt_pow_iff_right (by omega)).1 (lt_of_le_of_lt (show 2 ^ k ≤ size by omega) h5)
      omega
    subst hk
    rw [e]
    have h6 : 1 ≤ 2 ^ k' := Nat.one_le_two_pow
    refine ⟨_, rfl, ?_, ?_, ?_⟩ <;> push_cast <;>
      have h7 : ((2 ^ k' : ℕ) : ℤ) = (2 : ℤ) ^ k' := by push_cast; rfl
    all_goals omega

/-- **C52.**  For every size in the range of the program the constructor and `setUpParam` succeed and give an
object to which the theorems apply; `pos` is at least 3; the tables are those of the printed rows. -/
theorem ctor_spec (mexp : ℕ) (id : BitVec 32) (jp j1 j2 : ℕ) (jm : BitVec 32) (junk : ℕ → BitVec 32)
    (h : mexp % 32 ≠ 0) : ∃ s, ctor mexp id jp j1 j2 jm junk = some s ∧ s.mexp = mexp ∧ s.id = id ∧
      s.size = mexp / 32 + 1 ∧ s.idx = mexp / 32 ∧ s.mask = upper 32 (32 - mexp % 32) ∧ s.rev = false ∧
      (∀ i, s.p i = comb s.tbl i) ∧ (∀ i, s.tp i = comb s.tmp i) := by
  have hk : 32 * (mexp / 32 + 1) - mexp = 32 - mexp % 32 := by omega
  unfold ctor
  dsimp only
  rw [hk, if_pos (by omega)]
  exact ⟨_, rfl, rfl, rfl, rfl, rfl, rfl, rfl, fun i => by simp [seed, comb], fun i => by simp [seed, comb]⟩

/-- What `setUpParam` needs of an object. -/
structure Pre (n r : ℕ) (s : St) : Prop where
  size : s.size = n
  mexp : s.mexp + r = 32 * n
  rlt : r < 32
  idx : s.idx < n
  mask : s.mask = upper 32 r
  tp : ∀ i, i < 16 → s.tp i = comb s.tmp i

theorem Inv.pre {s : St} (h : Inv n r s) : Pre n r s := ⟨h.size, h.mexp, h.rlt, h.idx, h.mask, h.tp⟩

theorem setUpParam_spec {s : St} (hs : Pre n r s) (hn : SizeOK n) (u0 u1 u2 u3 u4 : BitVec 32) :
    ∃ s', setUpParam u0 u1 u2 u3 u4 s = some s' ∧ Inv n r s' ∧ 3 ≤ s'.pos ∧ s'.sh1 = 13 ∧ s'.sh2 = 4 ∧
      s'.id = s.id ∧ s'.mexp = s.mexp ∧ s'.state = s.state ∧ s'.idx = s.idx ∧ s'.rev = s.rev ∧
      s'.tmp = s.tmp ∧ s'.tp = s.tp ∧
      s'.tbl 0 = entry 0 u1 ∧ s'.tbl 1 = entry 1 u2 ∧
      s'.tbl 2 = (entry 2 u3 &&& (0xfff0000f : BitVec 32)) ^^^ ((s.id <<< 4) &&& (0x000ffff0 : BitVec 32)) ∧
      s'.tbl 3 = (entry 3 u4 &&& (0x0000ffff : BitVec 32)) ^^^ (s.id &&& (0xffff0000 : BitVec 32)) := by
  obtain ⟨e, h1, h2, h3, h4⟩ := posEnd_spec hn
  obtain ⟨pos, h5, h6, h7, -⟩ := (Util.get_range_correct 3 e h2 h4).1 u0.toNat
  unfold setUpParam
  rw [hs.size, h1]
  dsimp only
  rw [h5]
  refine ⟨_, rfl, ⟨rfl, hs.mexp, hs.rlt, hs.idx, hs.mask, ?_, ?_, ?_, hs.tp⟩, ?_, rfl, rfl, rfl, rfl, rfl, rfl,
    rfl, rfl, rfl, rfl, rfl, rfl, rfl⟩
  · show 2 ≤ pos.toNat; omega
  · show pos.toNat < n; omega
  · intro i hi
    show fillTable _ _ 16 i = _
    rw [fillTable_spec, if_pos hi]
  · show 3 ≤ pos.toNat; omega

/-- The seven exponents the program accepts (parse_opt.cpp:79-89). -/
theorem sizeOK_accepted : ∀ mexp ∈ [3217, 4423, 11213, 23209, 44497, 110503, 216091],
    SizeOK (mexp / 32 + 1) ∧ mexp % 32 ≠ 0 := by
  intro mexp h
  simp only [List.mem_cons, List.not_mem_nil, or_false] at h
  rcases h with rfl | rfl | rfl | rfl | rfl | rfl | rfl
  · exact ⟨Or.inr ⟨by norm_num, by norm_num, 6, by norm_num, by norm_num⟩, by norm_num⟩
  · exact ⟨Or.inr ⟨by norm_num, by norm_num, 7, by norm_num, by norm_num⟩, by norm_num⟩
  · exact ⟨Or.inr ⟨by norm_num, by norm_num, 8, by norm_num, by norm_num⟩, by norm_num⟩
  · exact ⟨Or.inr ⟨by norm_num, by norm_num, 9, by norm_num, by norm_num⟩, by norm_num⟩
  · exact ⟨Or.inr ⟨by norm_num, by norm_num, 10, by norm_num, by norm_num⟩, by norm_num⟩
  · exact ⟨Or.inr ⟨by norm_num, by norm_num, 11, by norm_num, by norm_num⟩, by norm_num⟩
  · exact ⟨Or.inr ⟨by norm_num, by norm_num, 12, by norm_num, by norm_num⟩, by norm_num⟩

/-- Outside these sizes there is no value: `get_range` ends the process. -/
theorem setUpParam_none {s : St} (h1 : 1 ≤ s.size) (h31 : s.size ≤ 2 ^ 31) (h : ¬ SizeOK s.size)
    (u0 u1 u2 u3 u4 : BitVec 32) : setUpParam u0 u1 u2 u3 u4 s = none := by
  have key : ∃ e : ℤ, posEnd s.size = some e ∧ e < 3 := by
    unfold posEnd
    by_cases h100 : s.size > 100
    · rw [if_pos h100]
      obtain ⟨k, e, h4, h5⟩ := Util.floor2p_correct.1 s.size h1 s.size le_rfl
      rw [e]
      refine ⟨_, rfl, ?_⟩
      by_contra hc
      refine h (Or.inr ⟨h100, h31, k, ?_, h5⟩)
      push_cast at hc
      have h7 : ((2 ^ k : ℕ) : ℤ) = (2 : ℤ) ^ k := by push_cast; rfl
      omega
    · rw [if_neg h100]
      refine ⟨_, rfl, ?_⟩
      by_contra hc
      exact h (Or.inl ⟨by omega, by omega⟩)
  obtain ⟨e, h2, h3⟩ := key
  unfold setUpParam
  rw [h2]
  dsimp only
  rw [(Util.get_range_no_value u0.toNat 3 e).1 h3]

/-- **C62.**  The identifier can be read off the printed rows `tbl[2]`, `tbl[3]`: generators created for different
identifiers have different recursion tables. -/
theorem id_recoverable {s s' : St} {u0 u1 u2 u3 u4 : BitVec 32} (hs : Pre n r s) (hn : SizeOK n)
    (h : setUpParam u0 u1 u2 u3 u4 s = some s') :
    s.id = (s'.tbl 3 &&& (0xffff0000 : BitVec 32)) ||| ((s'.tbl 2 >>> 4) &&& (0x0000ffff : BitVec 32)) := by
  obtain ⟨s'', e, -, -, -, -, -, -, -, -, -, -, -, -, -, h2, h3⟩ := setUpParam_spec hs hn u0 u1 u2 u3 u4
  rw [h, Option.some.injEq] at e
  subst e
  rw [h2, h3]
  generalize entry 2 u3 = a
  generalize entry 3 u4 = b
  generalize s.id = d
  apply BitVec.eq_of_getLsbD_eq
  intro i hi
  simp only [BitVec.getLsbD_or, BitVec.getLsbD_and, BitVec.getLsbD_xor, BitVec.getLsbD_shiftLeft,
    BitVec.getLsbD_ushiftRight]
  have k1 : ∀ i : Fin 32, (0xffff0000 : BitVec 32).getLsbD i = decide (16 ≤ (i : ℕ)) := by decide
  have k2 : ∀ i : Fin 32, (0x0000ffff : BitVec 32).getLsbD i = decide ((i : ℕ) < 16) := by decide
  have k3 : ∀ i : Fin 16, (0x000ffff0 : BitVec 32).getLsbD (4 + (i : ℕ)) = true := by decide
  have k4 : ∀ i : Fin 16, (0xfff0000f : BitVec 32).getLsbD (4 + (i : ℕ)) = false := by decide
  rw [k1 ⟨i, hi⟩, k2 ⟨i, hi⟩]
  by_cases h16 : i < 16
  · rw [k3 ⟨i, h16⟩, k4 ⟨i, h16⟩]
    have e1 : decide (16 ≤ i) = false := by simpa using h16
    have e2 : decide (i < 16) = true := by simpa using h16
    have e3 : decide (4 + i < 32) = true := by simp; omega
    have e5 : 4 + i - 4 = i := by omega
    simp [e1, e2, e3, e5]
  · have e1 : decide (16 ≤ i) = true := by simpa using h16
    have e2 : decide (i < 16) = false := by simpa using h16
    simp [e1, e2]

/-- The rows never map a unit vector of the lower half byte to itself there: `I + A` has no zero row. -/
theorem tbl_ne {s s' : St} {u0 u1 u2 u3 u4 : BitVec 32} (hs : Pre n r s) (hn : SizeOK n)
    (h : setUpParam u0 u1 u2 u3 u4 s = some s') :
    ∀ k, k < 4 → s'.tbl k &&& 0x0f ≠ (1 : BitVec 32) <<< k := by
  obtain ⟨s'', e, -, -, -, -, -, -, -, -, -, -, -, h0, h1, h2, h3⟩ := setUpParam_spec hs hn u0 u1 u2 u3 u4
  rw [h, Option.some.injEq] at e
  subst e
  have key : ∀ k, k < 4 → ∀ u, entry k u &&& 0x0f ≠ (1 : BitVec 32) <<< k := by
    intro k hk u
    unfold entry
    split
    · next hu =>
      rw [and_xor, hu]
      interval_cases k <;> decide
    · next hu => exact hu
  have m2 : ∀ a d : BitVec 32, ((a &&& (0xfff0000f : BitVec 32)) ^^^ (d &&& (0x000ffff0 : BitVec 32))) &&& 0x0f = a &&& 0x0f := by
    intro a d
    rw [and_xor, BitVec.and_assoc, BitVec.and_assoc,
      show (0xfff0000f : BitVec 32) &&& 0x0f = 0x0f by decide,
      show (0x000ffff0 : BitVec 32) &&& 0x0f = 0 by decide]
    simp
  have m3 : ∀ a d : BitVec 32, ((a &&& (0x0000ffff : BitVec 32)) ^^^ (d &&& (0xffff0000 : BitVec 32))) &&& 0x0f = a &&& 0x0f := by
    intro a d
    rw [and_xor, BitVec.and_assoc, BitVec.and_assoc,
      show (0x0000ffff : BitVec 32) &&& 0x0f = 0x0f by decide,
      show (0xffff0000 : BitVec 32) &&& 0x0f = 0 by decide]
    simp
  intro k hk
  interval_cases k
  · rw [h0]; exact key 0 (by omega) _
  · rw [h1]; exact key 1 (by omega) _
  · rw [h2, m2]; exact key 2 (by omega) _
  · rw [h3, m3]; exact key 3 (by omega) _

/-! ### Tempering patterns -/

theorem setBits (mask pattern x : BitVec 32) (i : ℕ) (hi : i < 32) :
    ((x &&& ~~~ mask) ||| (pattern &&& mask)).getLsbD i =
      if mask.getLsbD i = true then pattern.getLsbD i else x.getLsbD i := by
  rw [BitVec.getLsbD_or, BitVec.getLsbD_and, BitVec.getLsbD_and, BitVec.getLsbD_not]
  cases mask.getLsbD i <;> simp [hi]

/-- **C53** for `mtgp32`: exactly the bits under the mask of the selected row are replaced; a second call under
the same mask leaves no trace of the first; nothing else changes. -/
theorem setPat_spec (mask pattern : BitVec 32) (k : ℕ) (s : St) :
    (∀ j i, i < 32 → ((setTemperingPattern mask pattern k s).tmp j).getLsbD i =
      if j = k ∧ mask.getLsbD i = true then pattern.getLsbD i else (s.tmp j).getLsbD i) ∧
    (∀ p', setTemperingPattern mask pattern k (setTemperingPattern mask p' k s) =
      setTemperingPattern mask pattern k s) ∧
    ∃ t, setTemperingPattern mask pattern k s = { s with tmp := t } := by
  refine ⟨fun j i hi => ?_, fun p' => ?_, _, rfl⟩
  · unfold setTemperingPattern
    dsimp only
    by_cases hj : j = k
    · subst hj
      rw [Function.update_self, setBits _ _ _ _ hi]
      simp
    · rw [Function.update_of_ne hj]
      simp [hj]
  · unfold setTemperingPattern
    dsimp only
    rw [Function.update_self, Function.update_idem]
    congr 2
    apply BitVec.eq_of_getLsbD_eq
    intro i hi
    rw [setBits _ _ _ _ hi, setBits _ _ _ _ hi, setBits _ _ _ _ hi]
    split <;> rfl

/-- `setUpTempering` makes the tempering table the matrix of the current rows. -/
theorem setUpTempering_spec (s : St) : (∀ i, i < 16 → (setUpTempering s).tp i = comb s.tmp i) ∧
    ∃ t, setUpTempering s = { s with tp := t } := by
  refine ⟨fun i hi => ?_, _, rfl⟩
  show fillTable _ _ 16 i = _
  rw [fillTable_spec, if_pos hi]

/-- **C22–C24 for `mtgp32`** in both output orders: the numbers delivered for the effective state. -/
theorem equidist {s : St} (hs : Inv n r s) (veq0 : ℕ → ℕ) :
    ∃ q, getAllEquidist (ops s.mexp) Util.calc1posWrap32 s 32 s.mexp (32 * (33 * s.mexp) + 33) veq0 = .ok q ∧
      (∀ v, 1 ≤ v → v ≤ 32 →
        IsGreatest {k | Equidist (T n r (par s)) (if s.rev then OR n r (par s) else O n r (par s))
          (cyc (T n r (par s)) (den n r s)) v k} (q.veq (v - 1))) ∧
      q.sum = ∑ v ∈ Finset.Icc 1 32, ((s.mexp / v : ℕ) - (q.veq (v - 1) : ℤ)) := by
  obtain ⟨hm, h0, hd⟩ := charpoly_hyps (T n r (par s)) (den n r s)
  have hd : (T n r (par s)).charpoly.natDegree = s.mexp := hd.trans (finrank_S hs)
  obtain ⟨q, e1, e2, _, e4⟩ := getAllEquidist_correct (linGen_view s.mexp (par s)) (g := s) ⟨hs, rfl⟩ hm h0
    (by rw [hd]; show s.mexp ≤ 2 * s.mexp + 1; omega) (stateBitSize := s.mexp) (by omega) Util.isCalc1pos_32
    (bitLen := 32) (by omega) (by omega) (fuel := 32 * (33 * s.mexp) + 33) (by rw [hd]) veq0
  exact ⟨q, e1, e2, e4⟩

/-- The objects of the program for the exponent 11213 meet the hypotheses. -/
example (id u0 u1 u2 u3 u4 : BitVec 32) : ∃ s s', ctor 11213 id 0 0 0 0 (fun _ => 0) = some s ∧
    setUpParam u0 u1 u2 u3 u4 s = some s' ∧ Inv 351 19 s' := by
  obtain ⟨s, h1, h2, h3, h4, h5, h6, h7, h8, h9⟩ := ctor_spec 11213 id 0 0 0 0 (fun _ => 0) (by norm_num)
  obtain ⟨s', g1, g2, -⟩ := setUpParam_spec (n := 351) (r := 19) (s := s)
    ⟨h4, by rw [h2], by norm_num, by rw [h5]; norm_num, h6, fun i _ => h9 i⟩
    (sizeOK_accepted 11213 (by simp)).1 u0 u1 u2 u3 u4
  exact ⟨s, s', h1, g1, g2⟩

end MTT.MTGP
