import Verif.MT.Seeding

/-!
# Generation by the Mersenne Twisters: helper lemmas
-/

namespace MTT.MT

open MTRec

variable {w : ℕ}

/-! ### Sequences with given initial words (specification) -/

/-- Shift a window of `n` words by one place. -/
def slide (P : MTPar w) (f : ℕ → BitVec w) : ℕ → BitVec w := fun j =>
  if j + 1 < P.n then f (j + 1) else f P.m ^^^ twist P.a (join P.r (f 0) (f 1))

/-- The solution of the recurrence with initial words `f 0, …, f (n-1)`. -/
def ext (P : MTPar w) (f : ℕ → BitVec w) (k : ℕ) : BitVec w := ((slide P)^[k] f) 0

theorem slide_iter {P : MTPar w} (f : ℕ → BitVec w) : ∀ j k, j < P.n →
    ((slide P)^[k] f) j = ext P f (k + j) := by
  intro j
  induction j with
  | zero => intro k _; rfl
  | succ j ih =>
    intro k hj
    have h := ih (k + 1) (by omega)
    rw [show k + (j + 1) = k + 1 + j by omega, ← h, Function.iterate_succ_apply', slide, if_pos hj]

theorem ext_init {P : MTPar w} (f : ℕ → BitVec w) {j : ℕ} (hj : j < P.n) : ext P f j = f j := by
  have := slide_iter (P := P) f j 0 hj
  rw [Nat.zero_add] at this
  exact this.symm

theorem ext_isSeq {P : MTPar w} (hP : P.OK) (f : ℕ → BitVec w) : IsSeq P (ext P f) := by
  intro k
  have h1 := hP.hm1
  have h2 := hP.hmn
  rw [← slide_iter f P.m k h2, ← slide_iter f 1 k (by omega)]
  have h3 := slide_iter (P := P) f (P.n - 1) (k + 1) (by omega)
  rw [show k + P.n = k + 1 + (P.n - 1) by omega, ← h3, Function.iterate_succ_apply', slide,
    if_neg (by omega)]
  rfl

theorem isSeq_unique {P : MTPar w} (hP : P.OK) {x y : ℕ → BitVec w} (hx : IsSeq P x) (hy : IsSeq P y)
    (h : ∀ j, j < P.n → x j = y j) : x = y := by
  have h1 := hP.hm1
  have h2 := hP.hmn
  funext k
  induction k using Nat.strong_induction_on with
  | _ k ih =>
    by_cases hk : k < P.n
    · exact h k hk
    · have ex := hx (k - P.n)
      have ey := hy (k - P.n)
      rw [ih (k - P.n + P.m) (by omega), ih (k - P.n) (by omega), ih (k - P.n + 1) (by omega), ← ey] at ex
      rwa [show k - P.n + P.n = k by omega] at ex

/-- MT19937. -/
def P32 : MTPar 32 := ⟨624, 397, 31, 0x9908b0df⟩

/-- MT19937-64. -/
def P64 : MTPar 64 := ⟨312, 156, 31, 0xB5026F5AA96619E9⟩

theorem P32_ok : P32.OK := ⟨by decide, by decide, by decide⟩
theorem P64_ok : P64.OK := ⟨by decide, by decide, by decide⟩
theorem C32_ok : C32.OK := ⟨by decide, by decide⟩
theorem C64_ok : C64.OK := ⟨by decide, by decide⟩

theorem and_one_eq (y : BitVec w) (hw : 0 < w) : (y &&& 1 = 1) ↔ y.getLsbD 0 = true := by
  constructor
  · intro h
    have := congrArg (fun z => z.getLsbD 0) h
    simpa [hw] using this
  · intro h
    apply BitVec.eq_of_getLsbD_eq
    intro i hi
    rw [BitVec.getLsbD_and]
    have h1 : (1 : BitVec w).getLsbD i = (decide (i < w) && decide (i = 0)) := by
      rw [show (1 : BitVec w) = 1#w from rfl, BitVec.getLsbD_one]
      cases i <;> simp [hw, hi]
    rw [h1]
    cases i <;> simp [h]

theorem twist32 (u l m : BitVec 32) :
    m ^^^ (((u &&& 0x80000000) ||| (l &&& 0x7fffffff)) >>> 1) ^^^
      (if (((u &&& 0x80000000) ||| (l &&& 0x7fffffff)) &&& 1) = 1 then 0x9908b0df else 0) =
    m ^^^ twist P32.a (join P32.r u l) := by
  have e1 : upper 32 P32.r = 0x80000000 := by decide
  have e2 : ~~~ (0x80000000 : BitVec 32) = 0x7fffffff := by decide
  rw [join, e1, e2, twist, BitVec.xor_assoc]
  congr 2
  exact if_congr (and_one_eq _ (by decide)) rfl rfl

theorem twist64 (u l m : BitVec 64) :
    m ^^^ (((u &&& 0xFFFFFFFF80000000) ||| (l &&& 0x7FFFFFFF)) >>> 1) ^^^
      (if (((u &&& 0xFFFFFFFF80000000) ||| (l &&& 0x7FFFFFFF)) &&& 1) = 1 then 0xB5026F5AA96619E9 else 0) =
    m ^^^ twist P64.a (join P64.r u l) := by
  have e1 : upper 64 P64.r = 0xFFFFFFFF80000000 := by decide
  have e2 : ~~~ (0xFFFFFFFF80000000 : BitVec 64) = 0x7FFFFFFF := by decide
  rw [join, e1, e2, twist, BitVec.xor_assoc]
  congr 2
  exact if_congr (and_one_eq _ (by decide)) rfl rfl

/-! ### The ring buffers follow the recurrence -/

/-- The 32-bit object holds words `t, …, t+623` of `x`. -/
structure Follows32 (s : St 32) (x : ℕ → BitVec 32) (t : ℕ) : Prop where
  mti : s.mti = (624 + t) % 1024
  mem : ∀ j, j < 624 → s.mem ((t + j) % 1024) = some (x (t + j))

/-- The 64-bit object holds words `t, …, t+311` of `x`. -/
structure Follows64 (s : St 64) (x : ℕ → BitVec 64) (t : ℕ) : Prop where
  mti : s.mti = t % 312
  mem : ∀ j, j < 312 → s.mem ((t + j) % 312) = some (x (t + j))

theorem and_3ff (n : ℕ) : n &&& 0x3ff = n % 1024 := Nat.and_two_pow_sub_one_eq_mod n 10

theorem next32_spec {s : St 32} {x : ℕ → BitVec 32} {t : ℕ} (hx : IsSeq P32 x)
    (h : Follows32 s x t) :
    ∃ s', next32 s = some (s', temper32 (x (624 + t))) ∧ Follows32 s' x (t + 1) := by
  have e0 : (1024 - 624 + s.mti) &&& 0x3ff = (t + 0) % 1024 := by rw [and_3ff, h.mti]; omega
  have e1 : (1024 - 624 + s.mti + 1) &&& 0x3ff = (t + 1) % 1024 := by rw [and_3ff, h.mti]; omega
  have e2 : (1024 - 624 + 397 + s.mti) &&& 0x3ff = (t + 397) % 1024 := by rw [and_3ff, h.mti]; omega
  have e3 : (s.mti + 1) &&& 0x3ff = (624 + (t + 1)) % 1024 := by rw [and_3ff, h.mti]; omega
  have hb : ∀ n, n % 1024 < 1024 := fun n => Nat.mod_lt _ (by norm_num)
  unfold next32
  simp only [e0, e1, e2, e3]
  rw [rd_some (hb _) (h.mem 0 (by norm_num)), rd_some (hb _) (h.mem 1 (by norm_num)),
    rd_some (hb _) (h.mem 397 (by norm_num))]
  simp only
  rw [twist32, wr_some _ _ (by rw [h.mti]; exact hb _)]
  have hxt : x (t + 397) ^^^ twist P32.a (join P32.r (x (t + 0)) (x (t + 1))) = x (624 + t) := by
    rw [Nat.add_comm 624 t]; exact (hx t).symm
  rw [hxt]
  refine ⟨_, rfl, rfl, ?_⟩
  intro j hj
  simp only
  by_cases hj' : j = 623
  · subst hj'
    rw [show (t + 1 + 623) % 1024 = s.mti by rw [h.mti]; omega, Function.update_self]
    congr 2; omega
  · rw [Function.update_of_ne (by rw [h.mti]; omega), show t + 1 + j = t + (j + 1) by omega]
    exact h.mem (j + 1) (by omega)

theorem next64_spec {s : St 64} {x : ℕ → BitVec 64} {t : ℕ} (hx : IsSeq P64 x)
    (h : Follows64 s x t) :
    ∃ s', next64 s = some (s', temper64 (x (312 + t))) ∧ Follows64 s' x (t + 1) := by
  have e0 : s.mti = (t + 0) % 312 := by rw [h.mti]; omega
  have e1 : (s.mti + 1) % 312 = (t + 1) % 312 := by rw [h.mti]; omega
  have e2 : (s.mti + 156) % 312 = (t + 156) % 312 := by rw [h.mti]; omega
  have hb : ∀ n, n % 312 < 312 := fun n => Nat.mod_lt _ (by norm_num)
  have r0 : rd 312 s.mem s.mti = some (x (t + 0)) := by
    rw [e0]; exact rd_some (hb _) (h.mem 0 (by norm_num))
  unfold next64
  rw [r0, e1, e2, rd_some (hb _) (h.mem 1 (by norm_num)), rd_some (hb _) (h.mem 156 (by norm_num))]
  simp only
  rw [twist64, wr_some _ _ (by rw [h.mti]; exact hb _)]
  have hxt : x (t + 156) ^^^ twist P64.a (join P64.r (x (t + 0)) (x (t + 1))) = x (312 + t) := by
    rw [Nat.add_comm 312 t]; exact (hx t).symm
  rw [hxt]
  refine ⟨_, rfl, rfl, ?_⟩
  intro j hj
  simp only
  by_cases hj' : j = 311
  · subst hj'
    rw [show (t + 1 + 311) % 312 = s.mti by rw [h.mti]; omega, Function.update_self]
    congr 2; omega
  · rw [Function.update_of_ne (by rw [h.mti]; omega), show t + 1 + j = t + (j + 1) by omega]
    exact h.mem (j + 1) (by omega)

theorem seed32_spec (v : BitVec 64) (s : St 32) :
    ∃ s', seed32 v s = some s' ∧ Follows32 s' (ext P32 (refSeed C32 (v.setWidth 32))) 0 := by
  obtain ⟨m', h1, h2⟩ := seedMem_spec C32_ok (v.setWidth 32) s.mem
  refine ⟨⟨m', C32.N⟩, by rw [seed32, h1]; rfl, rfl, ?_⟩
  intro j hj
  rw [Nat.zero_add, Nat.mod_eq_of_lt (by omega)]
  exact (h2 j hj).trans (congrArg some (ext_init (P := P32) _ hj).symm)

theorem seedArr32_spec {cells : List (BitVec 32)} {len : ℕ} (h1 : len ≤ cells.length)
    (h2 : 1 ≤ cells.length) (s : St 32) :
    ∃ s', seedArr32 cells len s = some s' ∧
      Follows32 s' (ext P32 (refArray C32 (fun j => cells.getD j 0) len)) 0 := by
  obtain ⟨m', e1, e2⟩ := seedArrayMem_spec C32_ok h1 h2 s.mem
  refine ⟨⟨m', C32.N⟩, by rw [seedArr32, e1]; rfl, rfl, ?_⟩
  intro j hj
  rw [Nat.zero_add, Nat.mod_eq_of_lt (by omega)]
  exact (e2 j hj).trans (congrArg some (ext_init (P := P32) _ hj).symm)

theorem seed64_spec (v : BitVec 64) (s : St 64) :
    ∃ s', seed64 v s = some s' ∧ Follows64 s' (ext P64 (refSeed C64 v)) 0 := by
  obtain ⟨m', h1, h2⟩ := seedMem_spec C64_ok v s.mem
  refine ⟨⟨m', 0⟩, by rw [seed64, h1]; rfl, rfl, ?_⟩
  intro j hj
  rw [Nat.zero_add, Nat.mod_eq_of_lt (by omega)]
  exact (h2 j hj).trans (congrArg some (ext_init (P := P64) _ hj).symm)

theorem seedArr64_spec {cells : List (BitVec 64)} {len : ℕ} (h1 : len ≤ cells.length)
    (h2 : 1 ≤ cells.length) (s : St 64) :
    ∃ s', seedArr64 cells len s = some s' ∧
      Follows64 s' (ext P64 (refArray C64 (fun j => cells.getD j 0) len)) 0 := by
  obtain ⟨m', e1, e2⟩ := seedArrayMem_spec C64_ok h1 h2 s.mem
  refine ⟨⟨m', 0⟩, by rw [seedArr64, e1]; rfl, rfl, ?_⟩
  intro j hj
  rw [Nat.zero_add, Nat.mod_eq_of_lt (by omega)]
  exact (e2 j hj).trans (congrArg some (ext_init (P := P64) _ hj).symm)

end MTT.MT
