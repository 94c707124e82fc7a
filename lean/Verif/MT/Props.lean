import Verif.MT.Lemmas

/-!
# C14–C19: the Mersenne Twister classes
-/

namespace MTT.MT

open MTRec

/-! ## Specification of histories

`x` is the infinite word sequence selected by the last seeding call, `t` the number of words consumed since. -/

/-- Specification object. -/
structure Ref (w : ℕ) where
  x : ℕ → BitVec w
  t : ℕ

/-- Output number `t` (counted from 0) after seeding, for a recurrence of degree `n`. -/
def Ref.out32 (q : Ref 32) (i : ℕ) : BitVec 32 := temper32 (q.x (624 + (q.t + i)))

def Ref.out64 (q : Ref 64) (i : ℕ) : BitVec 64 := temper64 (q.x (312 + (q.t + i)))

/-- What a call of the 32-bit class has to do. -/
def ref32 (q : Ref 32) : Op 32 → Ref 32 × BitVec 64
  | .seed v => (⟨ext P32 (refSeed C32 (v.setWidth 32)), 0⟩, 0)
  | .seedArr cells len => (⟨ext P32 (refArray C32 (fun j => cells.getD j 0) len), 0⟩, 0)
  | .getNative => (⟨q.x, q.t + 1⟩, (q.out32 0).setWidth 64)
  | .getOther => (⟨q.x, q.t + 2⟩, q.out32 0 ++ q.out32 1)

/-- What a call of the 64-bit class has to do. -/
def ref64 (q : Ref 64) : Op 64 → Ref 64 × BitVec 64
  | .seed v => (⟨ext P64 (refSeed C64 v), 0⟩, 0)
  | .seedArr cells len => (⟨ext P64 (refArray C64 (fun j => cells.getD j 0) len), 0⟩, 0)
  | .getNative => (⟨q.x, q.t + 1⟩, q.out64 0)
  | .getOther => (⟨q.x, q.t + 1⟩, ((q.out64 0).extractLsb' 32 32).setWidth 64)

/-- The results of a history. -/
def refRun {w : ℕ} (step : Ref w → Op w → Ref w × BitVec 64) (q : Ref w) : List (Op w) → List (BitVec 64)
  | [] => []
  | o :: os => (step q o).2 :: refRun step (step q o).1 os

/-- Legal calls: the key pointer of an array seeding points to at least `len` and at least one readable
words. -/
def Op.Valid {w : ℕ} : Op w → Prop
  | .seedArr cells len => len ≤ cells.length ∧ 1 ≤ cells.length
  | _ => True

/-- Seeding calls (the constructors run one of them). -/
def Op.IsSeed {w : ℕ} : Op w → Prop
  | .seed _ => True
  | .seedArr _ _ => True
  | _ => False

theorem append_eq (a b : BitVec 32) : ((a.setWidth 64) <<< 32) ||| b.setWidth 64 = a ++ b := by
  apply BitVec.eq_of_getLsbD_eq
  intro i hi
  rw [BitVec.getLsbD_append, BitVec.getLsbD_or, BitVec.getLsbD_shiftLeft, BitVec.getLsbD_setWidth,
    BitVec.getLsbD_setWidth]
  by_cases h : i < 32
  · simp [h, hi]
  · have h' : b.getLsbD i = false := BitVec.getLsbD_of_ge _ _ (by omega)
    have h2 : i - 32 < 64 := by omega
    simp [h, hi, h', h2]

theorem shift_extract (v : BitVec 64) :
    (BitVec.ushiftRight v 32).setWidth 32 = v.extractLsb' 32 32 := by
  apply BitVec.eq_of_getLsbD_eq
  intro i hi
  have : BitVec.ushiftRight v 32 = v >>> 32 := rfl
  rw [this]
  simp [hi]

theorem getU64_32_spec {s : St 32} {x : ℕ → BitVec 32} {t : ℕ} (hx : IsSeq P32 x)
    (h : Follows32 s x t) : ∃ s', getU64_32 s =
      some (s', (Ref.mk x t).out32 0 ++ (Ref.mk x t).out32 1) ∧ Follows32 s' x (t + 2) := by
  obtain ⟨s1, e1, f1⟩ := next32_spec hx h
  obtain ⟨s2, e2, f2⟩ := next32_spec hx f1
  refine ⟨s2, ?_, f2⟩
  unfold getU64_32
  rw [e1]
  simp only
  rw [e2]
  simp only
  rw [append_eq]
  rfl

/-- One legal call of the 32-bit class. -/
theorem step32_spec {s : St 32} {q : Ref 32} (hx : IsSeq P32 q.x) (h : Follows32 s q.x q.t)
    (o : Op 32) (ho : o.Valid) : ∃ s', step32 s o = some (s', (ref32 q o).2) ∧
      IsSeq P32 (ref32 q o).1.x ∧ Follows32 s' (ref32 q o).1.x (ref32 q o).1.t := by
  cases o with
  | seed v =>
    obtain ⟨s', e, f⟩ := seed32_spec v s
    exact ⟨s', by rw [step32, e]; rfl, ext_isSeq P32_ok _, f⟩
  | seedArr cells len =>
    obtain ⟨s', e, f⟩ := seedArr32_spec ho.1 ho.2 s
    exact ⟨s', by rw [step32, e]; rfl, ext_isSeq P32_ok _, f⟩
  | getNative =>
    obtain ⟨s', e, f⟩ := next32_spec hx h
    exact ⟨s', by rw [step32, e]; rfl, hx, f⟩
  | getOther =>
    obtain ⟨s', e, f⟩ := getU64_32_spec hx h
    exact ⟨s', e, hx, f⟩

/-- One legal call of the 64-bit class. -/
theorem step64_spec {s : St 64} {q : Ref 64} (hx : IsSeq P64 q.x) (h : Follows64 s q.x q.t)
    (o : Op 64) (ho : o.Valid) : ∃ s', step64 s o = some (s', (ref64 q o).2) ∧
      IsSeq P64 (ref64 q o).1.x ∧ Follows64 s' (ref64 q o).1.x (ref64 q o).1.t := by
  cases o with
  | seed v =>
    obtain ⟨s', e, f⟩ := seed64_spec v s
    exact ⟨s', by rw [step64, e]; rfl, ext_isSeq P64_ok _, f⟩
  | seedArr cells len =>
    obtain ⟨s', e, f⟩ := seedArr64_spec ho.1 ho.2 s
    exact ⟨s', by rw [step64, e]; rfl, ext_isSeq P64_ok _, f⟩
  | getNative =>
    obtain ⟨s', e, f⟩ := next64_spec hx h
    exact ⟨s', by rw [step64, e]; rfl, hx, f⟩
  | getOther =>
    obtain ⟨s', e, f⟩ := next64_spec hx h
    refine ⟨s', ?_, hx, f⟩
    rw [step64, getU32_64, e]
    simp only [Option.map_some, shift_extract]
    rfl

theorem run32_spec : ∀ (ops : List (Op 32)) {s : St 32} {q : Ref 32}, IsSeq P32 q.x →
    Follows32 s q.x q.t → (∀ o ∈ ops, o.Valid) →
    ∃ s', run step32 s ops = some (s', refRun ref32 q ops) := by
  intro ops
  induction ops with
  | nil => intro s q _ _ _; exact ⟨s, rfl⟩
  | cons o os ih =>
    intro s q hx h hv
    obtain ⟨s1, e, hx1, f⟩ := step32_spec hx h o (hv o (by simp))
    obtain ⟨s2, e2⟩ := ih hx1 f (fun o' ho' => hv o' (by simp [ho']))
    refine ⟨s2, ?_⟩
    rw [run, e]
    simp only
    rw [e2]
    rfl

theorem run64_spec : ∀ (ops : List (Op 64)) {s : St 64} {q : Ref 64}, IsSeq P64 q.x →
    Follows64 s q.x q.t → (∀ o ∈ ops, o.Valid) →
    ∃ s', run step64 s ops = some (s', refRun ref64 q ops) := by
  intro ops
  induction ops with
  | nil => intro s q _ _ _; exact ⟨s, rfl⟩
  | cons o os ih =>
    intro s q hx h hv
    obtain ⟨s1, e, hx1, f⟩ := step64_spec hx h o (hv o (by simp))
    obtain ⟨s2, e2⟩ := ih hx1 f (fun o' ho' => hv o' (by simp [ho']))
    refine ⟨s2, ?_⟩
    rw [run, e]
    simp only
    rw [e2]
    rfl

/-! ## C15 (and the general form of C14, C16, C18) -/

/-- C15, C14, C18: a 32-bit object whose first call is a seeding call (the array may contain anything,
initialised or not) performs every history of legal calls without reading a word never written and without
leaving its array, and its results are those of the specification. -/
theorem history32 (s : St 32) (o : Op 32) (ops : List (Op 32)) (ho : o.IsSeed)
    (hv : ∀ o' ∈ o :: ops, o'.Valid) :
    ∃ s', run step32 s (o :: ops) = some (s', refRun ref32 ⟨0, 0⟩ (o :: ops)) := by
  have key : ∃ s1, step32 s o = some (s1, (ref32 ⟨0, 0⟩ o).2) ∧ IsSeq P32 (ref32 ⟨0, 0⟩ o).1.x ∧
      Follows32 s1 (ref32 ⟨0, 0⟩ o).1.x (ref32 ⟨0, 0⟩ o).1.t := by
    cases o with
    | seed v =>
      obtain ⟨s', e, f⟩ := seed32_spec v s
      exact ⟨s', by rw [step32, e]; rfl, ext_isSeq P32_ok _, f⟩
    | seedArr cells len =>
      obtain ⟨h1, h2⟩ := hv _ (List.mem_cons_self ..)
      obtain ⟨s', e, f⟩ := seedArr32_spec h1 h2 s
      exact ⟨s', by rw [step32, e]; rfl, ext_isSeq P32_ok _, f⟩
    | getNative => exact ho.elim
    | getOther => exact ho.elim
  obtain ⟨s1, e, hx1, f⟩ := key
  obtain ⟨s2, e2⟩ := run32_spec ops hx1 f (fun o' ho' => hv o' (by simp [ho']))
  refine ⟨s2, ?_⟩
  rw [run, e]
  simp only
  rw [e2]
  rfl

/-- C16: the same for the 64-bit class. -/
theorem history64 (s : St 64) (o : Op 64) (ops : List (Op 64)) (ho : o.IsSeed)
    (hv : ∀ o' ∈ o :: ops, o'.Valid) :
    ∃ s', run step64 s (o :: ops) = some (s', refRun ref64 ⟨0, 0⟩ (o :: ops)) := by
  have key : ∃ s1, step64 s o = some (s1, (ref64 ⟨0, 0⟩ o).2) ∧ IsSeq P64 (ref64 ⟨0, 0⟩ o).1.x ∧
      Follows64 s1 (ref64 ⟨0, 0⟩ o).1.x (ref64 ⟨0, 0⟩ o).1.t := by
    cases o with
    | seed v =>
      obtain ⟨s', e, f⟩ := seed64_spec v s
      exact ⟨s', by rw [step64, e]; rfl, ext_isSeq P64_ok _, f⟩
    | seedArr cells len =>
      obtain ⟨h1, h2⟩ := hv _ (List.mem_cons_self ..)
      obtain ⟨s', e, f⟩ := seedArr64_spec h1 h2 s
      exact ⟨s', by rw [step64, e]; rfl, ext_isSeq P64_ok _, f⟩
    | getNative => exact ho.elim
    | getOther => exact ho.elim
  obtain ⟨s1, e, hx1, f⟩ := key
  obtain ⟨s2, e2⟩ := run64_spec ops hx1 f (fun o' ho' => hv o' (by simp [ho']))
  refine ⟨s2, ?_⟩
  rw [run, e]
  simp only
  rw [e2]
  rfl

-- a history on a completely uninitialised object: seed, 32-bit, 64-bit, reseed with a key, 64-bit
example : ∃ s', run step32 fresh [.seed 5489, .getNative, .getOther, .seedArr [0x123, 0x234] 2, .getOther]
    = some (s', refRun ref32 ⟨0, 0⟩
      [.seed 5489, .getNative, .getOther, .seedArr [0x123, 0x234] 2, .getOther]) :=
  history32 fresh _ _ trivial (by simp [Op.Valid])

/-- The hypothesis on the key is needed: an empty key makes the code read `value[0]`, which is outside an
array of no elements (MersenneTwister.hpp:205-219 with `key_length` 0). -/
theorem empty_key_reads_outside (s : St 32) : step32 s (.seedArr [] 0) = none := by
  obtain ⟨m, h1, h2⟩ := seedMem_spec C32_ok (BitVec.ofNat 32 19650218) s.mem
  have h3 : arr1 C32 [] 0 (if C32.N > 0 then C32.N else 0) 1 0 m = none := by
    show arr1 C32 [] 0 (623 + 1) 1 0 m = none
    unfold arr1
    rw [rd_some (show 1 < C32.cap by decide) (h2 1 (by decide)),
      rd_some (show 1 - 1 < C32.cap by decide) (h2 0 (by decide))]
    rfl
  simp only [step32, seedArr32, seedArrayMem]
  rw [h1]
  simp only
  rw [h3]
  rfl

/-- A get call on an object that was never seeded would read an unwritten word, so the hypothesis of a first
seeding call is needed too. -/
example : step32 fresh .getNative = none := rfl

/-! ## C14 -/

theorem refRun_native32 (q : Ref 32) (n : ℕ) : refRun ref32 q (List.replicate n .getNative) =
    (List.range n).map fun k => (temper32 (q.x (624 + (q.t + k)))).setWidth 64 := by
  induction n generalizing q with
  | zero => rfl
  | succ n ih =>
    rw [List.replicate_succ, refRun, ih, List.range_succ_eq_map, List.map_cons, List.map_map]
    congr 1
    apply List.map_congr_left
    intro k _
    simp only [ref32, Function.comp]
    rw [show q.t + 1 + k = q.t + (k + 1) by omega]

/-- C14: whatever was in the array before, after `seed(v)` the outputs are the tempered words number
`624, 625, …` of the only word sequence that satisfies the MT19937 recurrence and starts with the seeded
words. -/
theorem mt19937 (s : St 32) (v : BitVec 64) (n : ℕ) (x : ℕ → BitVec 32) (hx : IsSeq P32 x)
    (h0 : ∀ j, j < 624 → x j = refSeed C32 (v.setWidth 32) j) :
    ∃ s', run step32 s (.seed v :: List.replicate n .getNative) =
      some (s', 0 :: (List.range n).map fun k => (temper32 (x (624 + k))).setWidth 64) := by
  obtain ⟨s', h⟩ := history32 s (.seed v) (List.replicate n .getNative) trivial (by
    intro o ho
    rcases List.mem_cons.1 ho with rfl | ho
    · trivial
    · rw [(List.mem_replicate.1 ho).2]; trivial)
  refine ⟨s', h.trans ?_⟩
  have hxe : x = ext P32 (refSeed C32 (v.setWidth 32)) := isSeq_unique P32_ok hx (ext_isSeq P32_ok _)
    fun j hj => (h0 j hj).trans (ext_init (P := P32) _ hj).symm
  rw [refRun, refRun_native32, hxe]
  simp only [ref32, Nat.zero_add]

/-- C14 for array seeding. -/
theorem mt19937_array (s : St 32) (cells : List (BitVec 32)) (len n : ℕ) (h1 : len ≤ cells.length)
    (h2 : 1 ≤ cells.length) (x : ℕ → BitVec 32) (hx : IsSeq P32 x)
    (h0 : ∀ j, j < 624 → x j = refArray C32 (fun j => cells.getD j 0) len j) :
    ∃ s', run step32 s (.seedArr cells len :: List.replicate n .getNative) =
      some (s', 0 :: (List.range n).map fun k => (temper32 (x (624 + k))).setWidth 64) := by
  obtain ⟨s', h⟩ := history32 s (.seedArr cells len) (List.replicate n .getNative) trivial (by
    intro o ho
    rcases List.mem_cons.1 ho with rfl | ho
    · exact ⟨h1, h2⟩
    · rw [(List.mem_replicate.1 ho).2]; trivial)
  refine ⟨s', h.trans ?_⟩
  have hxe : x = ext P32 (refArray C32 (fun j => cells.getD j 0) len) :=
    isSeq_unique P32_ok hx (ext_isSeq P32_ok _)
      fun j hj => (h0 j hj).trans (ext_init (P := P32) _ hj).symm
  rw [refRun, refRun_native32, hxe]
  simp only [ref32, Nat.zero_add]

/-- Such a sequence exists for any initial words, for both classes. -/
theorem exists_seq {w : ℕ} {P : MTPar w} (hP : P.OK) (f : ℕ → BitVec w) :
    ∃! x : ℕ → BitVec w, IsSeq P x ∧ ∀ j, j < P.n → x j = f j :=
  ⟨ext P f, ⟨ext_isSeq hP f, fun _ hj => ext_init f hj⟩, fun _ hy =>
    isSeq_unique hP hy.1 (ext_isSeq hP f) fun j hj => (hy.2 j hj).trans (ext_init f hj).symm⟩

example : ∃! x : ℕ → BitVec 32, IsSeq P32 x ∧ ∀ j, j < 624 → x j = refSeed C32 5489 j :=
  exists_seq P32_ok _

/-! ## C16 -/

theorem refRun_native64 (q : Ref 64) (n : ℕ) : refRun ref64 q (List.replicate n .getNative) =
    (List.range n).map fun k => temper64 (q.x (312 + (q.t + k))) := by
  induction n generalizing q with
  | zero => rfl
  | succ n ih =>
    rw [List.replicate_succ, refRun, ih, List.range_succ_eq_map, List.map_cons, List.map_map]
    congr 1
    apply List.map_congr_left
    intro k _
    simp only [ref64, Function.comp]
    rw [show q.t + 1 + k = q.t + (k + 1) by omega]

/-- C16. -/
theorem mt19937_64 (s : St 64) (v : BitVec 64) (n : ℕ) (x : ℕ → BitVec 64) (hx : IsSeq P64 x)
    (h0 : ∀ j, j < 312 → x j = refSeed C64 v j) :
    ∃ s', run step64 s (.seed v :: List.replicate n .getNative) =
      some (s', 0 :: (List.range n).map fun k => temper64 (x (312 + k))) := by
  obtain ⟨s', h⟩ := history64 s (.seed v) (List.replicate n .getNative) trivial (by
    intro o ho
    rcases List.mem_cons.1 ho with rfl | ho
    · trivial
    · rw [(List.mem_replicate.1 ho).2]; trivial)
  refine ⟨s', h.trans ?_⟩
  have hxe : x = ext P64 (refSeed C64 v) := isSeq_unique P64_ok hx (ext_isSeq P64_ok _)
    fun j hj => (h0 j hj).trans (ext_init (P := P64) _ hj).symm
  rw [refRun, refRun_native64, hxe]
  simp only [ref64, Nat.zero_add]

/-- C16 for array seeding. -/
theorem mt19937_64_array (s : St 64) (cells : List (BitVec 64)) (len n : ℕ) (h1 : len ≤ cells.length)
    (h2 : 1 ≤ cells.length) (x : ℕ → BitVec 64) (hx : IsSeq P64 x)
    (h0 : ∀ j, j < 312 → x j = refArray C64 (fun j => cells.getD j 0) len j) :
    ∃ s', run step64 s (.seedArr cells len :: List.replicate n .getNative) =
      some (s', 0 :: (List.range n).map fun k => temper64 (x (312 + k))) := by
  obtain ⟨s', h⟩ := history64 s (.seedArr cells len) (List.replicate n .getNative) trivial (by
    intro o ho
    rcases List.mem_cons.1 ho with rfl | ho
    · exact ⟨h1, h2⟩
    · rw [(List.mem_replicate.1 ho).2]; trivial)
  refine ⟨s', h.trans ?_⟩
  have hxe : x = ext P64 (refArray C64 (fun j => cells.getD j 0) len) :=
    isSeq_unique P64_ok hx (ext_isSeq P64_ok _)
      fun j hj => (h0 j hj).trans (ext_init (P := P64) _ hj).symm
  rw [refRun, refRun_native64, hxe]
  simp only [ref64, Nat.zero_add]

/-- C16, 32-bit outputs: `getUint32` advances like `getUint64` and returns its upper half, in every state
reached after seeding. -/
theorem getU32_64_upper {s s' : St 64} {v : BitVec 64} (h : next64 s = some (s', v)) :
    getU32_64 s = some (s', v.extractLsb' 32 32) := by
  rw [getU32_64, h, Option.map_some, shift_extract]

/-! ## C18 -/

/-- C18: `getUint64` is two consecutive `getUint32`, the first one in the high half. -/
theorem getU64_concat {s s1 s2 : St 32} {a b : BitVec 32} (h1 : next32 s = some (s1, a))
    (h2 : next32 s1 = some (s2, b)) : getU64_32 s = some (s2, a ++ b) := by
  unfold getU64_32
  rw [h1]
  simp only
  rw [h2]
  simp only
  rw [append_eq]

/-- C18: and in every state reached by a history of legal calls both do happen. -/
theorem getU64_history (s : St 32) (o : Op 32) (ops : List (Op 32)) (ho : o.IsSeed)
    (hv : ∀ o' ∈ o :: ops, o'.Valid) : ∃ s0 s1 s2 l a b, run step32 s (o :: ops) = some (s0, l) ∧
      next32 s0 = some (s1, a) ∧ next32 s1 = some (s2, b) ∧ getU64_32 s0 = some (s2, a ++ b) := by
  have happ : ∀ (l1 l2 : List (Op 32)) (s : St 32), run step32 s (l1 ++ l2) =
      match run step32 s l1 with
      | none => none
      | some (s1, r) => (run step32 s1 l2).map fun q => (q.1, r ++ q.2) := by
    intro l1
    induction l1 with
    | nil =>
      intro l2 s
      simp only [List.nil_append, run]
      cases run step32 s l2 <;> rfl
    | cons o os ih =>
      intro l2 s
      rw [List.cons_append, run, run]
      cases step32 s o with
      | none => rfl
      | some p =>
        simp only
        rw [ih]
        cases run step32 p.1 os with
        | none => rfl
        | some q =>
          simp only [Option.map_some]
          cases run step32 q.1 l2 <;> rfl
  obtain ⟨sf, h⟩ := history32 s o (ops ++ [.getNative, .getNative]) ho (by
    intro o' ho'
    rcases List.mem_cons.1 ho' with rfl | h
    · exact hv _ (by simp)
    · rcases List.mem_append.1 h with h | h
      · exact hv _ (by simp [h])
      · simp at h; subst h; trivial)
  rw [← List.cons_append, happ] at h
  cases h1 : run step32 s (o :: ops) with
  | none => rw [h1] at h; simp at h
  | some q =>
    obtain ⟨s0, l⟩ := q
    rw [h1] at h
    simp only [run, step32] at h
    cases h2 : next32 s0 with
    | none => rw [h2] at h; simp at h
    | some q1 =>
      obtain ⟨s1, a⟩ := q1
      rw [h2] at h
      simp only [Option.map_some] at h
      cases h3 : next32 s1 with
      | none => rw [h3] at h; simp at h
      | some q2 =>
        obtain ⟨s2, b⟩ := q2
        exact ⟨s0, s1, s2, l, a, b, rfl, h2, h3, getU64_concat h2 h3⟩

/-! ## C19 -/

theorem finite_bitVec (w : ℕ) : Finite (BitVec w) :=
  Finite.of_injective (fun x : BitVec w => x.toFin) fun _ _ h => BitVec.eq_of_toFin_eq h

theorem shr_step_xor {w : ℕ} (k : ℕ) (x y : BitVec w) :
    (x ^^^ y) ^^^ ((x ^^^ y) >>> k) = (x ^^^ (x >>> k)) ^^^ (y ^^^ (y >>> k)) := by
  rw [shr_xor]; ac_rfl

theorem shr_and_step_xor {w : ℕ} (k : ℕ) (m x y : BitVec w) :
    (x ^^^ y) ^^^ (((x ^^^ y) >>> k) &&& m) = (x ^^^ ((x >>> k) &&& m)) ^^^ (y ^^^ ((y >>> k) &&& m)) := by
  rw [shr_xor, and_xor]; ac_rfl

theorem shl_and_step_xor {w : ℕ} (k : ℕ) (m x y : BitVec w) :
    (x ^^^ y) ^^^ (((x ^^^ y) <<< k) &&& m) = (x ^^^ ((x <<< k) &&& m)) ^^^ (y ^^^ ((y <<< k) &&& m)) := by
  rw [shl_xor, and_xor]; ac_rfl

/-- C19: 32-bit tempering is GF(2)-linear. -/
theorem temper32_linear (x y : BitVec 32) : temper32 (x ^^^ y) = temper32 x ^^^ temper32 y := by
  unfold temper32
  dsimp only
  rw [shr_step_xor 11, shl_and_step_xor 7, shl_and_step_xor 15, shr_step_xor 18]

theorem temper32_injective : Function.Injective temper32 := by
  intro x y h
  unfold temper32 at h
  dsimp only at h
  exact shr_inj (k := 11) (by norm_num) (shl_step_inj (k := 7) (by norm_num) _
    (shl_step_inj (k := 15) (by norm_num) _ (shr_inj (k := 18) (by norm_num) h)))

/-- C19: 32-bit tempering is a bijection. -/
theorem temper32_bijective : Function.Bijective temper32 :=
  haveI := finite_bitVec 32
  Finite.injective_iff_bijective.1 temper32_injective

/-- C19: 64-bit tempering is GF(2)-linear. -/
theorem temper64_linear (x y : BitVec 64) : temper64 (x ^^^ y) = temper64 x ^^^ temper64 y := by
  unfold temper64
  dsimp only
  rw [shr_and_step_xor 29, shl_and_step_xor 17, shl_and_step_xor 37, shr_step_xor 43]

theorem temper64_injective : Function.Injective temper64 := by
  intro x y h
  unfold temper64 at h
  dsimp only at h
  exact shr_step_inj (k := 29) (by norm_num) _ (shl_step_inj (k := 17) (by norm_num) _
    (shl_step_inj (k := 37) (by norm_num) _ (shr_inj (k := 43) (by norm_num) h)))

/-- C19: 64-bit tempering is a bijection. -/
theorem temper64_bijective : Function.Bijective temper64 :=
  haveI := finite_bitVec 64
  Finite.injective_iff_bijective.1 temper64_injective

example : temper32 1 = 0x400091 ∧ temper64 1 = 0x40002000020801 := by decide

/-! ## C17 -/

variable {w : ℕ}

/-- Words 1 and 2 produced by `seed(v)` are never both zero. -/
theorem refSeed_ne_zero (C : Consts w) (hw : 2 ≤ w) (v : BitVec w) (h1 : refSeed C v 1 = 0) :
    refSeed C v 2 ≠ 0 := by
  rw [refSeed, h1]
  have h2 : C.mul * ((0 : BitVec w) ^^^ (0 : BitVec w) >>> C.sh) + BitVec.ofNat w (1 + 1) =
      BitVec.ofNat w 2 := by simp
  rw [h2]
  intro h
  have h3 := congrArg BitVec.toNat h
  rw [BitVec.toNat_ofNat, Nat.mod_eq_of_lt (by
    calc 2 < 2 ^ 2 := by norm_num
      _ ≤ 2 ^ w := Nat.pow_le_pow_right (by norm_num) hw)] at h3
  simp at h3

theorem seqState_ne_zero_of_seed {P : MTPar w} {C : Consts w} (hw : 2 ≤ w) (hn : 3 ≤ P.n) (v : BitVec w)
    {x : ℕ → BitVec w} (h0 : ∀ j, j < P.n → x j = refSeed C v j) : seqState P x 0 ≠ 0 := by
  intro h
  have e : ∀ j, j < P.n - 1 → x (j + 1) = 0 := fun j hj => by
    have := congrArg (fun q : State P => (q.2 ⟨j, hj⟩).val) h
    have h3 : x (0 + 1 + j) = 0 := this
    rwa [show 0 + 1 + j = j + 1 by omega] at h3
  have e1 := e 0 (by omega)
  have e2 := e 1 (by omega)
  rw [h0 _ (by omega)] at e1 e2
  exact refSeed_ne_zero C hw v e1 e2

theorem seqState_ne_zero_of_array {P : MTPar w} {C : Consts w} (hmsb : hi P.r C.msb ≠ 0)
    (v : ℕ → BitVec w) (len : ℕ) {x : ℕ → BitVec w}
    (h0 : x 0 = refArray C v len 0) : seqState P x 0 ≠ 0 := by
  intro h
  have e : hi P.r (x 0) = 0 := congrArg (fun q : State P => q.1.val) h
  rw [h0] at e
  exact hmsb e

/-- A sequence with a non-zero state has a non-zero word in every window. -/
theorem exists_ne_zero {P : MTPar w} (hP : P.OK) (hm2 : 2 ≤ P.m) (ha : P.a.getLsbD (w - 1) = true)
    {x : ℕ → BitVec w} (hx : IsSeq P x) (h : seqState P x 0 ≠ 0) (t : ℕ) :
    ∃ j, j < P.n ∧ x (t + j) ≠ 0 := by
  by_contra hc
  push Not at hc
  have hz : seqState P x t = 0 := by
    apply Prod.ext
    · have := hc 0 (by have := hP.hmn; omega)
      show Wd.of (hi P.r (x t)) = 0
      rw [show t = t + 0 from rfl, this, hi_zero]
      rfl
    · funext j
      show Wd.of (x (t + 1 + j)) = 0
      rw [show t + 1 + (j : ℕ) = t + (j + 1) by omega, hc _ (by omega)]
      rfl
  have := T_pow_seqState hP hx 0 t
  rw [Nat.zero_add, hz] at this
  have hinj : Function.Injective (T P ^ t) := by
    rw [Module.End.coe_pow]; exact (T_injective hP hm2 ha).iterate t
  exact h (hinj (this.trans (map_zero _).symm))

theorem temper32_zero : temper32 0 = 0 := by decide
theorem temper64_zero : temper64 0 = 0 := by decide

/-- C17, 32 bit: after `seed(v)` the 19937 effective state bits are not all zero, and among any 624
consecutive outputs there is a non-zero one. -/
theorem seed32_not_zero (v : BitVec 32) (x : ℕ → BitVec 32) (hx : IsSeq P32 x)
    (h0 : ∀ j, j < 624 → x j = refSeed C32 v j) :
    seqState P32 x 0 ≠ 0 ∧ ∀ t, ∃ j, j < 624 ∧ temper32 (x (624 + (t + j))) ≠ 0 := by
  have h := seqState_ne_zero_of_seed (P := P32) (C := C32) (by norm_num) (by decide) v h0
  refine ⟨h, fun t => ?_⟩
  obtain ⟨j, hj, hne⟩ := exists_ne_zero P32_ok (by decide) (by decide) hx h (624 + t)
  exact ⟨j, hj, fun hc => hne (by
    rw [← Nat.add_assoc] at hc
    exact temper32_injective (hc.trans temper32_zero.symm))⟩

/-- C17, 32 bit, key arrays (any key, any length). -/
theorem seedArr32_not_zero (v : ℕ → BitVec 32) (len : ℕ) (x : ℕ → BitVec 32) (hx : IsSeq P32 x)
    (h0 : ∀ j, j < 624 → x j = refArray C32 v len j) :
    seqState P32 x 0 ≠ 0 ∧ ∀ t, ∃ j, j < 624 ∧ temper32 (x (624 + (t + j))) ≠ 0 := by
  have h := seqState_ne_zero_of_array (P := P32) (C := C32) (by decide) v len (h0 0 (by norm_num))
  refine ⟨h, fun t => ?_⟩
  obtain ⟨j, hj, hne⟩ := exists_ne_zero P32_ok (by decide) (by decide) hx h (624 + t)
  exact ⟨j, hj, fun hc => hne (by
    rw [← Nat.add_assoc] at hc
    exact temper32_injective (hc.trans temper32_zero.symm))⟩

/-- C17, 64 bit. -/
theorem seed64_not_zero (v : BitVec 64) (x : ℕ → BitVec 64) (hx : IsSeq P64 x)
    (h0 : ∀ j, j < 312 → x j = refSeed C64 v j) :
    seqState P64 x 0 ≠ 0 ∧ ∀ t, ∃ j, j < 312 ∧ temper64 (x (312 + (t + j))) ≠ 0 := by
  have h := seqState_ne_zero_of_seed (P := P64) (C := C64) (by norm_num) (by decide) v h0
  refine ⟨h, fun t => ?_⟩
  obtain ⟨j, hj, hne⟩ := exists_ne_zero P64_ok (by decide) (by decide) hx h (312 + t)
  exact ⟨j, hj, fun hc => hne (by
    rw [← Nat.add_assoc] at hc
    exact temper64_injective (hc.trans temper64_zero.symm))⟩

/-- C17, 64 bit, key arrays. -/
theorem seedArr64_not_zero (v : ℕ → BitVec 64) (len : ℕ) (x : ℕ → BitVec 64) (hx : IsSeq P64 x)
    (h0 : ∀ j, j < 312 → x j = refArray C64 v len j) :
    seqState P64 x 0 ≠ 0 ∧ ∀ t, ∃ j, j < 312 ∧ temper64 (x (312 + (t + j))) ≠ 0 := by
  have h := seqState_ne_zero_of_array (P := P64) (C := C64) (by decide) v len (h0 0 (by norm_num))
  refine ⟨h, fun t => ?_⟩
  obtain ⟨j, hj, hne⟩ := exists_ne_zero P64_ok (by decide) (by decide) hx h (312 + t)
  exact ⟨j, hj, fun hc => hne (by
    rw [← Nat.add_assoc] at hc
    exact temper64_injective (hc.trans temper64_zero.symm))⟩

/-- The state space of both has 19937 dimensions. -/
theorem dimension : Module.finrank (ZMod 2) (State P32) = 19937 ∧
    Module.finrank (ZMod 2) (State P64) = 19937 := by
  constructor
  · rw [finrank_state]; decide
  · rw [finrank_state]; decide

end MTT.MT
