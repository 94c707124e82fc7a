import Verif.Samples.TinyRefProps

/-!
# C127: which seeds of `Tiny32` and `Tiny64` give the same numbers
-/

namespace MTT.TinyRef

open MTT

theorem next64_congr {r r' : T64} (hp : Same64 r r') (h : Eq64 r r') : next64 r = next64 r' := by
  have h' := (den64_eq r r').2 h
  obtain ⟨p1, p2, p3⟩ := hp
  rw [next64_eq, next64_eq, h']
  cases r
  cases r'
  simp only at p1 p2 p3
  subst p1 p2 p3
  rfl

/-- The numbers returned are determined by the successor of the state. -/
theorem stream64_succ (lin : Bool) (r : T64) (k : ℕ) :
    stream (gen64 lin) r k = temper64 lin (next64^[k] (next64 r)) := by
  show temper64 lin (next64 (next64^[k] r)) = _
  rw [← Function.iterate_succ_apply' next64, Function.iterate_succ_apply]

theorem stream64_congr (lin : Bool) {r r' : T64} (hp : Same64 r r') (h : Eq64 r r') :
    stream (gen64 lin) r = stream (gen64 lin) r' := by
  funext k
  rw [stream64_succ, stream64_succ, next64_congr hp h]

theorem stream64_shift (lin : Bool) (r : T64) (k j : ℕ) :
    stream (gen64 lin) (next64^[j] r) k = stream (gen64 lin) r (k + j) := by
  show temper64 lin (next64 (next64^[k] (next64^[j] r))) = temper64 lin (next64 (next64^[k + j] r))
  rw [Function.iterate_add_apply]

/-- **C127.**  For every parameter set, no three seeds of `tinymt64_init` lead to the same effective state. -/
theorem init64_at_most_two (r : T64) {a b c : BitVec 64} (h1 : Eq64 (init64 r a) (init64 r b))
    (h2 : Eq64 (init64 r a) (init64 r c)) : a = b ∨ a = c ∨ b = c := by
  have key : ∀ x y : BitVec 64, (init64 r x).s0 = (init64 r y).s0 → (init64 r x).s1 = (init64 r y).s1 → x = y := by
    intro x y e0 e1
    apply init64_injective r
    obtain ⟨p1, p2, p3⟩ := (init64_never_zero r x 0).2
    obtain ⟨q1, q2, q3⟩ := (init64_never_zero r y 0).2
    simp only [Function.iterate_zero, id_eq] at p1 p2 p3 q1 q2 q3
    cases hx : init64 r x
    cases hy : init64 r y
    rw [hx] at e0 e1 p1 p2 p3
    rw [hy] at e0 e1 q1 q2 q3
    simp only at e0 e1 p1 p2 p3 q1 q2 q3
    rw [e0, e1, p1, p2, p3, q1, q2, q3]
  have split : ∀ x y : BitVec 64, (x &&& 0x7fffffffffffffff) = (y &&& 0x7fffffffffffffff) →
      x = y ∨ x ^^^ y = 0x8000000000000000 := by
    intro x y h
    have : (x ^^^ y) &&& 0x7fffffffffffffff = 0 := by
      apply BitVec.eq_of_getLsbD_eq
      intro i hi
      have := congrArg (fun z : BitVec 64 => z.getLsbD i) h
      simp only [BitVec.getLsbD_and, BitVec.getLsbD_xor] at this ⊢
      revert this
      cases x.getLsbD i <;> cases y.getLsbD i <;> simp
    rcases low63_zero this with h0 | h0
    · left; simpa using h0
    · exact .inr h0
  rcases split _ _ h1.1 with e | e
  · exact .inl (key a b e h1.2)
  · rcases split _ _ h2.1 with e' | e'
    · exact .inr (.inl (key a c e' h2.2))
    · refine .inr (.inr (key b c ?_ (h1.2.symm.trans h2.2)))
      have : (init64 r a).s0 ^^^ (init64 r b).s0 = (init64 r a).s0 ^^^ (init64 r c).s0 := e.trans e'.symm
      simpa using this

/-- **C127.**  Two objects of `Tiny64` return the same numbers exactly if their effective states are the same. -/
theorem tiny64_same (lin : Bool) (a b : BitVec 64) :
    stream (gen64 lin) (tiny64 a) = stream (gen64 lin) (tiny64 b) ↔ Eq64 (tiny64 a) (tiny64 b) := by
  obtain ⟨-, ta, na⟩ := tiny_constructed 0 a
  obtain ⟨-, tb, nb⟩ := tiny_constructed 0 b
  have hs : Same64 (tiny64 a) (tiny64 b) :=
    ⟨tb.1.trans ta.1.symm, tb.2.1.trans ta.2.1.symm, tb.2.2.trans ta.2.2.symm⟩
  refine ⟨fun h => ?_, stream64_congr lin hs⟩
  obtain ⟨hper, hback, hall⟩ := tiny64_period lin (tiny64 a) ta na
  have hb : ({ tiny64 a with s0 := (tiny64 b).s0, s1 := (tiny64 b).s1 } : T64) = tiny64 b := by
    obtain ⟨q1, q2, q3⟩ := hs
    cases hx : tiny64 a
    cases hy : tiny64 b
    rw [hx, hy] at q1 q2 q3
    simp only at q1 q2 q3
    rw [q1, q2, q3]
  obtain ⟨j, -, hj⟩ := hall (tiny64 b).s0 (tiny64 b).s1 (by rw [hb]; exact nb)
  rw [hb] at hj
  have hp : Same64 (next64^[j] (tiny64 a)) (tiny64 b) := by
    obtain ⟨p1, p2, p3⟩ := (next64_iter (tiny64 a) j).1
    exact ⟨hs.1.trans p1.symm, hs.2.1.trans p2.symm, hs.2.2.trans p3.symm⟩
  have hd : 2 ^ 127 - 1 ∣ j := by
    refine (hper 0 j).1 fun k _ => ?_
    rw [← stream64_shift, stream64_congr lin hp hj, h]
  have hz := (hback j).2 hd
  exact ⟨hz.1.symm.trans hj.1, hz.2.symm.trans hj.2⟩

/-- **C127.**  At most two seeds of `Tiny64` give the same numbers. -/
theorem tiny64_at_most_two (lin : Bool) {a b c : BitVec 64}
    (h1 : stream (gen64 lin) (tiny64 a) = stream (gen64 lin) (tiny64 b))
    (h2 : stream (gen64 lin) (tiny64 a) = stream (gen64 lin) (tiny64 c)) : a = b ∨ a = c ∨ b = c :=
  init64_at_most_two _ ((tiny64_same lin a b).1 h1) ((tiny64_same lin a c).1 h2)

/-- **C127, where C80 was too optimistic.**  Different seeds of `Tiny64` can give the same numbers for ever: here are two
pairs of such seeds. -/
theorem tiny64_merges (lin : Bool) :
    stream (gen64 lin) (tiny64 0x8ad7b96990e5bcdb) = stream (gen64 lin) (tiny64 0x893c846275446ea4) ∧
    stream (gen64 lin) (tiny64 0xfe02e87dcfcb13b4) = stream (gen64 lin) (tiny64 0xe1919d44dad8ecfc) := by
  constructor
  · exact (tiny64_same lin _ _).2 (by unfold Eq64; decide +kernel)
  · exact (tiny64_same lin _ _).2 (by unfold Eq64; decide +kernel)

/-- The parameters of the two objects are the same. -/
def Same32 (p r : T32) : Prop := r.mat1 = p.mat1 ∧ r.mat2 = p.mat2 ∧ r.tmat = p.tmat

theorem next32_congr {r r' : T32} (hp : Same32 r r') (h : Eq32 r r') : next32 r = next32 r' := by
  obtain ⟨p1, p2, p3⟩ := hp
  obtain ⟨e0, e1, e2, e3⟩ := h
  unfold next32
  rw [e0, e1, e2, e3, p1, p2]
  cases r
  cases r'
  simp only at p1 p2 p3
  subst p1 p2 p3
  rfl

theorem stream32_succ (lin : Bool) (r : T32) (k : ℕ) :
    stream (gen32 lin) r k = temper32 lin (next32^[k] (next32 r)) := by
  show temper32 lin (next32 (next32^[k] r)) = _
  rw [← Function.iterate_succ_apply' next32, Function.iterate_succ_apply]

theorem stream32_congr (lin : Bool) {r r' : T32} (hp : Same32 r r') (h : Eq32 r r') :
    stream (gen32 lin) r = stream (gen32 lin) r' := by
  funext k
  rw [stream32_succ, stream32_succ, next32_congr hp h]

theorem stream32_shift (lin : Bool) (r : T32) (k j : ℕ) :
    stream (gen32 lin) (next32^[j] r) k = stream (gen32 lin) r (k + j) := by
  show temper32 lin (next32 (next32^[k] (next32^[j] r))) = temper32 lin (next32 (next32^[k + j] r))
  rw [Function.iterate_add_apply]

theorem next32_same (r : T32) (n : ℕ) : Same32 r (next32^[n] r) := by
  induction n with
  | zero => exact ⟨rfl, rfl, rfl⟩
  | succ n ih =>
    rw [Function.iterate_succ_apply']
    have h : ∀ t, Same32 t (next32 t) := fun t => by
      unfold next32
      dsimp only
      split <;> exact ⟨rfl, rfl, rfl⟩
    obtain ⟨h1, h2, h3⟩ := h (next32^[n] r)
    exact ⟨h1.trans ih.1, h2.trans ih.2.1, h3.trans ih.2.2⟩

/-- **C127.**  Different seeds of `Tiny32` give different numbers. -/
theorem tiny32_differ (lin : Bool) {a b : BitVec 32}
    (h : stream (gen32 lin) (tiny32 a) = stream (gen32 lin) (tiny32 b)) : a = b := by
  obtain ⟨⟨ta, na⟩, -⟩ := tiny_constructed a 0
  obtain ⟨⟨tb, nb⟩, -⟩ := tiny_constructed b 0
  have hs : Same32 (tiny32 a) (tiny32 b) :=
    ⟨tb.1.trans ta.1.symm, tb.2.1.trans ta.2.1.symm, tb.2.2.trans ta.2.2.symm⟩
  obtain ⟨hper, hback, hall⟩ := tiny32_period lin (tiny32 a) ta na
  have hb : (tiny32 a).withStatus (tiny32 b).status = tiny32 b := by
    obtain ⟨q1, q2, q3⟩ := hs
    cases hx : tiny32 a
    cases hy : tiny32 b
    rw [hx, hy] at q1 q2 q3
    simp only at q1 q2 q3
    rw [q1, q2, q3]
    rfl
  obtain ⟨j, -, hj⟩ := hall (tiny32 b).status (by rw [hb]; exact nb)
  rw [hb] at hj
  have hp : Same32 (next32^[j] (tiny32 a)) (tiny32 b) := by
    obtain ⟨p1, p2, p3⟩ := next32_same (tiny32 a) j
    exact ⟨hs.1.trans p1.symm, hs.2.1.trans p2.symm, hs.2.2.trans p3.symm⟩
  have hd : 2 ^ 127 - 1 ∣ j := by
    refine (hper 0 j).1 fun k _ => ?_
    rw [← stream32_shift, stream32_congr lin hp hj, h]
  obtain ⟨z0, z1, z2, z3⟩ := (hback j).2 hd
  obtain ⟨w0, w1, w2, w3⟩ := hj
  exact init32_injective _ a b ⟨z0.symm.trans w0, z1.symm.trans w1, z2.symm.trans w2, z3.symm.trans w3⟩

/-- The merged seeds are different and the objects differ in one bit, which is ignored; seeds 0 and 1 are not merged. -/
example : (tiny64 0x8ad7b96990e5bcdb).s0 ^^^ (tiny64 0x893c846275446ea4).s0 = 0x8000000000000000 ∧
    (tiny64 0x8ad7b96990e5bcdb).s1 = (tiny64 0x893c846275446ea4).s1 ∧
    (tiny64 0xfe02e87dcfcb13b4).s0 ^^^ (tiny64 0xe1919d44dad8ecfc).s0 = 0x8000000000000000 ∧
    (tiny64 0xfe02e87dcfcb13b4).s1 = (tiny64 0xe1919d44dad8ecfc).s1 ∧
    (tiny64 0).s1 ≠ (tiny64 1).s1 := by
  decide +kernel

/-- The numbers that the objects with seeds 0 and 1 return are different. -/
example : stream (gen64 true) (tiny64 0) ≠ stream (gen64 true) (tiny64 1) := fun h =>
  absurd ((tiny64_same true 0 1).1 h).2 (by decide +kernel)

end MTT.TinyRef
