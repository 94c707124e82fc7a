import Verif.Samples.TinySeedStreams
import Verif.MT.OneStream

/-!
# C135: all streams of `Tiny32` are one stream, and so are all streams of `Tiny64`
-/

namespace MTT.TinyRef

open MTT

/-- **C135.**  The numbers of any two structs with the parameters of `Tiny32` and non-zero effective states are one stream,
entered at exactly one distance below `2^127-1`. -/
theorem tiny32_one_stream (lin : Bool) {r r' : T32} (h : HasTiny32 r) (h' : HasTiny32 r') (h0 : ¬ Zero32 r)
    (h0' : ¬ Zero32 r') :
    ∃! K, K < 2 ^ 127 - 1 ∧ ∀ j, stream (gen32 lin) r (K + j) = stream (gen32 lin) r' j := by
  obtain ⟨hper, -, hall⟩ := tiny32_period lin r h h0
  have q : Same32 r r' := ⟨h'.1.trans h.1.symm, h'.2.1.trans h.2.1.symm, h'.2.2.trans h.2.2.symm⟩
  have hb : r.withStatus r'.status = r' := by
    obtain ⟨q1, q2, q3⟩ := q
    cases r
    cases r'
    simp only at q1 q2 q3
    rw [q1, q2, q3]
    rfl
  obtain ⟨K, hK, e⟩ := hall r'.status (by rw [hb]; exact h0')
  rw [hb] at e
  obtain ⟨p1, p2, p3⟩ := next32_same r K
  have hs : Same32 (next32^[K] r) r' := ⟨q.1.trans p1.symm, q.2.1.trans p2.symm, q.2.2.trans p3.symm⟩
  have key : ∀ j, stream (gen32 lin) r (K + j) = stream (gen32 lin) r' j := fun j => by
    rw [Nat.add_comm K j, ← stream32_shift, stream32_congr lin hs e]
  exact ⟨K, ⟨hK, key⟩, fun K' hK' => MT.shift_unique hper hK'.1 hK hK'.2 key⟩

/-- **C135.**  The same for `Tiny64`. -/
theorem tiny64_one_stream (lin : Bool) {r r' : T64} (h : HasTiny64 r) (h' : HasTiny64 r') (h0 : ¬ Zero64 r)
    (h0' : ¬ Zero64 r') :
    ∃! K, K < 2 ^ 127 - 1 ∧ ∀ j, stream (gen64 lin) r (K + j) = stream (gen64 lin) r' j := by
  obtain ⟨hper, -, hall⟩ := tiny64_period lin r h h0
  have q : Same64 r r' := ⟨h'.1.trans h.1.symm, h'.2.1.trans h.2.1.symm, h'.2.2.trans h.2.2.symm⟩
  have hb : { r with s0 := r'.s0, s1 := r'.s1 } = r' := by
    obtain ⟨q1, q2, q3⟩ := q
    cases r
    cases r'
    simp only at q1 q2 q3
    rw [q1, q2, q3]
  obtain ⟨K, hK, e⟩ := hall r'.s0 r'.s1 (by rw [hb]; exact h0')
  rw [hb] at e
  obtain ⟨p1, p2, p3⟩ := (next64_iter r K).1
  have hs : Same64 (next64^[K] r) r' := ⟨q.1.trans p1.symm, q.2.1.trans p2.symm, q.2.2.trans p3.symm⟩
  have key : ∀ j, stream (gen64 lin) r (K + j) = stream (gen64 lin) r' j := fun j => by
    rw [Nat.add_comm K j, ← stream64_shift, stream64_congr lin hs e]
  exact ⟨K, ⟨hK, key⟩, fun K' hK' => MT.shift_unique hper hK'.1 hK hK'.2 key⟩

/-- **C135.**  In particular the streams of any two seeds of `Tiny32`, and of `Tiny64`, are one stream. -/
theorem tiny_seeds_one_stream (lin : Bool) (a b : BitVec 32) (c d : BitVec 64) :
    (∃! K, K < 2 ^ 127 - 1 ∧ ∀ j, stream (gen32 lin) (tiny32 a) (K + j) = stream (gen32 lin) (tiny32 b) j) ∧
    ∃! K, K < 2 ^ 127 - 1 ∧ ∀ j, stream (gen64 lin) (tiny64 c) (K + j) = stream (gen64 lin) (tiny64 d) j :=
  ⟨tiny32_one_stream lin (tiny_constructed a 0).1.1 (tiny_constructed b 0).1.1 (tiny_constructed a 0).1.2
      (tiny_constructed b 0).1.2,
    tiny64_one_stream lin (tiny_constructed 0 c).2.1 (tiny_constructed 0 d).2.1 (tiny_constructed 0 c).2.2
      (tiny_constructed 0 d).2.2⟩

/-- Two seeds of `Tiny32`: their streams differ (C127), so the distance is not 0. -/
example : ∃ K, 0 < K ∧ K < 2 ^ 127 - 1 ∧
    ∀ j, stream (gen32 false) (tiny32 1) (K + j) = stream (gen32 false) (tiny32 1234) j := by
  obtain ⟨K, ⟨hK, h⟩, -⟩ := (tiny_seeds_one_stream false 1 1234 0 0).1
  refine ⟨K, Nat.pos_of_ne_zero fun e => ?_, hK, h⟩
  subst e
  have := tiny32_differ false (a := 1) (b := 1234) (funext fun j => by rw [← h j, Nat.zero_add])
  exact absurd this (by decide)

end MTT.TinyRef
