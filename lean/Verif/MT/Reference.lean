import Verif.MT.Props
import Verif.Spec.MTRef

/-!
# C14, C16: the two classes are the published generators

The statements use only `Verif.Spec.MTRef`, where every constant is written out.
-/

namespace MTT.MT

open MTRec

theorem refSeed32 (v : BitVec 32) (i : ℕ) : refSeed C32 v i = MTRef.seed32 v i := by
  induction i with
  | zero => rfl
  | succ i ih =>
    rw [refSeed, MTRef.seed32, ih]
    rfl

theorem refSeed64 (v : BitVec 64) (i : ℕ) : refSeed C64 v i = MTRef.seed64 v i := by
  induction i with
  | zero => rfl
  | succ i ih =>
    rw [refSeed, MTRef.seed64, ih]
    rfl

theorem refArr1_32 (v : ℕ → BitVec 32) (len k : ℕ) : ∀ i j f,
    refArr1 C32 v len k i j f = MTRef.mix32 v len k i j f := by
  induction k with
  | zero => intros; rfl
  | succ k ih =>
    intro i j f
    rw [refArr1, MTRef.mix32]
    have hN : C32.N = 624 := rfl
    by_cases h : i + 1 ≥ 624
    · rw [refBump, hN, if_pos h, if_pos h, ih]; rfl
    · rw [refBump, hN, if_neg h, if_neg h, ih]; rfl

theorem refArr2_32 (k : ℕ) : ∀ i f, (refArr2 C32 k i f).1 = MTRef.mix32' k i f := by
  induction k with
  | zero => intros; rfl
  | succ k ih =>
    intro i f
    rw [refArr2, MTRef.mix32']
    have hN : C32.N = 624 := rfl
    by_cases h : i + 1 ≥ 624
    · rw [refBump, hN, if_pos h, if_pos h, ih]; rfl
    · rw [refBump, hN, if_neg h, if_neg h, ih]; rfl

theorem refArr1_64 (v : ℕ → BitVec 64) (len k : ℕ) : ∀ i j f,
    refArr1 C64 v len k i j f = MTRef.mix64 v len k i j f := by
  induction k with
  | zero => intros; rfl
  | succ k ih =>
    intro i j f
    rw [refArr1, MTRef.mix64]
    have hN : C64.N = 312 := rfl
    by_cases h : i + 1 ≥ 312
    · rw [refBump, hN, if_pos h, if_pos h, ih]; rfl
    · rw [refBump, hN, if_neg h, if_neg h, ih]; rfl

theorem refArr2_64 (k : ℕ) : ∀ i f, (refArr2 C64 k i f).1 = MTRef.mix64' k i f := by
  induction k with
  | zero => intros; rfl
  | succ k ih =>
    intro i f
    rw [refArr2, MTRef.mix64']
    have hN : C64.N = 312 := rfl
    by_cases h : i + 1 ≥ 312
    · rw [refBump, hN, if_pos h, if_pos h, ih]; rfl
    · rw [refBump, hN, if_neg h, if_neg h, ih]; rfl

theorem refArray32 (v : ℕ → BitVec 32) (len : ℕ) : refArray C32 v len = MTRef.array32 v len := by
  unfold refArray MTRef.array32
  dsimp only
  rw [refArr2_32, refArr1_32, show refSeed C32 (BitVec.ofNat 32 19650218) = MTRef.seed32 19650218 from
    funext (refSeed32 _)]
  rfl

theorem refArray64 (v : ℕ → BitVec 64) (len : ℕ) : refArray C64 v len = MTRef.array64 v len := by
  unfold refArray MTRef.array64
  dsimp only
  rw [refArr2_64, refArr1_64, show refSeed C64 (BitVec.ofNat 64 19650218) = MTRef.seed64 19650218 from
    funext (refSeed64 _)]
  rfl

theorem isSeq32_iff (x : ℕ → BitVec 32) : IsSeq P32 x ↔ MTRef.IsSeq32 x := by
  have hu : MTRec.upper 32 31 = 0x80000000 := by decide
  have key : ∀ k, twist P32.a (join P32.r (x k) (x (k + 1))) =
      ((((x k &&& 0x80000000) ||| (x (k + 1) &&& 0x7fffffff)) >>> 1) ^^^
        (if (x (k + 1)).getLsbD 0 then 0x9908b0df else 0)) := by
    intro k
    have hj : join P32.r (x k) (x (k + 1)) = (x k &&& 0x80000000) ||| (x (k + 1) &&& 0x7fffffff) := by
      show (x k &&& MTRec.upper 32 31) ||| (x (k + 1) &&& ~~~ MTRec.upper 32 31) = _
      rw [hu]; rfl
    have hb : ((x k &&& 0x80000000) ||| (x (k + 1) &&& 0x7fffffff) : BitVec 32).getLsbD 0 =
        (x (k + 1)).getLsbD 0 := by
      rw [BitVec.getLsbD_or, BitVec.getLsbD_and, BitVec.getLsbD_and,
        show (0x80000000 : BitVec 32).getLsbD 0 = false by decide,
        show (0x7fffffff : BitVec 32).getLsbD 0 = true by decide]
      simp
    rw [hj]
    unfold twist
    rw [hb]
    rfl
  constructor
  · intro h k; rw [← key]; exact h k
  · intro h k; rw [key]; exact h k

theorem isSeq64_iff (x : ℕ → BitVec 64) : IsSeq P64 x ↔ MTRef.IsSeq64 x := by
  have hu : MTRec.upper 64 31 = 0xFFFFFFFF80000000 := by decide
  have key : ∀ k, twist P64.a (join P64.r (x k) (x (k + 1))) =
      ((((x k &&& 0xFFFFFFFF80000000) ||| (x (k + 1) &&& 0x7FFFFFFF)) >>> 1) ^^^
        (if (x (k + 1)).getLsbD 0 then 0xB5026F5AA96619E9 else 0)) := by
    intro k
    have hj : join P64.r (x k) (x (k + 1)) = (x k &&& 0xFFFFFFFF80000000) ||| (x (k + 1) &&& 0x7FFFFFFF) := by
      show (x k &&& MTRec.upper 64 31) ||| (x (k + 1) &&& ~~~ MTRec.upper 64 31) = _
      rw [hu]; rfl
    have hb : ((x k &&& 0xFFFFFFFF80000000) ||| (x (k + 1) &&& 0x7FFFFFFF) : BitVec 64).getLsbD 0 =
        (x (k + 1)).getLsbD 0 := by
      rw [BitVec.getLsbD_or, BitVec.getLsbD_and, BitVec.getLsbD_and,
        show (0xFFFFFFFF80000000 : BitVec 64).getLsbD 0 = false by decide,
        show (0x7FFFFFFF : BitVec 64).getLsbD 0 = true by decide]
      simp
    rw [hj]
    unfold twist
    rw [hb]
    rfl
  constructor
  · intro h k; rw [← key]; exact h k
  · intro h k; rw [key]; exact h k

/-- **C14.**  Whatever the object contained, after `seed(v)` the outputs of `MersenneTwister` are those of the
published MT19937 seeded with the low 32 bits of `v`. -/
theorem mt19937_published (s : St 32) (v : BitVec 64) (n : ℕ) (x : ℕ → BitVec 32) (hx : MTRef.IsSeq32 x)
    (h0 : ∀ j, j < 624 → x j = MTRef.seed32 (v.setWidth 32) j) :
    ∃ s', run step32 s (.seed v :: List.replicate n .getNative) =
      some (s', 0 :: (List.range n).map fun k => (MTRef.temper32 (x (624 + k))).setWidth 64) :=
  mt19937 s v n x ((isSeq32_iff x).2 hx) fun j hj => (h0 j hj).trans (refSeed32 _ _).symm

/-- **C14** for keys: the published array initialisation. -/
theorem mt19937_array_published (s : St 32) (cells : List (BitVec 32)) (len n : ℕ) (h1 : len ≤ cells.length)
    (h2 : 1 ≤ cells.length) (x : ℕ → BitVec 32) (hx : MTRef.IsSeq32 x)
    (h0 : ∀ j, j < 624 → x j = MTRef.array32 (fun j => cells.getD j 0) len j) :
    ∃ s', run step32 s (.seedArr cells len :: List.replicate n .getNative) =
      some (s', 0 :: (List.range n).map fun k => (MTRef.temper32 (x (624 + k))).setWidth 64) :=
  mt19937_array s cells len n h1 h2 x ((isSeq32_iff x).2 hx) fun j hj => by rw [h0 j hj, refArray32]

/-- **C16.**  The same for `MersenneTwister64` and MT19937-64. -/
theorem mt19937_64_published (s : St 64) (v : BitVec 64) (n : ℕ) (x : ℕ → BitVec 64) (hx : MTRef.IsSeq64 x)
    (h0 : ∀ j, j < 312 → x j = MTRef.seed64 v j) :
    ∃ s', run step64 s (.seed v :: List.replicate n .getNative) =
      some (s', 0 :: (List.range n).map fun k => MTRef.temper64 (x (312 + k))) :=
  mt19937_64 s v n x ((isSeq64_iff x).2 hx) fun j hj => (h0 j hj).trans (refSeed64 _ _).symm

theorem mt19937_64_array_published (s : St 64) (cells : List (BitVec 64)) (len n : ℕ) (h1 : len ≤ cells.length)
    (h2 : 1 ≤ cells.length) (x : ℕ → BitVec 64) (hx : MTRef.IsSeq64 x)
    (h0 : ∀ j, j < 312 → x j = MTRef.array64 (fun j => cells.getD j 0) len j) :
    ∃ s', run step64 s (.seedArr cells len :: List.replicate n .getNative) =
      some (s', 0 :: (List.range n).map fun k => MTRef.temper64 (x (312 + k))) :=
  mt19937_64_array s cells len n h1 h2 x ((isSeq64_iff x).2 hx) fun j hj => by rw [h0 j hj, refArray64]

-- For every seed and every key such a sequence exists.
example (v : BitVec 32) : ∃ x, MTRef.IsSeq32 x ∧ ∀ j, j < 624 → x j = MTRef.seed32 v j := by
  obtain ⟨x, h, _⟩ := exists_seq P32_ok (MTRef.seed32 v)
  exact ⟨x, (isSeq32_iff x).1 h.1, h.2⟩

example (v : ℕ → BitVec 64) (len : ℕ) : ∃ x, MTRef.IsSeq64 x ∧ ∀ j, j < 312 → x j = MTRef.array64 v len j := by
  obtain ⟨x, h, _⟩ := exists_seq P64_ok (MTRef.array64 v len)
  exact ⟨x, (isSeq64_iff x).1 h.1, h.2⟩

end MTT.MT
