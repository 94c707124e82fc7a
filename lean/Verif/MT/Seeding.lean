import Verif.MT.Model
import Verif.Spec.MTRec

/-!
# Seeding of the Mersenne Twisters: helper lemmas

The seeding loops on checked memory compute the same loops on ordinary total arrays (`refSeed`, `refArray`),
whatever the memory contained before.
-/

namespace MTT.MT

variable {w : ℕ}

/-- Specification: the words produced by `seed(v)` (Knuth's recurrence). -/
def refSeed (C : Consts w) (v : BitVec w) : ℕ → BitVec w
  | 0 => v
  | i + 1 => C.mul * (refSeed C v i ^^^ (refSeed C v i >>> C.sh)) + BitVec.ofNat w (i + 1)

/-- Constants for which everything fits. -/
structure Consts.OK (C : Consts w) : Prop where
  two : 2 ≤ C.N
  cap : C.N ≤ C.cap

theorem rd_some {cap : ℕ} {m : Mem w} {i : ℕ} {v : BitVec w} (hi : i < cap) (h : m i = some v) :
    rd cap m i = some v := by rw [rd, if_pos hi, h]

theorem wr_some {cap : ℕ} (m : Mem w) {i : ℕ} (v : BitVec w) (hi : i < cap) :
    wr cap m i v = some (Function.update m i (some v)) := if_pos hi

theorem seedLoop_spec {C : Consts w} (hC : C.OK) (v : BitVec w) : ∀ (k i : ℕ) (m : Mem w), 1 ≤ i →
    i + k = C.N → (∀ j, j < i → m j = some (refSeed C v j)) →
    ∃ m', seedLoop C k i m = some m' ∧ ∀ j, j < C.N → m' j = some (refSeed C v j) := by
  intro k
  induction k with
  | zero => intro i m h1 h2 h; exact ⟨m, rfl, fun j hj => h j (by omega)⟩
  | succ k ih =>
    intro i m h1 h2 h
    have hcap := hC.cap
    unfold seedLoop
    rw [rd_some (by omega) (h (i - 1) (by omega))]
    simp only
    rw [wr_some _ _ (by omega)]
    simp only
    apply ih (i + 1) _ (by omega) (by omega)
    intro j hj
    by_cases hji : j = i
    · subst hji
      rw [Function.update_self]
      obtain ⟨j', rfl⟩ : ∃ j', j = j' + 1 := ⟨j - 1, by omega⟩
      rfl
    · rw [Function.update_of_ne hji]
      exact h j (by omega)

theorem seedMem_spec {C : Consts w} (hC : C.OK) (v : BitVec w) (m : Mem w) :
    ∃ m', seedMem C v m = some m' ∧ ∀ j, j < C.N → m' j = some (refSeed C v j) := by
  have h1 := hC.two
  have h2 := hC.cap
  unfold seedMem
  rw [wr_some _ _ (by omega)]
  simp only
  apply seedLoop_spec hC v _ _ _ le_rfl (by omega)
  intro j hj
  have : j = 0 := by omega
  subst this
  rw [Function.update_self]; rfl

/-! ### Array seeding on total arrays (specification) -/

/-- Increment of the index with the copy of the last word to word 0. -/
def refBump (N i : ℕ) (f : ℕ → BitVec w) : (ℕ → BitVec w) × ℕ :=
  if i + 1 ≥ N then (Function.update f 0 (f (N - 1)), 1) else (f, i + 1)

/-- First mixing loop over the key `v 0, …, v (len-1)`. -/
def refArr1 (C : Consts w) (v : ℕ → BitVec w) (len : ℕ) : ℕ → ℕ → ℕ → (ℕ → BitVec w) →
    (ℕ → BitVec w) × ℕ
  | 0, i, _, f => (f, i)
  | k + 1, i, j, f =>
    let q := refBump C.N i (Function.update f i
      ((f i ^^^ ((f (i - 1) ^^^ (f (i - 1) >>> C.sh)) * C.mul1)) + v j + BitVec.ofNat w j))
    refArr1 C v len k q.2 (if j + 1 < len then j + 1 else 0) q.1

/-- Second mixing loop. -/
def refArr2 (C : Consts w) : ℕ → ℕ → (ℕ → BitVec w) → (ℕ → BitVec w) × ℕ
  | 0, i, f => (f, i)
  | k + 1, i, f =>
    let q := refBump C.N i (Function.update f i
      ((f i ^^^ ((f (i - 1) ^^^ (f (i - 1) >>> C.sh)) * C.mul2)) - BitVec.ofNat w i))
    refArr2 C k q.2 q.1

/-- Specification: the words produced by array seeding ("init_by_array"). -/
def refArray (C : Consts w) (v : ℕ → BitVec w) (len : ℕ) : ℕ → BitVec w :=
  let p := refArr1 C v len (max C.N len) 1 0 (refSeed C (BitVec.ofNat w 19650218))
  Function.update (refArr2 C (C.N - 1) p.2 p.1).1 0 C.msb

/-- The checked memory holds the total array in the first `N` words. -/
def Holds (C : Consts w) (m : Mem w) (f : ℕ → BitVec w) : Prop := ∀ j, j < C.N → m j = some (f j)

theorem Holds.update {C : Consts w} {m : Mem w} {f : ℕ → BitVec w} (h : Holds C m f) (i : ℕ)
    (v : BitVec w) : Holds C (Function.update m i (some v)) (Function.update f i v) := by
  intro j hj
  by_cases hji : j = i
  · subst hji; rw [Function.update_self, Function.update_self]
  · rw [Function.update_of_ne hji, Function.update_of_ne hji, h j hj]

theorem bump_spec {C : Consts w} (hC : C.OK) {m : Mem w} {f : ℕ → BitVec w} (h : Holds C m f) {i : ℕ}
    (h1 : 1 ≤ i) (h2 : i < C.N) :
    ∃ m', bump C i m = some (m', (refBump C.N i f).2) ∧ Holds C m' (refBump C.N i f).1 ∧
      1 ≤ (refBump C.N i f).2 ∧ (refBump C.N i f).2 < C.N := by
  have h3 := hC.two
  have h4 := hC.cap
  unfold bump refBump
  split
  · rw [rd_some (by omega) (h (C.N - 1) (by omega))]
    simp only
    rw [wr_some _ _ (by omega)]
    exact ⟨_, rfl, h.update 0 _, le_rfl, by omega⟩
  · exact ⟨m, rfl, h, by simp, by simp only; omega⟩

theorem arr1_spec {C : Consts w} (hC : C.OK) {cells : List (BitVec w)} {len : ℕ}
    (hlen : len ≤ cells.length) (hc : 1 ≤ cells.length) :
    ∀ (k i j : ℕ) (m : Mem w) (f : ℕ → BitVec w), Holds C m f → 1 ≤ i → i < C.N →
    j < max len 1 →
    ∃ m', arr1 C cells len k i j m =
        some (m', (refArr1 C (fun j => cells.getD j 0) len k i j f).2) ∧
      Holds C m' (refArr1 C (fun j => cells.getD j 0) len k i j f).1 ∧
      1 ≤ (refArr1 C (fun j => cells.getD j 0) len k i j f).2 ∧
      (refArr1 C (fun j => cells.getD j 0) len k i j f).2 < C.N := by
  intro k
  induction k with
  | zero => intro i j m f h h1 h2 hj; exact ⟨m, rfl, h, h1, h2⟩
  | succ k ih =>
    intro i j m f h h1 h2 hj
    have h3 := hC.two
    have h4 := hC.cap
    have hjl : j < cells.length := by omega
    unfold arr1 refArr1
    rw [rd_some (by omega) (h i h2), rd_some (by omega) (h (i - 1) (by omega)),
      List.getElem?_eq_getElem hjl]
    simp only
    rw [wr_some _ _ (by omega)]
    simp only
    have hv : cells.getD j 0 = cells[j] := by simp [List.getD, hjl]
    rw [hv]
    obtain ⟨m', e1, e2, e3, e4⟩ := bump_spec hC (h.update i
      ((f i ^^^ ((f (i - 1) ^^^ (f (i - 1) >>> C.sh)) * C.mul1)) + cells[j] + BitVec.ofNat w j)) h1 h2
    rw [e1]
    simp only
    have hif : (if j + 1 ≥ len then 0 else j + 1) = if j + 1 < len then j + 1 else 0 := by
      split <;> split <;> omega
    rw [hif]
    exact ih _ _ m' _ e2 e3 e4 (by split <;> omega)

theorem arr2_spec {C : Consts w} (hC : C.OK) :
    ∀ (k i : ℕ) (m : Mem w) (f : ℕ → BitVec w), Holds C m f → 1 ≤ i → i < C.N →
    ∃ m', arr2 C k i m = some (m', (refArr2 C k i f).2) ∧ Holds C m' (refArr2 C k i f).1 := by
  intro k
  induction k with
  | zero => intro i m f h h1 h2; exact ⟨m, rfl, h⟩
  | succ k ih =>
    intro i m f h h1 h2
    have h3 := hC.two
    have h4 := hC.cap
    unfold arr2 refArr2
    rw [rd_some (by omega) (h i h2), rd_some (by omega) (h (i - 1) (by omega))]
    simp only
    rw [wr_some _ _ (by omega)]
    simp only
    obtain ⟨m', e1, e2, e3, e4⟩ := bump_spec hC (h.update i
      ((f i ^^^ ((f (i - 1) ^^^ (f (i - 1) >>> C.sh)) * C.mul2)) - BitVec.ofNat w i)) h1 h2
    rw [e1]
    simp only
    exact ih _ m' _ e2 e3 e4

theorem seedArrayMem_spec {C : Consts w} (hC : C.OK) {cells : List (BitVec w)} {len : ℕ}
    (hlen : len ≤ cells.length) (hc : 1 ≤ cells.length) (m : Mem w) :
    ∃ m', seedArrayMem C cells len m = some m' ∧
      ∀ j, j < C.N → m' j = some (refArray C (fun j => cells.getD j 0) len j) := by
  have h3 := hC.two
  have h4 := hC.cap
  obtain ⟨m1, e1, e2⟩ := seedMem_spec hC (BitVec.ofNat w 19650218) m
  have hmax : (if C.N > len then C.N else len) = max C.N len := by
    split <;> omega
  obtain ⟨m2, f1, f2, f3, f4⟩ := arr1_spec hC hlen hc (max C.N len) 1 0 m1 _ e2 le_rfl (by omega)
    (by omega)
  obtain ⟨m3, g1, g2⟩ := arr2_spec hC (C.N - 1) _ m2 _ f2 f3 f4
  unfold seedArrayMem
  rw [e1]
  simp only
  rw [hmax, f1]
  simp only
  rw [g1]
  simp only
  rw [wr_some _ _ (by omega)]
  exact ⟨_, rfl, g2.update 0 _⟩

end MTT.MT
