import Verif.Spec.MTRec
import Verif.Spec.LinSeq
import Verif.MT.Lemmas
import Verif.GF2.Engine

/-!
# The characteristic polynomial of a recurrence of Mersenne Twister type

`charPoly P` is written down as in the paper of Matsumoto and Nishimura (Horner's scheme over the bits of `a`);
it annihilates the step of the recurrence.  `charNum` computes the number that represents it.
-/

namespace MTT.MTRec

open Polynomial

variable {w : ℕ}

/-- Bit `j` as an element of the field. -/
def bz (b : Bool) : ZMod 2 := if b then 1 else 0

theorem bz_xor (a b : Bool) : bz (a ^^ b) = bz a + bz b := by cases a <;> cases b <;> decide

theorem bz_zero {b : Bool} (h : bz b = 0) : b = false := by
  cases b
  · rfl
  · exact absurd h (by decide)

/-- First `j` turns of Horner's scheme. -/
noncomputable def cp (P : MTPar w) : ℕ → (ZMod 2)[X]
  | 0 => 1
  | j + 1 =>
    if j + 1 ≤ P.r then cp P j * (X ^ (P.n - 1) + X ^ (P.m - 1)) + C (bz (P.a.getLsbD j))
    else cp P j * (X ^ P.n + X ^ P.m) + C (bz (P.a.getLsbD j))

/-- The characteristic polynomial. -/
noncomputable def charPoly (P : MTPar w) : (ZMod 2)[X] := cp P w

/-- Bit `j` of the words of a sequence. -/
def plane (x : ℕ → BitVec w) (j : ℕ) : BitSeq := fun k => bz ((x k).getLsbD j)

theorem twist_bit (a y : BitVec w) (j : ℕ) :
    bz ((twist a y).getLsbD j) = bz (y.getLsbD (j + 1)) + bz (a.getLsbD j) * bz (y.getLsbD 0) := by
  unfold twist
  rw [BitVec.getLsbD_xor, bz_xor, BitVec.getLsbD_ushiftRight, Nat.add_comm 1]
  congr 1
  cases y.getLsbD 0
  · simp [bz]
  · simp [bz]

theorem join_bit (r : ℕ) (u l : BitVec w) {j : ℕ} (hj : j < w) :
    (join r u l).getLsbD j = if j < r then l.getLsbD j else u.getLsbD j := by
  unfold join
  rw [BitVec.getLsbD_or, BitVec.getLsbD_and, BitVec.getLsbD_and, BitVec.getLsbD_not, upper_bit]
  by_cases h : j < r
  · have : ¬ r ≤ j := by omega
    simp [h, hj, this]
  · have : r ≤ j := by omega
    simp [h, hj, this]

theorem join_bit_ge (r : ℕ) (u l : BitVec w) {j : ℕ} (hj : w ≤ j) : (join r u l).getLsbD j = false :=
  BitVec.getLsbD_of_ge _ _ hj

variable {P : MTPar w} {x : ℕ → BitVec w}

local notation "E" => shiftOp

theorem plane_ge {j : ℕ} (hj : w ≤ j) : plane x j = 0 := by
  funext k
  show bz ((x k).getLsbD j) = 0
  rw [BitVec.getLsbD_of_ge _ _ hj]; rfl

/-- The recurrence in terms of the planes. -/
theorem plane_rec (hr1 : 1 ≤ P.r) (hr : P.r < w) (hx : IsSeq P x) (j : ℕ) :
    (E ^ P.n) (plane x j) + (E ^ P.m) (plane x j) =
      (if j + 1 < P.r then E (plane x (j + 1)) else plane x (j + 1)) +
        bz (P.a.getLsbD j) • E (plane x 0) := by
  funext k
  rw [Pi.add_apply, Pi.add_apply, shiftOp_pow, shiftOp_pow]
  have h1 := congrArg (fun v => bz (v.getLsbD j)) (hx k)
  simp only [BitVec.getLsbD_xor, bz_xor, twist_bit] at h1
  have h0 : (join P.r (x k) (x (k + 1))).getLsbD 0 = (x (k + 1)).getLsbD 0 := by
    rw [join_bit _ _ _ (by omega), if_pos (by omega)]
  have h2 : bz ((join P.r (x k) (x (k + 1))).getLsbD (j + 1)) =
      (if j + 1 < P.r then E (plane x (j + 1)) else plane x (j + 1)) k := by
    rcases Nat.lt_or_ge (j + 1) w with hj | hj
    · rw [join_bit _ _ _ hj]
      split
      · rfl
      · rfl
    · rw [join_bit_ge _ _ _ hj, plane_ge hj, if_neg (by omega)]; rfl
  rw [h0, h2] at h1
  have h3 : plane x j (k + P.n) = bz ((x (k + P.n)).getLsbD j) := rfl
  have h4 : plane x j (k + P.m) = bz ((x (k + P.m)).getLsbD j) := rfl
  rw [h3, h4, h1]
  have hc : ∀ c d : ZMod 2, c + d + c = d := by decide
  rw [hc]
  rfl

theorem bz_smul (b : ZMod 2) (a : BitSeq) : aeval E (C b) a = b • a := by
  rw [aeval_C]; rfl

theorem shift_cancel {a b c : BitSeq} (h : a = b + c) : b = a + c := by
  rw [h, add_assoc]
  have : c + c = 0 := by
    funext k
    show c k + c k = 0
    generalize c k = z
    revert z; decide
  rw [this, add_zero]

theorem aeval_two (q : (ZMod 2)[X]) (i j : ℕ) (b : ZMod 2) (a : BitSeq) :
    aeval E (q * (X ^ i + X ^ j) + C b) a = (E ^ i) (aeval E q a) + (E ^ j) (aeval E q a) + b • a := by
  rw [map_add, LinearMap.add_apply, bz_smul, mul_comm, map_mul, map_add, map_pow, map_pow, aeval_X]
  rfl

/-- The lower planes, one step later, in terms of plane 0. -/
theorem plane_low (hr1 : 1 ≤ P.r) (hr : P.r < w) (hm1 : 1 ≤ P.m) (hmn : P.m < P.n) (hx : IsSeq P x) (j : ℕ)
    (hj : j < P.r) : E (plane x j) = E (aeval E (cp P j) (plane x 0)) := by
  induction j with
  | zero => rw [cp, map_one]; rfl
  | succ j ih =>
    have ih := ih (by omega)
    have h := plane_rec hr1 hr hx j
    rw [if_pos hj] at h
    rw [shift_cancel h, cp, if_pos (by omega), aeval_two, map_add, map_add, map_smul]
    have e : ∀ i, 1 ≤ i → ∀ a : BitSeq, (E ^ i) a = (E ^ (i - 1)) (E a) := fun i hi a => by
      rw [← Module.End.mul_apply, ← pow_succ, Nat.sub_add_cancel hi]
    have e2 : ∀ i (a : BitSeq), E ((E ^ i) a) = (E ^ i) (E a) := fun i a => by
      rw [← Module.End.mul_apply, ← Module.End.mul_apply, ← pow_succ', ← pow_succ]
    rw [e _ hm1, e P.n (by omega), ih, e2, e2]

/-- The upper planes, and the annihilation, in terms of plane 0. -/
theorem plane_high (hr1 : 1 ≤ P.r) (hr : P.r < w) (hm1 : 1 ≤ P.m) (hmn : P.m < P.n) (hx : IsSeq P x) (j : ℕ)
    (hj : P.r ≤ j) : plane x j = E (aeval E (cp P j) (plane x 0)) := by
  have e : ∀ i, 1 ≤ i → ∀ a : BitSeq, (E ^ i) a = (E ^ (i - 1)) (E a) := fun i hi a => by
    rw [← Module.End.mul_apply, ← pow_succ, Nat.sub_add_cancel hi]
  have e2 : ∀ i (a : BitSeq), E ((E ^ i) a) = (E ^ i) (E a) := fun i a => by
    rw [← Module.End.mul_apply, ← Module.End.mul_apply, ← pow_succ', ← pow_succ]
  induction j with
  | zero => omega
  | succ j ih =>
    have h := plane_rec hr1 hr hx j
    rw [if_neg (by omega)] at h
    rw [shift_cancel h, cp]
    rcases Nat.lt_or_ge j P.r with h1 | h1
    · rw [if_pos (by omega), aeval_two, map_add, map_add, map_smul, e _ hm1, e P.n (by omega),
        plane_low hr1 hr hm1 hmn hx j h1, e2, e2]
    · rw [if_neg (by omega), aeval_two, map_add, map_add, map_smul, ih h1, e2, e2]

theorem charPoly_plane_zero (hr1 : 1 ≤ P.r) (hr : P.r < w) (hm1 : 1 ≤ P.m) (hmn : P.m < P.n) (hx : IsSeq P x) :
    E (aeval E (charPoly P) (plane x 0)) = 0 := by
  rw [charPoly, ← plane_high hr1 hr hm1 hmn hx w (by omega), plane_ge le_rfl]

/-- `X * charPoly` annihilates the planes that belong to the state. -/
theorem charPoly_plane (hr1 : 1 ≤ P.r) (hr : P.r < w) (hm1 : 1 ≤ P.m) (hmn : P.m < P.n) (hx : IsSeq P x) (j : ℕ) :
    aeval E (X * charPoly P) (E (plane x j)) = 0 ∧ (P.r ≤ j → aeval E (X * charPoly P) (plane x j) = 0) := by
  have comm : ∀ (q q' : (ZMod 2)[X]) (a : BitSeq), aeval E q (aeval E q' a) = aeval E q' (aeval E q a) :=
    fun q q' a => by
      rw [← Module.End.mul_apply, ← Module.End.mul_apply, ← map_mul, ← map_mul, mul_comm]
  have hX : ∀ a : BitSeq, E a = aeval E (X : (ZMod 2)[X]) a := fun a => by rw [aeval_X]
  have h0 := charPoly_plane_zero hr1 hr hm1 hmn hx
  rw [hX] at h0
  have key : ∀ q : (ZMod 2)[X], aeval E (X * charPoly P) (aeval E q (plane x 0)) = 0 := fun q => by
    rw [comm, map_mul, Module.End.mul_apply, h0, map_zero]
  have hh : P.r ≤ j → aeval E (X * charPoly P) (plane x j) = 0 := fun hj => by
    rw [plane_high hr1 hr hm1 hmn hx j hj, hX, comm, key, map_zero]
  refine ⟨?_, hh⟩
  rcases Nat.lt_or_ge j P.r with hj | hj
  · rw [plane_low hr1 hr hm1 hmn hx j hj, hX, comm, key, map_zero]
  · rw [hX, comm, hh hj, map_zero]

/-! ## On the state space -/

/-- Bit `j` of the oldest word (`P.r + j` of the full word), as a linear function of the state. -/
def obsHi (P : MTPar w) (j : ℕ) : State P →ₗ[ZMod 2] ZMod 2 :=
  linOf (fun s => bz (s.1.val.getLsbD j)) fun s t => by
    show bz ((s.1.val ^^^ t.1.val).getLsbD j) = _
    rw [BitVec.getLsbD_xor, bz_xor]

/-- Bit `j` of one of the other words. -/
def obsWord (P : MTPar w) (i : Fin (P.n - 1)) (j : ℕ) : State P →ₗ[ZMod 2] ZMod 2 :=
  linOf (fun s => bz ((s.2 i).val.getLsbD j)) fun s t => by
    show bz (((s.2 i).val ^^^ (t.2 i).val).getLsbD j) = _
    rw [BitVec.getLsbD_xor, bz_xor]

theorem state_eq_zero {s : State P} (h1 : ∀ j, j < w - P.r → obsHi P j s = 0)
    (h2 : ∀ i j, j < w → obsWord P i j s = 0) : s = 0 := by
  apply Prod.ext
  · apply Wd.ext
    apply BitVec.eq_of_getLsbD_eq
    intro j hj
    rw [bz_zero (h1 j hj)]
    exact BitVec.getLsbD_zero.symm
  · funext i
    apply Wd.ext
    apply BitVec.eq_of_getLsbD_eq
    intro j hj
    rw [bz_zero (h2 i j hj)]
    exact BitVec.getLsbD_zero.symm

/-- Every state belongs to a sequence. -/
theorem exists_seqState (hP : P.OK) (s : State P) : ∃ x, IsSeq P x ∧ seqState P x 0 = s := by
  have h1 := hP.hm1
  have h2 := hP.hmn
  refine ⟨MT.ext P (fun j => if j = 0 then lift P.r s.1.val else word s j), MT.ext_isSeq hP _, ?_⟩
  apply Prod.ext
  · show Wd.of (hi P.r (MT.ext P _ 0)) = _
    rw [MT.ext_init _ (by omega), if_pos rfl]
    apply Wd.ext
    show hi P.r (lift P.r s.1.val) = s.1.val
    apply BitVec.eq_of_getLsbD_eq
    intro i hi'
    have h3 : P.r + i < w := by omega
    have h4 : P.r + i - P.r = i := by omega
    rw [hi_bit, lift_bit]
    simp [hi', h3, h4]
  · funext j
    show Wd.of (MT.ext P _ (0 + 1 + j)) = _
    have hj := j.2
    rw [MT.ext_init _ (by omega), if_neg (by omega), word, dif_pos (by omega)]
    show s.2 _ = s.2 _
    exact congrArg s.2 (Fin.ext (show 0 + 1 + j.1 - 1 = j.1 by omega))

/-- The characteristic polynomial annihilates the step. -/
theorem aeval_charPoly (hP : P.OK) (hr1 : 1 ≤ P.r) (hm2 : 2 ≤ P.m) (ha : P.a.getLsbD (w - 1) = true) (s : State P) :
    aeval (T P) (charPoly P) s = 0 := by
  apply T_injective hP hm2 ha
  rw [map_zero]
  have e : T P (aeval (T P) (charPoly P) s) = aeval (T P) (X * charPoly P) s := by
    rw [map_mul, aeval_X]; rfl
  rw [e]
  obtain ⟨x, hx, rfl⟩ := exists_seqState hP s
  have hkey := charPoly_plane hr1 hP.hr hP.hm1 hP.hmn hx
  have hobs : ∀ c : State P →ₗ[ZMod 2] ZMod 2,
      c (aeval (T P) (X * charPoly P) (seqState P x 0)) =
        aeval E (X * charPoly P) (fun k => c (seqState P x k)) 0 := by
    intro c
    have h1 : (fun k => c (seqState P x k)) = outSeq (T P) c (seqState P x 0) := by
      funext k
      show _ = c ((T P ^ k) (seqState P x 0))
      rw [T_pow_seqState hP hx, Nat.zero_add]
    rw [h1, aeval_outSeq]
    show _ = c ((T P ^ 0) _)
    rw [pow_zero]; rfl
  apply state_eq_zero
  · intro j hj
    rw [hobs]
    have h1 : (fun k => obsHi P j (seqState P x k)) = plane x (P.r + j) := by
      funext k
      show bz ((hi P.r (x k)).getLsbD j) = bz ((x k).getLsbD (P.r + j))
      rw [hi_bit]; simp [hj]
    rw [h1, (hkey (P.r + j)).2 (by omega)]
    rfl
  · intro i j hj
    rw [hobs]
    have h1 : (fun k => obsWord P i j (seqState P x k)) = (E ^ (i : ℕ)) (E (plane x j)) := by
      funext k
      rw [shiftOp_pow]
      show bz ((x (k + 1 + i)).getLsbD j) = bz ((x (k + i + 1)).getLsbD j)
      rw [show k + 1 + (i : ℕ) = k + i + 1 by omega]
    rw [h1, show (E ^ (i : ℕ)) (E (plane x j)) = aeval E (X ^ (i : ℕ) : (ZMod 2)[X]) (E (plane x j)) by
      rw [map_pow, aeval_X], ← Module.End.mul_apply, ← map_mul, mul_comm, map_mul, Module.End.mul_apply,
      (hkey j).1, map_zero]
    rfl

/-! ## Degree, constant term, number -/

theorem cp_monic (hm1 : 1 ≤ P.m) (hmn : P.m < P.n) (hm2 : 2 ≤ P.m) (j : ℕ) : (cp P j).Monic ∧
    (cp P j).natDegree = (if j ≤ P.r then j * (P.n - 1) else P.r * (P.n - 1) + (j - P.r) * P.n) := by
  have step : ∀ (q : (ZMod 2)[X]) (i k : ℕ) (b : ZMod 2), q.Monic → 1 ≤ k → k < i →
      (q * (X ^ i + X ^ k) + C b).Monic ∧ (q * (X ^ i + X ^ k) + C b).natDegree = q.natDegree + i := by
    intro q i k b hq hk hki
    have h1 : (X ^ i + X ^ k : (ZMod 2)[X]).Monic := monic_X_pow_add (by
      rw [degree_X_pow]; exact_mod_cast hki)
    have h1d : (X ^ i + X ^ k : (ZMod 2)[X]).natDegree = i := by
      rw [natDegree_add_eq_left_of_natDegree_lt (by rwa [natDegree_X_pow, natDegree_X_pow]), natDegree_X_pow]
    have h2 := hq.mul h1
    have h3 : (q * (X ^ i + X ^ k)).natDegree = q.natDegree + i := by rw [hq.natDegree_mul h1, h1d]
    have h4 : (C b).natDegree < (q * (X ^ i + X ^ k)).natDegree := by rw [natDegree_C, h3]; omega
    refine ⟨h2.add_of_left (degree_lt_degree h4), ?_⟩
    rw [natDegree_add_eq_left_of_natDegree_lt h4, h3]
  induction j with
  | zero => exact ⟨monic_one, by simp [cp]⟩
  | succ j ih =>
    rw [cp]
    split
    · next h =>
      obtain ⟨i1, i2⟩ := ih
      obtain ⟨s1, s2⟩ := step (cp P j) (P.n - 1) (P.m - 1) (bz (P.a.getLsbD j)) i1 (by omega) (by omega)
      refine ⟨s1, ?_⟩
      rw [s2, i2, if_pos (by omega), Nat.succ_mul]
    · next h =>
      obtain ⟨i1, i2⟩ := ih
      obtain ⟨s1, s2⟩ := step (cp P j) P.n P.m (bz (P.a.getLsbD j)) i1 (by omega) (by omega)
      refine ⟨s1, ?_⟩
      rw [s2, i2]
      rcases Nat.lt_or_ge P.r j with h3 | h3
      · rw [if_neg (by omega), show j + 1 - P.r = (j - P.r) + 1 by omega, Nat.succ_mul]
        omega
      · have : j = P.r := by omega
        subst this
        rw [if_pos le_rfl, Nat.add_sub_cancel_left, Nat.one_mul]

theorem charPoly_natDegree (hP : P.OK) (hm2 : 2 ≤ P.m) :
    (charPoly P).natDegree = P.r * (P.n - 1) + (w - P.r) * P.n := by
  rw [charPoly, (cp_monic hP.hm1 hP.hmn hm2 w).2, if_neg (by have := hP.hr; omega)]

theorem charPoly_coeff_zero (hP : P.OK) (hm2 : 2 ≤ P.m) (ha : P.a.getLsbD (w - 1) = true) :
    (charPoly P).coeff 0 = 1 := by
  have hr := hP.hr
  have hmn := hP.hmn
  obtain ⟨v, rfl⟩ : ∃ v, w = v + 1 := ⟨w - 1, by omega⟩
  have ha : P.a.getLsbD v = true := ha
  have h : ∀ (q : (ZMod 2)[X]) i k, 1 ≤ i → 1 ≤ k → (q * (X ^ i + X ^ k)).coeff 0 = 0 := by
    intro q i k hi hk
    rw [mul_coeff_zero, coeff_add, coeff_X_pow, coeff_X_pow, if_neg (by omega), if_neg (by omega), add_zero, mul_zero]
  rw [charPoly, cp]
  split <;> rw [coeff_add, h _ _ _ (by omega) (by omega), ha, zero_add, coeff_C_zero] <;> rfl

open GF2

/-- One turn of Horner's scheme on the numbers (base `2^s`, `M` is the mask). -/
def charStep (s M n m r a j c : Nat) : Nat :=
  Bool.rec
    (Nat.land (Nat.add (Nat.add (Nat.shiftLeft c (Nat.mul s n)) (Nat.shiftLeft c (Nat.mul s m)))
      (Nat.land (Nat.shiftRight a j) 1)) M)
    (Nat.land (Nat.add (Nat.add (Nat.shiftLeft c (Nat.mul s (Nat.sub n 1))) (Nat.shiftLeft c (Nat.mul s (Nat.sub m 1))))
      (Nat.land (Nat.shiftRight a j) 1)) M)
    (Nat.ble (Nat.succ j) r)

/-- The number that represents the first turns of Horner's scheme. -/
def charNum (s M n m r a : Nat) : Nat → Nat :=
  Nat.rec (motive := fun _ => Nat) 1 fun j c => force c (charStep s M n m r a j)

theorem charNum_succ (s M n m r a j : ℕ) :
    charNum s M n m r a (j + 1) = charStep s M n m r a j (charNum s M n m r a j) := force_eq _ _

theorem rep_bit (s : ℕ) {L : ℕ} (hL : 1 ≤ L) (a : BitVec w) (j : ℕ) :
    Rep s L (Nat.land (Nat.shiftRight a.toNat j) 1) (C (bz (a.getLsbD j))) := by
  have e : Nat.land (Nat.shiftRight a.toNat j) 1 = if a.getLsbD j then 1 else 0 := by
    show (a.toNat >>> j) &&& 1 = _
    rw [Nat.and_one_is_mod]
    have h1 : a.getLsbD j = a.toNat.testBit j := rfl
    rw [h1, Nat.testBit]
    have h2 : 1 &&& a.toNat >>> j = a.toNat >>> j % 2 := Nat.one_and_eq_mod_two _
    rw [h2]
    rcases Nat.mod_two_eq_zero_or_one (a.toNat >>> j) with h | h <;> rw [h] <;> rfl
  rw [e]
  cases a.getLsbD j
  · refine ⟨0, by simp, fun i => by simp, fun i _ => by simp, ?_⟩
    simp [bz]
  · have := rep_one (s := s) hL
    simpa [bz] using this

theorem charNum_rep {s L : ℕ} (hs : 2 ≤ s) (P : MTPar w) (hn : 1 ≤ P.n) (hmn : P.m < P.n) (j : ℕ)
    (hL : 1 + j * P.n ≤ L) : Rep s L (charNum s (mask s L) P.n P.m P.r P.a.toNat j) (cp P j) := by
  suffices H : ∀ j, 1 + j * P.n ≤ L → Rep s (1 + j * P.n) (charNum s (mask s L) P.n P.m P.r P.a.toNat j) (cp P j) from
    (H j hL).mono hL le_rfl
  clear hL j
  have h4 : 3 < 2 ^ s := by
    calc 3 < 2 ^ 2 := by decide
      _ ≤ 2 ^ s := Nat.pow_le_pow_right (by decide) hs
  intro j
  induction j with
  | zero => intro _; exact rep_one (by omega)
  | succ j ih =>
    intro hL
    rw [Nat.succ_mul] at hL
    have ih := ih (by omega)
    have key : ∀ i k, i ≤ P.n → k ≤ P.n → Rep s (1 + (j + 1) * P.n)
        (Nat.land (Nat.add (Nat.add (Nat.shiftLeft (charNum s (mask s L) P.n P.m P.r P.a.toNat j) (Nat.mul s i))
          (Nat.shiftLeft (charNum s (mask s L) P.n P.m P.r P.a.toNat j) (Nat.mul s k)))
          (Nat.land (Nat.shiftRight P.a.toNat j) 1)) (mask s L))
        (cp P j * (X ^ i + X ^ k) + C (bz (P.a.getLsbD j))) := by
      intro i k hi hk
      have h1 := (ih.shiftLeft i).mono (L' := 1 + (j + 1) * P.n) (B' := 1) (by rw [Nat.succ_mul]; omega) le_rfl
      have h2 := (ih.shiftLeft k).mono (L' := 1 + (j + 1) * P.n) (B' := 1) (by rw [Nat.succ_mul]; omega) le_rfl
      have h3 := (h1.add h2).add (rep_bit s (L := 1 + (j + 1) * P.n) (by omega) P.a j)
      rw [← mul_add] at h3
      have h5 := (h3.mono (L' := L) (by rw [Nat.succ_mul]; omega) le_rfl).and_mask (by omega) (by omega)
      have h6 : Rep s L _ _ := h5
      -- the mask does not lengthen
      refine h6.shorten fun q hq => ?_
      exact h3.coeff_zero hq
    rw [charNum_succ, cp, charStep]
    by_cases h : j + 1 ≤ P.r
    · rw [if_pos h, show Nat.ble (Nat.succ j) P.r = true from Nat.ble_eq_true_of_le h]
      exact key (P.n - 1) (P.m - 1) (by omega) (by omega)
    · rw [if_neg h, show Nat.ble (Nat.succ j) P.r = false by
        rw [← Bool.not_eq_true, Nat.ble_eq]; exact h]
      exact key P.n P.m le_rfl hmn.le

end MTT.MTRec
