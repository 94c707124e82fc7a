import Verif.SIMD.SFMT
import Mathlib.Tactic.IntervalCases

/-!
# C63: `calc_SIMD_equidistribution` does not deliver `k(v)`

An object of class `sfmt` with three words, parameters in the range of `setUpParam`, in a state that generates a
space of dimension 5.  Any five consecutive 32-bit words have most significant bits that take all values, so
`k(1) = 5`; the function delivers 4.
-/

namespace MTT.SFMT

open W128 PIS Polynomial SIMD

/-- The words of the sequence. -/
def cw : ℕ → W128
  | 0 => 0x288028a202a220a822a8020088288020
  | 1 => 0x88822028aa8880a0a0a208220aa0a28a
  | 2 => 0x8aaa8aa8028a808a0aa082a0808002
  | 3 => 0x22aa8a028a802820828800aaaaa22aa2
  | 4 => 0xa8a208080a2a8a8a80a880882080820a
  | 5 => 0x822228028aa802a88a88aa0a88aa880a
  | 6 => 0x20008a88220a88a2888288220028a20
  | 7 => 0x8a00082a2002a8202a28aaaa208a0a0
  | 8 => 0xa2aa2a088220888a02002aa228aaa82
  | _ => 0

def cpar : Par := ⟨1, 22, 7, 16, 1, 3953049447, 3186095086, 4261406863, 3186622451⟩

/-- The object. -/
def cobj : St where
  mexp := 384
  size := 3
  index := 2
  startMode := 0
  weightMode := 4
  state := cw
  param := cpar
  parity1 := 0
  parity2 := 0
  parity3 := 0
  parity4 := 0
  rev := false
  previous := 0

theorem cobj_inv : Inv 3 cobj :=
  ⟨by decide, rfl, by decide, by decide, by decide, ⟨by decide, by decide, by decide, by decide, by decide, by decide⟩⟩

/-- The rings that follow each other. -/
def cv (m : ℕ) : Fin 3 → Wd 128 := fun i => Wd.of (cw (m + i))

theorem cobj_vec : Ring.vec 3 cobj.state cobj.index = cv 0 := by
  funext i
  fin_cases i <;> rfl

theorem c_new : ∀ m < 6, newOf cpar (cv m) = cw (m + 3) := by decide +kernel

theorem c_step (m : ℕ) (hm : m < 6) : T1 3 cpar (cv m) = cv (m + 1) := by
  show shiftIn 3 (cv m) (Wd.of (newOf cpar (cv m))) = _
  rw [c_new m hm]
  funext i
  have : ∀ i : Fin 3, shiftIn 3 (cv m) (Wd.of (cw (m + 3))) i = Wd.of (cw (m + 1 + i)) := by
    intro i
    unfold shiftIn cv
    by_cases h : (i : ℕ) + 1 < 3
    · rw [dif_pos h]
      show Wd.of (cw (m + (i + 1))) = _
      rw [show m + ((i : ℕ) + 1) = m + 1 + i by omega]
    · rw [dif_neg h, show m + 3 = m + 1 + i by omega]
  exact this i

theorem c_pow (m : ℕ) (hm : m < 7) : (T1 3 cpar ^ m) (cv 0) = cv m := by
  induction m with
  | zero => rfl
  | succ m ih => rw [pow_succ', Module.End.mul_apply, ih (by omega), c_step m (by omega)]

/-- The polynomial of the space. -/
noncomputable def cpoly : (ZMod 2)[X] := X ^ 5 + (X ^ 3 + X ^ 2 + X + 1)

theorem cpoly_tail : (X ^ 3 + X ^ 2 + X + 1 : (ZMod 2)[X]).degree < ((5 : ℕ) : WithBot ℕ) := by
  apply lt_of_le_of_lt (b := ((3 : ℕ) : WithBot ℕ))
  · compute_degree
    exact le_rfl
  · exact_mod_cast (by decide : 3 < 5)

theorem cpoly_monic : cpoly.Monic := monic_X_pow_add cpoly_tail

theorem cpoly_deg : cpoly.natDegree = 5 := by
  unfold cpoly
  rw [natDegree_add_eq_left_of_degree_lt, natDegree_X_pow]
  rw [degree_X_pow]
  exact cpoly_tail

theorem c_sum : ∀ m < 3, cw (m + 5) ^^^ (cw (m + 3) ^^^ cw (m + 2) ^^^ cw (m + 1) ^^^ cw m) = 0 := by decide +kernel

theorem cpoly_zero : aeval (T1 3 cpar) cpoly (cv 0) = 0 := by
  unfold cpoly
  rw [map_add (aeval _), map_add (aeval _), map_add (aeval _), map_add (aeval _), map_one, map_pow, map_pow, map_pow,
    aeval_X, LinearMap.add_apply, LinearMap.add_apply, LinearMap.add_apply, LinearMap.add_apply, c_pow 5 (by decide),
    c_pow 3 (by decide), c_pow 2 (by decide), Module.End.one_apply, c_step 0 (by decide)]
  funext i
  show Wd.of (cw (5 + i) ^^^ (cw (3 + i) ^^^ cw (2 + i) ^^^ cw (1 + i) ^^^ cw (0 + i))) = Wd.of 0
  have := c_sum i i.2
  rw [show (i : ℕ) + 5 = 5 + i by omega, show (i : ℕ) + 3 = 3 + i by omega, show (i : ℕ) + 2 = 2 + i by omega,
    show (i : ℕ) + 1 = 1 + i by omega] at this
  rw [Nat.zero_add, this]

/-- Most significant bit of word `k` of the stream, `t` blocks later. -/
def cbit (k t : ℕ) : ZMod 2 := if (u (cw (k / 4 + t + 2)) (k % 4)).getMsbD 0 then 1 else 0

theorem c_stream (k t : ℕ) (h : k / 4 + t < 7) : stream32 3 cpar k (cv t) 0 = cbit k t := by
  rw [← c_pow t (by omega), stream32_apply, ← Module.End.mul_apply, ← pow_add, c_pow _ h]
  rfl

theorem cv_mem (t : ℕ) (ht : t < 7) : cv t ∈ cyc (T1 3 cpar) (cv 0) := by
  rw [← c_pow t ht]
  exact cyc_pow _ (cyc_self _ _) t

/-- A combination of the first five rings with the wanted bits. -/
theorem eqd_comb (j : ℕ) (c0 c1 c2 c3 c4 : ZMod 2) (a : ℕ → V) (hj : j < 4 := by decide)
    (h : ∀ i < 5, c0 * cbit (j + i) 0 + c1 * cbit (j + i) 1 + c2 * cbit (j + i) 2 + c3 * cbit (j + i) 3 +
      c4 * cbit (j + i) 4 = a i 0) :
    ∃ s ∈ cyc (T1 3 cpar) (cv 0), ∀ i < 5, ∀ b < 1, (flip 32 false).comp (stream32 3 cpar (j + i)) s b = a i b := by
  refine ⟨c0 • cv 0 + c1 • cv 1 + c2 • cv 2 + c3 • cv 3 + c4 • cv 4, ?_, fun i hi b hb => ?_⟩
  · have hm := fun (c : ZMod 2) t (ht : t < 7) => Submodule.smul_mem (cyc (T1 3 cpar) (cv 0)) c (cv_mem t ht)
    exact add_mem (add_mem (add_mem (add_mem (hm c0 0 (by decide)) (hm c1 1 (by decide))) (hm c2 2 (by decide)))
      (hm c3 3 (by decide))) (hm c4 4 (by decide))
  · obtain rfl : b = 0 := by omega
    have hs : ∀ t < 5, (flip 32 false).comp (stream32 3 cpar (j + i)) (cv t) 0 = cbit (j + i) t := fun t ht =>
      c_stream (j + i) t (by omega)
    rw [map_add, map_add, map_add, map_add, map_smul, map_smul, map_smul, map_smul, map_smul]
    show c0 * (flip 32 false).comp (stream32 3 cpar (j + i)) (cv 0) 0 +
      c1 * (flip 32 false).comp (stream32 3 cpar (j + i)) (cv 1) 0 +
      c2 * (flip 32 false).comp (stream32 3 cpar (j + i)) (cv 2) 0 +
      c3 * (flip 32 false).comp (stream32 3 cpar (j + i)) (cv 3) 0 +
      c4 * (flip 32 false).comp (stream32 3 cpar (j + i)) (cv 4) 0 = a i 0
    rw [hs 0 (by decide), hs 1 (by decide), hs 2 (by decide), hs 3 (by decide), hs 4 (by decide)]
    exact h i hi

/-- The stream is 5-dimensionally equidistributed with 1-bit accuracy. -/
theorem c_eqd : EqdAll (fun k => (flip 32 false).comp (stream32 3 cpar k)) (cyc (T1 3 cpar) (cv 0)) 1 5 := by
  have hi := cobj_inv
  rw [((blocks32 (p := cpar) hi.three hi.pos_pos hi.pos hi.ok (cv 0)).flip 32 false).eqdAll_iff (by decide)]
  intro j hj
  have : j = 0 ∨ j = 1 ∨ j = 2 ∨ j = 3 := by omega
  rcases this with rfl | rfl | rfl | rfl
  · intro a
    refine eqd_comb 0 (a 1 0 + a 2 0 + a 4 0) (a 2 0 + a 3 0 + a 4 0) (a 0 0 + a 1 0) (a 0 0 + a 1 0 + a 3 0) (a 0 0 + a 2 0) a (by decide) fun i hi => ?_
    interval_cases i <;>
    · generalize a 0 0 = a0
      generalize a 1 0 = a1
      generalize a 2 0 = a2
      generalize a 3 0 = a3
      generalize a 4 0 = a4
      revert a0 a1 a2 a3 a4
      decide +kernel
  · intro a
    refine eqd_comb 1 (a 0 0 + a 1 0 + a 3 0) (a 1 0 + a 2 0 + a 3 0) (a 0 0 + a 2 0 + a 4 0) (a 0 0 + a 4 0) (a 1 0 + a 2 0 + a 4 0) a (by decide) fun i hi => ?_
    interval_cases i <;>
    · generalize a 0 0 = a0
      generalize a 1 0 = a1
      generalize a 2 0 = a2
      generalize a 3 0 = a3
      generalize a 4 0 = a4
      revert a0 a1 a2 a3 a4
      decide +kernel
  · intro a
    refine eqd_comb 2 (a 0 0 + a 3 0 + a 4 0) (a 0 0 + a 1 0 + a 2 0) (a 1 0 + a 2 0 + a 4 0) (a 2 0 + a 4 0) (a 0 0 + a 1 0 + a 3 0) a (by decide) fun i hi => ?_
    interval_cases i <;>
    · generalize a 0 0 = a0
      generalize a 1 0 = a1
      generalize a 2 0 = a2
      generalize a 3 0 = a3
      generalize a 4 0 = a4
      revert a0 a1 a2 a3 a4
      decide +kernel
  · intro a
    refine eqd_comb 3 (a 2 0 + a 4 0) (a 0 0 + a 1 0 + a 3 0 + a 4 0) (a 0 0 + a 1 0 + a 3 0) (a 1 0 + a 3 0) (a 0 0 + a 2 0 + a 3 0 + a 4 0) a (by decide) fun i hi => ?_
    interval_cases i <;>
    · generalize a 0 0 = a0
      generalize a 1 0 = a1
      generalize a 2 0 = a2
      generalize a 3 0 = a3
      generalize a 4 0 = a4
      revert a0 a1 a2 a3 a4
      decide +kernel

/-- **C63**, as first stated, is false: for this object of class `sfmt` the function delivers 4 where the dimension of
equidistribution is 5. -/
theorem simd_underestimates : Inv 3 cobj ∧ ∀ mexp, 5 ≤ mexp → mexp ≤ 384 → ∀ veq0, ∃ veq sum,
    calcSIMD (simdOps 3) (simdAlg info32 false) calc1posWrap (128 * (129 * mexp) + 129) mexp 1 cobj veq0 = .ok (veq, sum) ∧
    veq 0 = 4 ∧
    IsGreatest {k | EqdAll (fun k => (flip 32 false).comp (stream32 3 cobj.param k))
      (cyc (T1 3 cobj.param) (Ring.vec 3 cobj.state cobj.index)) 1 k} 5 := by
  refine ⟨cobj_inv, fun mexp h5 h384 veq0 => ?_⟩
  have hi := cobj_inv
  obtain ⟨veq, sum, e1, e2, -⟩ := calcSIMD_formula (G := simdOps 3)
    (Layout.w32 false)
    (blocks32 hi.three hi.pos_pos hi.pos hi.ok _) (rand := cobj) (fun a ha b h1 h2 => mode32 hi rfl ha h1 h2) cpoly_monic
    (by rw [cobj_vec]; exact cpoly_zero) (by rw [cpoly_deg]; decide) isCalc1pos_128
    (fuel := 128 * (129 * mexp) + 129) (by rw [cpoly_deg]; omega) (mexp := mexp) (by rw [cpoly_deg]; exact h5) (by omega)
    (bitLen := 1) (by decide) veq0
  refine ⟨veq, sum, e1, ?_, ?_⟩
  · obtain ⟨K, hK, hmin⟩ := e2 1 le_rfl le_rfl
    rw [cobj_vec] at hK
    have hone : ∀ j, K j = 1 := by
      intro j
      refine (hK j).unique ⟨(c_eqd j).mono (by decide), fun k hk => ?_⟩
      have := eqd_deg cpoly_monic cpoly_zero (show Eqd (fun k => (flip 32 false).comp (stream32 3 cpar k))
        (cyc (T1 3 cpar) (cv 0)) 1 j (4 * k) from hk)
      rw [cpoly_deg] at this
      omega
    simp only [hone] at hmin
    obtain ⟨⟨a, -, hb⟩, -⟩ := hmin
    refine hb.unique ⟨⟨4, by decide, by decide, by norm_num⟩, ?_⟩
    rintro z ⟨b, -, h4, rfl⟩
    push_cast
    omega
  · rw [cobj_vec]
    refine ⟨c_eqd, fun k hk => ?_⟩
    have := eqd_deg cpoly_monic cpoly_zero (hk 0)
    rwa [cpoly_deg, Nat.mul_one] at this

end MTT.SFMT
