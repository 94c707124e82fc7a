import Verif.SIMD.DSFMT
import Mathlib.Tactic.IntervalCases
import Mathlib.Tactic.ComputeDegree

/-!
# C64: `calc_dSFMT_equidistribution` does not deliver `k(v)`

An object of class `dSFMT` with three words, parameters in the range of `setUpParam`, in a state that generates a
space of dimension 3.  Any three consecutive 52-bit words have most significant bits that take all values, so
`k(1) = 3`; the function delivers 2.
-/

namespace MTT.DSFMT

open W128 PIS Polynomial SIMD
open SFMT (at' at_add)

/-- The words and the lungs of the sequence. -/
def cw : ℕ → W128
  | 0 => 0x44b30d09829ce000bc290bc9ab094
  | 1 => 0xfa6e7b555064200091b8344b709bb
  | 2 => 0xfa25398843deb000a7ed2786efa62
  | 3 => 0xbedd765cd2f8c0002d913f82db92f
  | 4 => 0x4b42dd13ba9000365513cd9f3d9
  | 5 => 0x44f84fd4912670008a7c18043434d
  | 6 => 0xbe963481c14250001bc42c4f44af6
  | _ => 0

def cl : ℕ → W128
  | 0 => 0x34270940479cd583a4b199c92288985d
  | 1 => 0x4acb2a5d11e49f8b19d8964a709000fb
  | 2 => 0xaa352189815caba1b3b56584b2a5d03f
  | 3 => 0x7eec231d56784a08bd690f83521898a6
  | 4 => 0xe0fe0bd490b8342aaa6df3cec235d0c4
  | _ => 0

def cpar : Par := ⟨1, 31, 0xbcfbf2d7dfebf, 0xfdf57fc9d787f⟩

/-- The object. -/
def cobj : St where
  mexp := 336
  fixedSL1 := 0
  fixed := false
  size := 3
  index := 2
  startMode := 0
  weightMode := 2
  state := cw
  lung := cl 0
  param := cpar
  fix1 := 0
  fix2 := 0
  parity1 := 0
  parity2 := 0
  previous := 0
  pfx := 0

theorem cobj_inv : Inv 3 cobj := ⟨by decide, rfl, by decide, by decide, by decide, by decide⟩

/-- The states that follow each other. -/
def cv (m : ℕ) : Core 3 := (fun i => Wd.of (cw (m + i)), Wd.of (cl m))

theorem cobj_core : core 3 cobj = cv 0 := by
  refine Prod.ext ?_ rfl
  funext i
  fin_cases i <;> rfl

theorem cobj_low : core 3 cobj ∈ Low 3 ∧ MskOK cpar := by
  refine ⟨?_, by decide, by decide⟩
  rw [cobj_core]
  have : ∀ i : Fin 3, (cw (0 + i)) &&& hi = 0 := by decide +kernel
  exact this

theorem c_new : ∀ m < 4, wordOf cpar (cv m) = cw (m + 3) ∧ lungOf cpar (cv m) = cl (m + 1) := by decide +kernel

theorem c_step (m : ℕ) (hm : m < 4) : T1 3 cpar (cv m) = cv (m + 1) := by
  show ((shiftIn 3 (cv m).1 (Wd.of (wordOf cpar (cv m))), Wd.of (lungOf cpar (cv m))) : Core 3) = _
  rw [(c_new m hm).1, (c_new m hm).2]
  refine Prod.ext ?_ rfl
  funext i
  have : ∀ i : Fin 3, shiftIn 3 (cv m).1 (Wd.of (cw (m + 3))) i = Wd.of (cw (m + 1 + i)) := by
    intro i
    unfold shiftIn cv
    by_cases h : (i : ℕ) + 1 < 3
    · rw [dif_pos h]
      show Wd.of (cw (m + (i + 1))) = _
      rw [show m + ((i : ℕ) + 1) = m + 1 + i by omega]
    · rw [dif_neg h, show m + 3 = m + 1 + i by omega]
  exact this i

theorem c_pow (m : ℕ) (hm : m < 5) : (T1 3 cpar ^ m) (cv 0) = cv m := by
  induction m with
  | zero => rfl
  | succ m ih => rw [pow_succ', Module.End.mul_apply, ih (by omega), c_step m (by omega)]

/-- The polynomial of the space. -/
noncomputable def cpoly : (ZMod 2)[X] := X ^ 3 + (X + 1)

theorem cpoly_tail : (X + 1 : (ZMod 2)[X]).degree < ((3 : ℕ) : WithBot ℕ) := by
  apply lt_of_le_of_lt (b := ((1 : ℕ) : WithBot ℕ))
  · compute_degree
    exact le_rfl
  · exact_mod_cast (by decide : 1 < 3)

theorem cpoly_monic : cpoly.Monic := monic_X_pow_add cpoly_tail

theorem cpoly_deg : cpoly.natDegree = 3 := by
  unfold cpoly
  rw [natDegree_add_eq_left_of_degree_lt, natDegree_X_pow]
  rw [degree_X_pow]
  exact cpoly_tail

theorem c_sum : (∀ m < 3, cw (m + 3) ^^^ (cw (m + 1) ^^^ cw m) = 0) ∧ cl 3 ^^^ (cl 1 ^^^ cl 0) = 0 := by decide +kernel

theorem cpoly_zero : aeval (T1 3 cpar) cpoly (cv 0) = 0 := by
  unfold cpoly
  rw [map_add (aeval _), map_add (aeval _), map_one, map_pow,
    aeval_X, LinearMap.add_apply, LinearMap.add_apply, c_pow 3 (by decide),
    Module.End.one_apply, c_step 0 (by decide)]
  refine Prod.ext ?_ ?_
  · funext i
    show Wd.of (cw (3 + i) ^^^ (cw (1 + i) ^^^ cw (0 + i))) = Wd.of 0
    have := c_sum.1 i i.2
    rw [show (i : ℕ) + 3 = 3 + i by omega, show (i : ℕ) + 1 = 1 + i by omega] at this
    rw [Nat.zero_add, this]
  · show Wd.of (cl 3 ^^^ (cl 1 ^^^ cl 0)) = Wd.of 0
    rw [c_sum.2]

/-- Most significant bit of word `k` of the stream, `t` blocks later. -/
def cbit (k t : ℕ) : ZMod 2 := if (frac (cw (k / 2 + t + 2)) (k % 2)).getMsbD 0 then 1 else 0

theorem c_stream (k t : ℕ) (h : k / 2 + t < 5) : stream52 3 cpar k (cv t) 0 = cbit k t := by
  rw [← c_pow t (by omega), stream52_apply, ← Module.End.mul_apply, ← pow_add, c_pow _ h]
  rfl

theorem cv_mem (t : ℕ) (ht : t < 5) : cv t ∈ cyc (T1 3 cpar) (cv 0) := by
  rw [← c_pow t ht]
  exact cyc_pow _ (cyc_self _ _) t

/-- A combination of the first three states with the wanted bits. -/
theorem eqd_comb (j : ℕ) (c0 c1 c2 : ZMod 2) (a : ℕ → V) (hj : j < 2 := by decide)
    (h : ∀ i < 3, c0 * cbit (j + i) 0 + c1 * cbit (j + i) 1 + c2 * cbit (j + i) 2 = a i 0) :
    ∃ s ∈ cyc (T1 3 cpar) (cv 0), ∀ i < 3, ∀ b < 1, stream52 3 cpar (j + i) s b = a i b := by
  refine ⟨c0 • cv 0 + c1 • cv 1 + c2 • cv 2, ?_, fun i hi b hb => ?_⟩
  · have hm := fun (c : ZMod 2) t (ht : t < 5) => Submodule.smul_mem (cyc (T1 3 cpar) (cv 0)) c (cv_mem t ht)
    exact add_mem (add_mem (hm c0 0 (by decide)) (hm c1 1 (by decide))) (hm c2 2 (by decide))
  · obtain rfl : b = 0 := by omega
    have hs : ∀ t < 3, stream52 3 cpar (j + i) (cv t) 0 = cbit (j + i) t := fun t ht =>
      c_stream (j + i) t (by omega)
    rw [map_add, map_add, map_smul, map_smul, map_smul]
    show c0 * stream52 3 cpar (j + i) (cv 0) 0 + c1 * stream52 3 cpar (j + i) (cv 1) 0 +
      c2 * stream52 3 cpar (j + i) (cv 2) 0 = a i 0
    rw [hs 0 (by decide), hs 1 (by decide), hs 2 (by decide)]
    exact h i hi

/-- The stream is 3-dimensionally equidistributed with 1-bit accuracy. -/
theorem c_eqd : EqdAll (stream52 3 cpar) (cyc (T1 3 cpar) (cv 0)) 1 3 := by
  have hi := cobj_inv
  rw [(blocks52 (p := cpar) hi.pos_pos hi.pos (cv 0)).eqdAll_iff (by decide)]
  intro j hj
  have : j = 0 ∨ j = 1 := by omega
  rcases this with rfl | rfl
  · intro a
    refine eqd_comb 0 (a 0 0) (a 0 0 + a 1 0) (a 2 0) a (by decide) fun i hi => ?_
    interval_cases i <;>
    · generalize a 0 0 = a0
      generalize a 1 0 = a1
      generalize a 2 0 = a2
      revert a0 a1 a2
      decide +kernel
  · intro a
    refine eqd_comb 1 (a 2 0) (a 0 0 + a 2 0) (a 1 0) a (by decide) fun i hi => ?_
    interval_cases i <;>
    · generalize a 0 0 = a0
      generalize a 1 0 = a1
      generalize a 2 0 = a2
      revert a0 a1 a2
      decide +kernel

theorem c_flip (k : ℕ) (s : Core 3) (c : ℕ) (hc : c < 1) :
    (flip 52 false).comp (stream52 3 cpar k) s c = stream52 3 cpar k s c := by
  show flip 52 false _ c = _
  rw [flip_apply, if_pos (by omega)]; rfl

/-- **C64**, exactness is false: for this object of class `dSFMT` (its words have 52 bits per lane, its parameters are of
the form that `setUpParam` makes) the function delivers 2 where the dimension of equidistribution is 3. -/
theorem simd52_underestimates : Inv 3 cobj ∧ core 3 cobj ∈ Low 3 ∧ MskOK cpar ∧
    ∀ mexp, 3 ≤ mexp → mexp ≤ 440 → ∀ veq0, ∃ veq sum,
    calcSIMD (simdOps 3) (dsfmtAlg dinfo) calc1posWrap (128 * (129 * mexp) + 129) mexp 1 cobj veq0 = .ok (veq, sum) ∧
    veq 0 = 2 ∧
    IsGreatest {k | EqdAll (stream52 3 cobj.param) (cyc (T1 3 cobj.param) (core 3 cobj)) 1 k} 3 := by
  refine ⟨cobj_inv, cobj_low.1, cobj_low.2, fun mexp h5 h384 veq0 => ?_⟩
  have hi := cobj_inv
  obtain ⟨veq, sum, e1, e2, -⟩ := calcSIMD_formula (G := simdOps 3) Layout.d52
    (blocks52 hi.pos_pos hi.pos _) (rand := cobj) (fun a ha b h1 h2 => mode52 hi ha h1 h2) cpoly_monic
    (by rw [cobj_core]; exact cpoly_zero) (by rw [cpoly_deg]; decide) isCalc1pos_128
    (fuel := 128 * (129 * mexp) + 129) (by rw [cpoly_deg]; omega) (mexp := mexp) (by rw [cpoly_deg]; exact h5) (by omega)
    (bitLen := 1) (by decide) veq0
  refine ⟨veq, sum, e1, ?_, ?_⟩
  · obtain ⟨K, hK, hmin⟩ := e2 1 le_rfl le_rfl
    rw [cobj_core] at hK
    have hone : ∀ j, K j = 1 := by
      intro j
      refine (hK j).unique ⟨?_, fun k hk => ?_⟩
      · intro a
        obtain ⟨s, hs, e⟩ := (c_eqd j).mono (show 2 * 1 ≤ 3 by decide) a
        exact ⟨s, hs, fun i hi b hb => (c_flip _ _ _ hb).trans (e i hi b hb)⟩
      · have := eqd_deg cpoly_monic cpoly_zero (show Eqd (fun k => (flip 52 false).comp (stream52 3 cpar k))
          (cyc (T1 3 cpar) (cv 0)) 1 j (2 * k) from hk)
        rw [cpoly_deg] at this
        omega
    simp only [hone] at hmin
    obtain ⟨⟨a, -, hb⟩, -⟩ := hmin
    refine hb.unique ⟨⟨2, by decide, by decide, by norm_num⟩, ?_⟩
    rintro z ⟨b, -, h4, rfl⟩
    push_cast
    omega
  · rw [cobj_core]
    refine ⟨c_eqd, fun k hk => ?_⟩
    have := eqd_deg cpoly_monic cpoly_zero (hk 0)
    rwa [cpoly_deg, Nat.mul_one] at this

end MTT.DSFMT
