import Verif.Samples.XorShiftFixedProps
import Verif.Samples.XorShiftTableProps
import Verif.Period.TablesProps
import Verif.Search.RTProps
import Verif.Search.CycleProps
import Verif.Search.ComplexityProps
import Verif.PIS.Uniform
import Verif.Parity.Example
import Verif.Anni.Props

/-!
# Concrete cases for the general theorems

The theorems on equidistribution and on the searches (C22 to C25, C32 to C34, C55 to C57) are about all generators that
satisfy a contract.  Here they are used for one generator, xorshift with the parameters of xorshift-1.cpp, and a search
that starts at these parameters: all hypotheses are met, and the searches find something.
-/

namespace MTT.Concrete

open Polynomial PIS Search XorShift

/-- The object with the parameters of xorshift-1.cpp after `seed(1)`. -/
def s1 : XorShift.St := seed 1 (parSt par1)

theorem s1_ne : isZero s1 = false := by decide

theorem s1_max : ∀ k, den (stateAt XorShift.ops s1 k) = den s1 ↔ 2 ^ 128 - 1 ∣ k :=
  maximal_fixed par1 (.inl rfl) s1 rfl s1_ne

theorem s1_lin : LinGen XorShift.ops (SamePar s1) den (T s1) (O s1) := XorShift.linGen s1

theorem s1_self : SamePar s1 s1 := ⟨rfl, rfl, rfl, rfl⟩

-- C22 to C24, one dimension only
example : ∃ (k : ℕ) (sum : ℤ), getEquidist XorShift.ops Util.calc1posWrap32 s1 32 128 (32 * (33 * 128) + 33) = .ok (k, sum) ∧
    IsGreatest {k | Equidist (T s1) (O s1) (cyc (T s1) (den s1)) 32 k} k := by
  obtain ⟨hm, h0, hd⟩ := charpoly_hyps (T s1) (den s1)
  rw [finrank_S] at hd
  obtain ⟨k, sum, kv, e1, e2, -⟩ := getEquidist_correct s1_lin s1_self hm h0 (by rw [hd]; decide) (stateBitSize := 128)
    (by omega) Util.isCalc1pos_32 (bitLen := 32) (by omega) (by omega) (fuel := 32 * (33 * 128) + 33) (by rw [hd])
  exact ⟨k, sum, e1, e2⟩

theorem s1_pow (k : ℕ) : ((T s1) ^ k) (den s1) = den s1 ↔ 2 ^ 128 - 1 ∣ k := by
  rw [← (stateAt_spec s1_lin s1_self k).2]; exact s1_max k

theorem s1_den : den s1 ≠ 0 := by rw [Ne, ← isZero_iff, s1_ne]; simp

theorem s1_cyc : cyc (T s1) (den s1) = ⊤ := cyc_top (n := 128) (by omega) finrank_S s1_den s1_pow

theorem s1_inj {i j : ℕ} (hj : j < 2 ^ 128 - 1) (hij : i < j) : den (stateAt XorShift.ops s1 i) ≠ den (stateAt XorShift.ops s1 j) := by
  rw [(stateAt_spec s1_lin s1_self i).2, (stateAt_spec s1_lin s1_self j).2]
  intro h
  have h1 := congrArg (fun u => ((T s1) ^ (2 ^ 128 - 1 - j)) u) h
  rw [← Module.End.mul_apply, ← Module.End.mul_apply, ← pow_add, ← pow_add, Nat.sub_add_cancel hj.le, (s1_pow _).2 dvd_rfl, s1_pow] at h1
  have := Nat.le_of_dvd (by omega) h1
  omega

/-- C25 for xorshift-1: for every accuracy `v` and every number `k` of outputs up to the exact dimension, every pattern occurs as often
in one period as it should. -/
theorem s1_windows {v k : ℕ} (hv1 : 1 ≤ v) (hv : v ≤ 32) (hk : k ≤ table1.getD (v - 1) 0) (a : Fin k → BitVec v) :
    Nat.card {j : ℕ // j < 2 ^ 128 - 1 ∧ ∀ t : Fin k, (outAt XorShift.ops s1 (j + t)).extractLsb' (32 - v) v = a t} =
      2 ^ (128 - k * v) - (if ∀ t, a t = 0 then 1 else 0) := by
  obtain ⟨hm, h0, hd⟩ := charpoly_hyps (T s1) (den s1)
  rw [finrank_S] at hd
  refine window_count s1_lin s1_self hm h0 hd (by omega) s1_den ((s1_max _).2 dvd_rfl) (fun i hi j hj h => ?_) hv
    (kmax := table1.getD (v - 1) 0) (by rw [s1_cyc]; exact exact1 v hv1 hv) hk a
  rcases lt_trichotomy i j with hij | hij | hij
  · exact absurd h (s1_inj hj hij)
  · exact hij
  · exact absurd h.symm (s1_inj hi hij)

/-- The 24 leading blocks of five bits, for instance: all zero occurs 255 times, every other pattern 256 times. -/
example (a : Fin 24 → BitVec 5) :
    Nat.card {j : ℕ // j < 2 ^ 128 - 1 ∧ ∀ t : Fin 24, (outAt XorShift.ops s1 (j + t)).extractLsb' 27 5 = a t} =
      if ∀ t, a t = 0 then 255 else 256 := by
  rw [s1_windows (v := 5) (by omega) (by omega) (by decide) a]
  split <;> rfl

/-! ### Searches -/

/-- A source whose first number stands for the parameters of xorshift-1.cpp. -/
def src1 : Seq.St 32 := Seq.make2 0 0x284ae

theorem setUp1 (s : XorShift.St) : searchOps.setUp s src1 = some (setUpParam 0x284ae s, (Seq.getUint32 src1).1) := rfl

theorem table128 : ∃ L : List ℕ, Period.IsFactorList L (2 ^ 128 - 1) := by
  obtain ⟨L, -, -, h⟩ := Period.tables_correct (128, Period.factors128) List.mem_cons_self
  exact ⟨L, h⟩

theorem out1 : (outAt XorShift.ops (seed 1 (setUpParam 0x284ae s1)) 1).getLsbD 0 = true := by
  decide +kernel

/-- The first turn of the search accepts. -/
theorem try1 {mps : MPS} (hm : MinPolySeqSpec mps) {prim : ℕ → (ZMod 2)[X] → Option Bool} (hp : PrimOK prim 128) :
    ∃ st', tryOnce mps searchOps prim ⟨s1, src1, 0, 0⟩ = .ret true st' ∧ par st'.rand = par1 ∧ st'.count = 1 := by
  rcases tryOnce_correct hm XorShift.family hp ⟨s1, src1, 0, 0⟩ trivial with ⟨h, -⟩ | ⟨r, src, st', b, e1, e2, e3, -, -, -, e6, e7, -⟩
  · cases h
  · rw [setUp1] at e1
    injection e1 with e1
    injection e1 with e1 _
    subst e1
    have hb : b = true := e7.2 ⟨(maximal_iff _).1 (maximal_fixed par1 (.inl rfl)), 1, out1⟩
    subst hb
    exact ⟨st', e2, e6, e3⟩

-- C32 to C34: a search for one turn
example : ∃ (mps : MPS) (L : List ℕ) (st' : Search.St XorShift.St (Seq.St 32)),
    start mps searchOps (Period.primitivityOp (some L)) 1 ⟨s1, src1, 0, 0⟩ = .ret true st' ∧ par st'.rand = par1 ∧ st'.count = 1 ∧
      Primitive2 st'.poly 128 ∧ st'.poly = (T (parSt par1)).charpoly := by
  obtain ⟨mps, hm⟩ := minPolySeqSpec_sat
  obtain ⟨L, hL⟩ := table128
  have hp := primOK_table (n := 128) (by omega) hL
  obtain ⟨st', e1, e2, e3⟩ := try1 hm hp
  have e : start mps searchOps (Period.primitivityOp (some L)) 1 ⟨s1, src1, 0, 0⟩ = .ret true st' := by simp only [start, e1]
  obtain ⟨-, h2, h3⟩ := start_max_period hm XorShift.family hp 1 _ st' trivial e
  exact ⟨mps, L, st', e, e2, e3, h3, by rw [h2, e2]⟩

-- C34, the other two ends: no turn at all, and a source that has come to its end
example (mps : MPS) (prim : ℕ → (ZMod 2)[X] → Option Bool) :
    start mps searchOps prim 0 ⟨s1, src1, 7, 0⟩ = .ret false ⟨s1, src1, 7, 0⟩ ∧
      start mps searchOps prim 5 ⟨s1, (⟨0, 0, true⟩ : Seq.St 32), 7, 0⟩ = .threw ⟨s1, ⟨0, 0, true⟩, 7, 0⟩ := ⟨rfl, rfl⟩

-- C56: the reducible search with mexp = 128
example : ∃ (mps : MPS) (st' : RSt XorShift.St (Seq.St 32)), rStart mps searchOps 128 1 ⟨s1, src1, 0, 0, 0⟩ = .ret true st' ∧
    par st'.rand = par1 ∧ Irreducible st'.irreducible ∧ st'.irreducible = st'.poly ∧ st'.irreducible.natDegree = 128 := by
  obtain ⟨mps, hm⟩ := minPolySeqSpec_sat
  rcases rTryOnce_correct hm XorShift.family (mexp := 128) (by omega) ⟨s1, src1, 0, 0, 0⟩ trivial with
    ⟨h, -⟩ | ⟨r, src, st', b, e1, e2, -, -, -, -, e6, e7, e8, e9⟩
  · cases h
  · rw [setUp1] at e1
    injection e1 with e1
    injection e1 with e1 _
    subst e1
    obtain ⟨χ, hχ, hT⟩ := exists_prim par1 (.inl rfl)
    have hprim : Primitive2 st'.poly 128 := by
      refine primitive_minpoly (by omega) hχ ?_ ?_ e7
      · intro h0
        have := congrFun h0 1
        have h1 : bitAt searchOps.gen (searchOps.seedOne (setUpParam 0x284ae s1)) 0 1 = 1 := by
          show (if (outAt XorShift.ops (seed 1 (setUpParam 0x284ae s1)) 1).getLsbD 0 then (1 : ZMod 2) else 0) = 1
          rw [out1]; rfl
        rw [h1] at this
        exact absurd this (by decide)
      · rw [bitAt_eq (XorShift.family.lin par1) ⟨trivial, rfl⟩ (by omega)]
        exact ann_outSeq _ _ (hT _)
    have hirr := Primitive2.irreducible (by omega) hprim
    obtain ⟨hb, hi⟩ := e9 st'.poly hirr hprim.1 dvd_rfl (by rw [hprim.1]; omega)
    subst hb
    refine ⟨mps, st', by simp only [rStart, e2], e6, by rw [hi]; exact hirr, hi, by rw [hi]; exact hprim.1⟩

-- C57: the combined search with tempering searches that leave the object alone
example : ∃ (mps : MPS) (L : List ℕ) (o : RTOut XorShift.St (Seq.St 32)),
    rtSearch mps searchOps (Period.primitivityOp (some L)) some some (fun _ => some 0) false 1 s1 src1 = some (.found o) ∧
      par o.rand = par1 ∧ o.poly = (T (parSt par1)).charpoly ∧ o.delta = 0 := by
  obtain ⟨mps, hm⟩ := minPolySeqSpec_sat
  obtain ⟨L, hL⟩ := table128
  have hp := primOK_table (n := 128) (by omega) hL
  obtain ⟨st', e1, e2, e3⟩ := try1 hm hp
  have hk : ∀ s : XorShift.St, True → ∃ t, some s = some t ∧ Keeps (fun _ => True) par den (fun p => T (parSt p)) s t :=
    fun s _ => ⟨s, rfl, trivial, rfl, rfl⟩
  have e : rtSearch mps searchOps (Period.primitivityOp (some L)) some some (fun _ => some 0) false 1 s1 src1 =
      some (.found ⟨st'.rand, st'.src, st'.poly, polyWeight st'.poly, 0⟩) := by
    have : findLoop mps searchOps (Period.primitivityOp (some L)) (1000 * searchOps.gen.bitSize) 1 ⟨s1, src1, 0, 0⟩ = some (.ret true st') := by
      show findLoop mps searchOps (Period.primitivityOp (some L)) (127999 + 1) 1 ⟨s1, src1, 0, 0⟩ = _
      simp only [findLoop, start, e1]
    simp only [rtSearch, this]
    rfl
  rcases rtSearch_correct hm XorShift.family hp hk hk (fun _ _ => ⟨0, rfl⟩) false 1 s1 src1 trivial e with h | ⟨o, h1, -, -, h4, -, -, -⟩
  · cases h
  · refine ⟨mps, L, o, by rw [e, h1], ?_⟩
    injection h1 with h1
    subst h1
    exact ⟨e2, by rw [h4]; dsimp only; rw [e2], rfl⟩

-- C32 and C55: the minimal polynomial of one bit, and the lcm over all bits, which is the same here
example : ∃ (mps : MPS) (m : ℕ) (p r : (ZMod 2)[X]), minpoly mps XorShift.ops 0 0 s1 = some (stateAt XorShift.ops s1 256, p) ∧
    calcCharPoly mps XorShift.ops s1 p = some (stateAt XorShift.ops s1 m, r) ∧ (∀ q, r ∣ q ↔ AnnAll XorShift.ops s1 q) := by
  obtain ⟨mps, hm⟩ := minPolySeqSpec_sat
  obtain ⟨p, e1, e2⟩ := minpoly_dim hm s1_lin s1_self (pos := 0) (by omega) finrank_S.le
  obtain ⟨m, r, e3, -, -, e6⟩ := calcCharPoly_bit0 hm s1_lin (XorShift.T_bijective (p := s1) ⟨by decide, fun _ => by decide⟩).1 s1_self (by omega) finrank_S.le e2
  exact ⟨mps, m, p, r, e1, e3, e6⟩

open Parity in
-- C66: a register of three bits, where the lcm of the minimal polynomials is the whole `X^3 + 1`
example : ∃ (mps : MPS) (r : (ZMod 2)[X]), Anni.getLCMPolyS mps Toy.rops 1 (1, 0) = some r ∧ r ∣ Toy.f * Toy.q ∧ ¬ r ∣ Toy.f := by
  obtain ⟨mps, hm⟩ := minPolySeqSpec_sat
  obtain ⟨r, e1, -, -, e4⟩ := Anni.getLCMPolyS_correct hm Toy.redGen (by omega) (s := (1, 0)) trivial
    (by show _ ∈ M 3 Toy.e; rw [Toy.M_top]; trivial) (lcm := 1) (fun q _ => one_dvd q)
  refine ⟨mps, r, e1, (e4 _).2 ⟨one_dvd _, fun t ht htm => ?_⟩, fun h => ?_⟩
  · rw [bitAt_eq Toy.redGen.toLinGen ht (by omega)]
    exact ann_outSeq _ _ (Toy.ann _)
  · have h1 := ((e4 _).1 h).2 (1, 0) trivial (by show _ ∈ M 3 Toy.e; rw [Toy.M_top]; trivial)
    have h2 := h1 0
    rw [Toy.f_deg, Finset.sum_range_succ, Finset.sum_range_succ, Finset.sum_range_succ, Finset.sum_range_zero] at h2
    have b0 : bitAt Toy.rops.toGenOps (1, 0) 0 (0 + 0) = 1 := by decide +kernel
    have b1 : bitAt Toy.rops.toGenOps (1, 0) 0 (0 + 1) = 0 := by decide +kernel
    have b2 : bitAt Toy.rops.toGenOps (1, 0) 0 (0 + 2) = 0 := by decide +kernel
    rw [b0, b1, b2] at h2
    simp [Toy.f, coeff_X, coeff_one] at h2

-- C118: after this search, a state with one bit is reached from the seeded state, and the tables agree
example (veq0 : ℕ → ℕ) : (∃! k, k < 2 ^ 128 - 1 ∧ den (stateAt XorShift.ops s1 k) = den ⟨5, 1, 5, 14, 0, 0, 0, 1⟩) ∧
    getAllEquidist XorShift.ops Util.calc1posWrap32 s1 32 128 (32 * (33 * 128) + 33) veq0 =
      getAllEquidist XorShift.ops Util.calc1posWrap32 ⟨5, 1, 5, 14, 0, 0, 0, 1⟩ 32 128 (32 * (33 * 128) + 33) veq0 := by
  obtain ⟨mps, hm⟩ := minPolySeqSpec_sat
  obtain ⟨L, hL⟩ := table128
  have hp := primOK_table (n := 128) (by omega) hL
  obtain ⟨st', e1, e2, -⟩ := try1 hm hp
  have e : start mps searchOps (Period.primitivityOp (some L)) 1 ⟨s1, src1, 0, 0⟩ = .ret true st' := by simp only [start, e1]
  have h1 : den ⟨5, 1, 5, 14, 0, 0, 0, 1⟩ ≠ 0 := by decide
  refine ⟨one_cycle hm XorShift.family hp 1 _ st' trivial e trivial (by rw [e2]; rfl) s1_den h1, ?_⟩
  obtain ⟨r, a1, a2, -⟩ := same_measure hm XorShift.family hp 1 _ st' trivial e (s := s1) (t := ⟨5, 1, 5, 14, 0, 0, 0, 1⟩) trivial
    (by rw [e2]; rfl) s1_den trivial (by rw [e2]; rfl) h1 Util.isCalc1pos_32 (bitLen := 32) (by omega) (by omega)
    (fuel := 32 * (33 * 128) + 33) (by show 32 * ((32 + 1) * 128) + 32 + 1 ≤ _; omega) veq0
  exact a1.trans a2.symm

-- C134: `minpoly` gives one polynomial of degree 128 from the seeded state and from a state with one bit
example : ∃ (mps : MPS) (p : (ZMod 2)[X]), p.natDegree = 128 ∧
    minpoly mps XorShift.ops 0 0 s1 = some (stateAt XorShift.ops s1 256, p) ∧
    minpoly mps XorShift.ops 0 0 ⟨5, 1, 5, 14, 0, 0, 0, 1⟩ = some (stateAt XorShift.ops ⟨5, 1, 5, 14, 0, 0, 0, 1⟩ 256, p) := by
  obtain ⟨mps, hm⟩ := minPolySeqSpec_sat
  obtain ⟨L, hL⟩ := table128
  have hp := primOK_table (n := 128) (by omega) hL
  obtain ⟨st', e1, e2, -⟩ := try1 hm hp
  have e : start mps searchOps (Period.primitivityOp (some L)) 1 ⟨s1, src1, 0, 0⟩ = .ret true st' := by simp only [start, e1]
  have h1 : den ⟨5, 1, 5, 14, 0, 0, 0, 1⟩ ≠ 0 := by decide
  exact ⟨mps, st'.poly, (start_max_period hm XorShift.family hp 1 _ st' trivial e).2.2.1,
    low_minpoly hm XorShift.family hp 1 _ st' trivial e trivial (by rw [e2]; rfl) s1_den,
    low_minpoly hm XorShift.family hp 1 _ st' trivial e (s := ⟨5, 1, 5, 14, 0, 0, 0, 1⟩) trivial (by rw [e2]; rfl) h1⟩

end MTT.Concrete
