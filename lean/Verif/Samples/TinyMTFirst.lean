import Verif.Samples.TinyMTDCProps
import Verif.Temper.Rel

/-!
# C123: the line that `tinymt32dc` prints for a number
-/

namespace MTT.TinyMT

open Polynomial PIS Search Temper

variable {mps : MPS} {prim : ℕ → (ZMod 2)[X] → Option Bool} {id : BitVec 32}

/-! ### Specification -/

/-- The line of the number `n`: the two tempering searches are made for a new object with the id and the matrices of `n` that was
seeded with 1 and has no tempering. -/
noncomputable def freshLine (id : BitVec 32) (n : ℕ) : Option Line :=
  (partialBitPattern (temperOps fun _ => 0) stlsb32 10 (seed 1 (setUpParam (BitVec.ofNat 32 n) (ctor id)))).bind fun t =>
    (partialBitPattern (temperOps fun _ => 0) st32 24 t).bind fun u =>
      (measure (fun _ => 0) 32 u).map fun d =>
        ⟨(T u).charpoly, u.id, u.mat1, u.mat2, u.tmat, (T u).charpoly.support.card, d⟩

/-- The lines of the numbers from `start` down to 0 whose recursion has the maximal period, those with a defect of at most
`maxDelta`. -/
noncomputable def linesOf (id : BitVec 32) (maxDelta : ℤ) (start : BitVec 32) : List Line :=
  ((numbers id (start.toNat + 1)).filterMap (freshLine id)).filter fun l => l.delta ≤ maxDelta

/-! ### Proof -/

/-- Two objects with the same parameters, whose states are not zero. -/
structure Alike (s t : St) : Prop where
  id_eq : s.id = t.id
  par_eq : par s = par t
  max : Maximal s.mat1 s.mat2
  left : isZero s = false
  right : isZero t = false

theorem Alike.mats_eq {s t : St} (h : Alike s t) : s.mat1 = t.mat1 ∧ s.mat2 = t.mat2 ∧ s.tmat = t.tmat := by
  have := h.par_eq
  simpa only [par, Prod.mk.injEq] using this

theorem measure_same (veq veq' : ℕ → ℕ) {s t : St} (h : Alike s t) : measure veq 32 s = measure veq' 32 t := by
  obtain ⟨d, d1, d2⟩ := measure_spec veq s
  obtain ⟨e, e1, e2⟩ := measure_spec veq' t
  obtain ⟨k, k1, k2⟩ := isDefect_top h.max h.left d2
  have hM : Maximal t.mat1 t.mat2 := by
    rw [← h.mats_eq.1, ← h.mats_eq.2.1]
    exact h.max
  obtain ⟨k', k1', k2'⟩ := isDefect_top hM h.right e2
  rw [d1, e1, k2, k2']
  congr 1
  refine Finset.sum_congr rfl fun v hv => ?_
  rw [Finset.mem_Icc] at hv
  have := k1 v hv.1 hv.2
  rw [h.par_eq] at this
  rw [this.unique (k1' v hv.1 hv.2)]

theorem related (veq veq' : ℕ → ℕ) : Related (temperOps veq) (temperOps veq') 32 Alike where
  pat s t m p i h := by
    refine ⟨h.id_eq, ?_, h.max, h.left, h.right⟩
    show (s.mat1, s.mat2, (s.tmat &&& ~~~ m) ||| (p &&& m)) = (t.mat1, t.mat2, (t.tmat &&& ~~~ m) ||| (p &&& m))
    rw [h.mats_eq.1, h.mats_eq.2.1, h.mats_eq.2.2]
  setRev _ _ h := ⟨h.id_eq, h.par_eq, h.max, h.left, h.right⟩
  resetRev _ _ h := ⟨h.id_eq, h.par_eq, h.max, h.left, h.right⟩
  delta _ _ h := measure_same veq veq' h
  size := rfl
  count := rfl

theorem alike_untempered {n : ℕ} (hM : Maximal (mats id (BitVec.ofNat 32 n)).1 (mats id (BitVec.ofNat 32 n)).2) :
    Alike (untempered id (BitVec.ofNat 32 n)) (seeded id (BitVec.ofNat 32 n)) := by
  have hz : isZero (seeded id (BitVec.ofNat 32 n)) = false := by
    rw [← Bool.not_eq_true, seeded, seed_isZero]; decide
  obtain ⟨a1, a2, a3, -⟩ := (stateAt_den (seeded id (BitVec.ofNat 32 n)) 254).1
  refine ⟨untempered_id _ _, ?_, ?_, never_zero _ hz _, hz⟩
  · unfold par
    exact Prod.ext a1 (Prod.ext a2 a3)
  · rw [show (untempered id (BitVec.ofNat 32 n)).mat1 = (mats id (BitVec.ofNat 32 n)).1 from a1,
      show (untempered id (BitVec.ofNat 32 n)).mat2 = (mats id (BitVec.ofNat 32 n)).2 from a2]
    exact hM

/-- One call of `all.search`. -/
theorem allSearch_line (hm : MinPolySeqSpec mps) (hprim : PrimOK prim 127) (veq : ℕ → ℕ) (fuel : ℕ) (g : St)
    (sq : Seq.St 32) (hi : g.id = id) (hr : g.rev = false) {m : ℕ} (hrem : XorShift.IsRem sq m) (hf : m < fuel) :
    (∃ m' o, allSearch mps prim veq fuel g sq = some (.found o) ∧ XorShift.IsRem o.src m' ∧ m' < m ∧
      o.rand.id = id ∧ o.rand.rev = false ∧ freshLine id m' = some (lineOf o) ∧ GoodLine id m' (lineOf o) ∧
      numbers id m = m' :: numbers id m') ∨
    (allSearch mps prim veq fuel g sq = some .threw ∧ numbers id m = []) := by
  rcases allSearch_rem hm hprim veq fuel g sq hi hr hrem hf with ⟨m', o, h1, h2, h3, h4, h5, h6, h7⟩ | h
  · refine .inl ⟨m', o, h1, h2, h3, h4, h5, ?_, h6, h7⟩
    unfold allSearch rtSearch at h1
    rcases findLoop_rem hm hprim (tries := 1000 * searchOps.gen.bitSize) (by show 1 ≤ 1000 * 127; omega) fuel
      ⟨g, sq, 0, 0⟩ hi hr hrem hf with ⟨m'', st', g1, g2⟩ | ⟨st', g1, -⟩
    · obtain rfl : m'' = m' := by
        have := g2.list
        rw [h7] at this
        exact (List.cons.inj this).1.symm
      rw [g1] at h1
      dsimp only at h1
      rw [if_neg (by decide), g2.rand] at h1
      have k0 := alike_untempered (id := id) g2.max
      have k1 := partialBitPattern_rel (P := stlsb32) (related veq fun _ => 0) 10 k0
      have hseed : (partialBitPattern (temperOps fun _ => 0) stlsb32 10 (seeded id (BitVec.ofNat 32 m''))) =
        partialBitPattern (temperOps fun _ => 0) stlsb32 10 (seed 1 (setUpParam (BitVec.ofNat 32 m'') (ctor id))) := rfl
      unfold freshLine
      rw [← hseed]
      revert k1 h1
      cases partialBitPattern (temperOps veq) stlsb32 10 (untempered id (BitVec.ofNat 32 m'')) with
      | none => intro h1; cases h1
      | some t =>
        cases partialBitPattern (temperOps fun _ => 0) stlsb32 10 (seeded id (BitVec.ofNat 32 m'')) with
        | none => intro _ k1; exact k1.elim
        | some t0 =>
          intro h1 k1
          dsimp only at h1
          have k1' : Alike t t0 := k1
          have k2 := partialBitPattern_rel (P := st32) (related veq fun _ => 0) 24 k1'
          rw [Option.bind_some]
          revert k2 h1
          cases partialBitPattern (temperOps veq) st32 24 t with
          | none => intro h1; cases h1
          | some u =>
            cases partialBitPattern (temperOps fun _ => 0) st32 24 t0 with
            | none => intro _ k2; exact k2.elim
            | some u0 =>
              intro h1 k2
              dsimp only at h1
              have k2' : Alike u u0 := k2
              rw [measure_same veq (fun _ => 0) k2'] at h1
              rw [Option.bind_some]
              cases hd : measure (fun _ => 0) 32 u0 with
              | none => rw [hd] at h1; cases h1
              | some d =>
                rw [hd] at h1
                dsimp only at h1
                obtain rfl := RTRes.found.inj (Option.some.inj h1)
                rw [Option.map_some]
                have hp : st'.poly = (T u0).charpoly := by
                  have := h6.poly
                  refine Eq.trans this (congrArg _ (T_congr ?_ ?_))
                  · exact k2'.mats_eq.1
                  · exact k2'.mats_eq.2.1
                unfold lineOf polyWeight
                dsimp only
                rw [k2'.id_eq, k2'.mats_eq.1, k2'.mats_eq.2.1, k2'.mats_eq.2.2, hp]
    · rw [g1] at h1
      cases h1
  · exact .inr h

theorem dcLoop_line (hm : MinPolySeqSpec mps) (hprim : PrimOK prim 127) (veq : ℕ → ℕ) (count : ℕ)
    (all : Bool) (maxDelta : ℤ) (fuel : ℕ) (g : St) (sq : Seq.St 32) (i : ℕ) (hi : g.id = id)
    (hr : g.rev = false) {m : ℕ} (hrem : XorShift.IsRem sq m) (hf : m < fuel) :
    dcLoop mps prim veq count all maxDelta fuel g sq i =
      some (if all then ((numbers id m).filterMap (freshLine id)).filter (fun l => l.delta ≤ maxDelta)
        else (((numbers id m).filterMap (freshLine id)).filter (fun l => l.delta ≤ maxDelta)).take (count - i)) := by
  induction fuel generalizing g sq i m with
  | zero => omega
  | succ fuel ih =>
    unfold dcLoop
    by_cases hc : i < count ∨ all = true
    · rw [if_pos hc]
      rcases allSearch_line hm hprim veq (fuel + 1) g sq hi hr hrem hf with
        ⟨m', o, h1, h2, h3, h4, h5, h6, -, h7⟩ | ⟨h1, h2⟩
      · rw [h1, h7, List.filterMap_cons_some h6]
        dsimp only
        by_cases hd : o.delta > maxDelta
        · have hn : ¬ (lineOf o).delta ≤ maxDelta := by show ¬ o.delta ≤ maxDelta; omega
          rw [if_pos hd, ih o.rand o.src i h4 h5 h2 (by omega), List.filter_cons_of_neg (by simpa using hn)]
        · have hn : (lineOf o).delta ≤ maxDelta := by show o.delta ≤ maxDelta; omega
          rw [if_neg hd, ih o.rand o.src (i + 1) h4 h5 h2 (by omega), List.filter_cons_of_pos (by simpa using hn)]
          cases all with
          | true => rfl
          | false =>
            have hlt : i < count := by simpa using hc
            obtain ⟨c, hcc⟩ : ∃ c, count - i = c + 1 := ⟨count - i - 1, by omega⟩
            rw [hcc, show count - (i + 1) = c by omega]
            rfl
      · rw [h1, h2]
        cases all <;> simp
    · rw [if_neg hc]
      rw [not_or, not_lt, Bool.not_eq_true] at hc
      rw [hc.2, Nat.sub_eq_zero_of_le hc.1]
      rfl

theorem isRem_start (start : BitVec 32) : XorShift.IsRem (Seq.make2 0 start) (start.toNat + 1) :=
  ⟨rfl, fun h => absurd h (by omega), fun _ => ⟨rfl, by simp [Seq.make2], by have := start.isLt; omega⟩⟩

/-! ### Theorems -/

/-- **C123.**  What `tinymt32dc` prints: the first `count` of the lines of the numbers from `start` down to 0, or all of them; a line
depends on the id and the number only. -/
theorem dcMain_lines (hm : MinPolySeqSpec mps) (veq : ℕ → ℕ) (count : ℕ) (all : Bool) (maxDelta : ℤ)
    (start uid : BitVec 32) {fuel : ℕ} (hf : start.toNat + 1 < fuel) :
    dcMain mps (Period.primitivityOp none) veq count all maxDelta start uid fuel =
      some (if all then linesOf uid maxDelta start else (linesOf uid maxDelta start).take count) :=
  dcLoop_line hm (primOK_mersenne prime127) veq count all maxDelta fuel (ctor uid) _ 0 rfl rfl (isRem_start start) hf

/-- **C123.**  Every number whose recursion has the maximal period has a line, and it is a good line. -/
theorem freshLine_good (uid n : BitVec 32) (hM : Maximal (mats uid n).1 (mats uid n).2) :
    ∃ l, freshLine uid n.toNat = some l ∧ GoodLine uid n.toNat l := by
  obtain ⟨mps, hm⟩ := minPolySeqSpec_sat
  have hM' : Maximal (mats uid (BitVec.ofNat 32 n.toNat)).1 (mats uid (BitVec.ofNat 32 n.toNat)).2 := by
    rw [BitVec.ofNat_toNat, BitVec.setWidth_eq]; exact hM
  rcases allSearch_line (id := uid) hm (primOK_mersenne prime127) (fun _ => 0) (n.toNat + 2) (ctor uid) _ rfl rfl (isRem_start n)
    (by omega) with ⟨m', o, -, -, -, -, -, h6, h7, h8⟩ | ⟨-, h⟩
  · rw [numbers_pos hM'] at h8
    obtain rfl := (List.cons.inj h8).1
    exact ⟨_, h6, h7⟩
  · rw [numbers_pos hM'] at h
    cases h

/-- **C123.**  With a larger count the run begins with the same lines. -/
theorem dcMain_extends {mps' : MPS} (hm : MinPolySeqSpec mps) (hm' : MinPolySeqSpec mps') (veq veq' : ℕ → ℕ) {count count' : ℕ}
    (hc : count ≤ count') (maxDelta : ℤ) (start uid : BitVec 32) {fuel fuel' : ℕ} (hf : start.toNat + 1 < fuel)
    (hf' : start.toNat + 1 < fuel') :
    ∃ L L', dcMain mps (Period.primitivityOp none) veq count false maxDelta start uid fuel = some L ∧
      dcMain mps' (Period.primitivityOp none) veq' count' false maxDelta start uid fuel' = some L' ∧ L <+: L' ∧
      (L.length < count → L' = L) := by
  refine ⟨_, _, dcMain_lines hm veq count false maxDelta start uid hf, dcMain_lines hm' veq' count' false maxDelta start uid hf',
    List.take_prefix_take_left hc, fun h => ?_⟩
  simp only [Bool.false_eq_true, if_false] at h ⊢
  rw [List.length_take] at h
  rw [List.take_of_length_le (by omega), List.take_of_length_le (by omega)]

/-- **C123.**  With the option `all` a run with a smaller start value prints the last lines of a run with a larger one. -/
theorem dcMain_suffix {mps' : MPS} (hm : MinPolySeqSpec mps) (hm' : MinPolySeqSpec mps') (veq veq' : ℕ → ℕ) (count count' : ℕ)
    (maxDelta : ℤ) {start start' : BitVec 32} (hs : start.toNat ≤ start'.toNat) (uid : BitVec 32) {fuel fuel' : ℕ}
    (hf : start.toNat + 1 < fuel) (hf' : start'.toNat + 1 < fuel') :
    ∃ L L', dcMain mps (Period.primitivityOp none) veq count true maxDelta start uid fuel = some L ∧
      dcMain mps' (Period.primitivityOp none) veq' count' true maxDelta start' uid fuel' = some L' ∧ L <:+ L' := by
  refine ⟨_, _, dcMain_lines hm veq count true maxDelta start uid hf, dcMain_lines hm' veq' count' true maxDelta start' uid hf', ?_⟩
  obtain ⟨k, hk⟩ : ∃ k, start'.toNat + 1 = start.toNat + 1 + k := ⟨start'.toNat - start.toNat, by omega⟩
  have : numbers uid (start.toNat + 1) <:+ numbers uid (start'.toNat + 1) := by
    unfold numbers
    rw [hk]
    refine List.IsSuffix.filter _ ?_
    rw [List.reverse_suffix]
    exact ⟨_, (List.range_add ..).symm⟩
  exact (this.filterMap _).filter _

/-- The hypotheses can be met: runs with 3 and 5 lines for the id 1 from the number 1000, with different contents of `veq`. -/
example : ∃ mps : MPS, ∃ L L', dcMain mps (Period.primitivityOp none) (fun _ => 7) 3 false 20 1000 1 1002 = some L ∧
    dcMain mps (Period.primitivityOp none) (fun i => i) 5 false 20 1000 1 5000 = some L' ∧ L <+: L' ∧ (L.length < 3 → L' = L) := by
  obtain ⟨mps, hm⟩ := minPolySeqSpec_sat
  exact ⟨mps, dcMain_extends hm hm _ _ (by decide) 20 1000 1 (by decide) (by decide)⟩

end MTT.TinyMT
