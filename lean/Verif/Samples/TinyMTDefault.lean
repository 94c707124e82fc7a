import Verif.Samples.TinyMTCert

/-!
# C124: what `tinymt32dc 0` prints
-/

namespace MTT.TinyMT

open Polynomial PIS Search Temper GF2 Tests

variable {mps : MPS}

theorem numbers_skip {id : BitVec 32} (n k : ℕ) (hk : k ≤ n)
    (h : ∀ j < k, ¬ Maximal (mats id (BitVec.ofNat 32 (n - 1 - j))).1 (mats id (BitVec.ofNat 32 (n - 1 - j))).2) :
    numbers id n = numbers id (n - k) := by
  induction k with
  | zero => rfl
  | succ k ih =>
    rw [ih (by omega) fun j hj => h j (by omega), show n - k = n - (k + 1) + 1 by omega, numbers_neg]
    have := h k (by omega)
    rwa [show n - 1 - k = n - (k + 1) by omega] at this

theorem numbers_default : numbers 0 (0x7fffffff + 1) = 0x7fffff8f :: numbers 0 0x7fffff8f := by
  rw [numbers_skip (0x7fffffff + 1) 112 (by omega) fun j hj => by
      rw [show 0x7fffffff + 1 - 1 - j = 0x7fffffff - j by omega]; exact down_rejected j hj,
    show 0x7fffffff + 1 - 112 = 0x7fffff8f + 1 by omega, numbers_pos]
  rw [show BitVec.ofNat 32 0x7fffff8f = 0x7fffff8f from rfl, down_mats]
  exact down_accepted

theorem charpoly_of_primitive {V : Type} [AddCommGroup V] [Module (ZMod 2) V] [Module.Finite (ZMod 2) V] {f : Module.End (ZMod 2) V}
    {p : (ZMod 2)[X]} {n : ℕ} (hn : 1 ≤ n) (hdim : Module.finrank (ZMod 2) V = n) (hp : Primitive2 p n)
    (h : ∀ s, aeval f p s = 0) : LinearMap.charpoly f = p := by
  have hirr := Primitive2.irreducible hn hp
  have : Nontrivial V := Module.nontrivial_of_finrank_pos (R := ZMod 2) (by omega)
  have hd : _root_.minpoly (ZMod 2) f ∣ p := minpoly.dvd _ _ (LinearMap.ext h)
  have hpc : p ∣ LinearMap.charpoly f := by
    rcases hirr.dvd_iff.1 hd with h | h
    · exact absurd h (minpoly.not_isUnit _ _)
    · rw [eq_of_associated h]
      exact LinearMap.minpoly_dvd_charpoly _
  refine eq_of_monic_of_dvd_of_natDegree_le (monic_of_ne hirr.ne_zero) (LinearMap.charpoly_monic f) hpc ?_
  rw [LinearMap.charpoly_natDegree, hdim, hp.1]

theorem charpoly_default {p : St} (h1 : p.mat1 = 0x8f7011ee) (h2 : p.mat2 = 0xfc78ff1f) :
    (T p).charpoly = bitPoly (127 + 1) 0xd8524022ed8dff4a8dcc50c798faba43 := by
  rw [T_congr (s := p) (t := p32) h1 h2]
  exact charpoly_of_primitive (by decide) finrank_S prim_t32 ann_t32

/-- **C124.**  The line of the number `0x7fffff8f` of the id 0. -/
theorem freshLine_default : ∃ l, freshLine 0 0x7fffff8f = some l ∧ l.id = 0 ∧ l.mat1 = 0x8f7011ee ∧ l.mat2 = 0xfc78ff1f ∧
    l.poly = bitPoly (127 + 1) 0xd8524022ed8dff4a8dcc50c798faba43 ∧ l.weight = 63 ∧ 0 ≤ l.delta ∧ l.delta ≤ 6 := by
  obtain ⟨l, h1, h2⟩ := freshLine_good 0 0x7fffff8f (by rw [down_mats]; exact down_accepted)
  have hm := h2.mats_eq
  rw [show BitVec.ofNat 32 (BitVec.toNat (0x7fffff8f : BitVec 32)) = 0x7fffff8f from rfl, down_mats, Prod.mk.injEq] at hm
  have hp := h2.poly.trans (charpoly_default (p := parSt (l.mat1, l.mat2, l.tmat)) hm.1 hm.2)
  refine ⟨l, h1, h2.id_eq, hm.1, hm.2, hp, ?_, ?_, ?_⟩
  · rw [h2.weight, hp]
    have : ((Finset.range 128).filter fun i => (bitPoly (127 + 1) 0xd8524022ed8dff4a8dcc50c798faba43).coeff i = 1) =
        (Finset.range 128).filter fun i => Nat.testBit 0xd8524022ed8dff4a8dcc50c798faba43 i = true := by
      refine Finset.filter_congr fun i hi => ?_
      rw [bitPoly_coeff]
      have := Finset.mem_range.1 hi
      by_cases hb : Nat.testBit 0xd8524022ed8dff4a8dcc50c798faba43 i = true
      · rw [if_pos ⟨this, hb⟩]; exact ⟨fun _ => hb, fun _ => rfl⟩
      · rw [if_neg (fun h => hb h.2)]; exact ⟨fun h => absurd h (by decide), fun h => absurd h hb⟩
    rw [this]
    decide +kernel
  · obtain ⟨k, k1, k2⟩ := h2.delta
    rw [k2]
    refine Finset.sum_nonneg fun v hv => ?_
    rw [Finset.mem_Icc] at hv
    have := equidist_le finrank_S (k1 v hv.1 hv.2).1
    have := (Nat.le_div_iff_mul_le hv.1).2 this
    omega
  · obtain ⟨k, k1, k2⟩ := h2.better
    refine k2.trans ?_
    have hle : ∀ v ∈ Finset.Icc 1 32, ((127 / v : ℕ) - (k v : ℤ)) ≤ ((127 / v : ℕ) - (downDims.getD (v - 1) 0 : ℤ)) := by
      intro v hv
      rw [Finset.mem_Icc] at hv
      have := (k1 v hv.1 hv.2).2 (show downDims.getD (v - 1) 0 ∈ _ by
        have hd := down_dims v hv.1 hv.2
        rw [hm.1, hm.2]
        exact hd)
      omega
    exact (Finset.sum_le_sum hle).trans (by decide +kernel)

/-- **C124.**  `tinymt32dc 0` without options. -/
theorem default_line (hm : MinPolySeqSpec mps) (veq : ℕ → ℕ) {fuel : ℕ} (hf : 2 ^ 31 < fuel) {maxDelta : ℤ}
    (hd : 6 ≤ maxDelta) {count : ℕ} (hc : 1 ≤ count) (all : Bool) :
    ∃ l L, dcMain mps (Period.primitivityOp none) veq count all maxDelta 0x7fffffff 0 fuel = some (l :: L) ∧
      l.id = 0 ∧ l.mat1 = 0x8f7011ee ∧ l.mat2 = 0xfc78ff1f ∧ l.poly = bitPoly (127 + 1) 0xd8524022ed8dff4a8dcc50c798faba43 ∧
      l.weight = 63 ∧ 0 ≤ l.delta ∧ l.delta ≤ 6 ∧ (count = 1 → all = false → L = []) := by
  obtain ⟨l, h1, h2, h3, h4, h5, h6, h7, h8⟩ := freshLine_default
  have hl : linesOf 0 maxDelta 0x7fffffff = l :: ((numbers 0 0x7fffff8f).filterMap (freshLine 0)).filter fun l => l.delta ≤ maxDelta := by
    unfold linesOf
    rw [show (0x7fffffff : BitVec 32).toNat + 1 = 0x7fffffff + 1 from rfl, numbers_default, List.filterMap_cons_some h1,
      List.filter_cons_of_pos (by simpa using h8.trans hd)]
  obtain ⟨c, rfl⟩ : ∃ c, count = c + 1 := ⟨count - 1, by omega⟩
  have hmain := dcMain_lines hm veq (c + 1) all maxDelta 0x7fffffff 0 (show (0x7fffffff : BitVec 32).toNat + 1 < fuel from hf)
  rw [hl] at hmain
  cases all with
  | true => exact ⟨l, _, hmain, h2, h3, h4, h5, h6, h7, h8, fun _ h => by cases h⟩
  | false =>
    refine ⟨l, _, hmain, h2, h3, h4, h5, h6, h7, h8, fun h _ => ?_⟩
    rw [show c = 0 by omega]
    rfl

end MTT.TinyMT
