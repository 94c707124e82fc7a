import Verif.Samples.TinyMTFirst

/-!
# C125: the lines of `tinymt32dc` never share recursion parameters
-/

namespace MTT.TinyMT

open Polynomial PIS Search Temper

variable {mps mps' : MPS}

theorem mats_inj {id id' : BitVec 32} {n n' : ℕ} (hn : n < 2 ^ 31) (hn' : n' < 2 ^ 31)
    (h : mats id (BitVec.ofNat 32 n) = mats id' (BitVec.ofNat 32 n')) : id = id' ∧ n = n' := by
  unfold mats at h
  rw [Prod.mk.injEq, setUpParam_inj] at h
  refine ⟨h.1, ?_⟩
  have := congrArg BitVec.toNat h.2
  simp only [BitVec.toNat_setWidth, BitVec.toNat_ofNat] at this
  omega

theorem numbers_spec {id : BitVec 32} {m n : ℕ} (h : n ∈ numbers id m) :
    n < m ∧ Maximal (mats id (BitVec.ofNat 32 n)).1 (mats id (BitVec.ofNat 32 n)).2 := by
  unfold numbers at h
  rw [List.mem_filter, List.mem_reverse, List.mem_range] at h
  exact ⟨h.1, by simpa using h.2⟩

theorem freshLine_mats {id : BitVec 32} {m n : ℕ} (hm : m ≤ 2 ^ 32) (h : n ∈ numbers id m) {l : Line} (hl : freshLine id n = some l) :
    l.id = id ∧ (l.mat1, l.mat2) = mats id (BitVec.ofNat 32 n) := by
  obtain ⟨h1, h2⟩ := numbers_spec h
  obtain ⟨l', g1, g2⟩ := freshLine_good id (BitVec.ofNat 32 n) h2
  rw [BitVec.toNat_ofNat, Nat.mod_eq_of_lt (by omega)] at g1 g2
  rw [hl] at g1
  obtain rfl := Option.some.inj g1
  exact ⟨g2.id_eq, g2.mats_eq⟩

theorem linesOf_mem {id : BitVec 32} {maxDelta : ℤ} {start : BitVec 32} {l : Line} (h : l ∈ linesOf id maxDelta start) :
    ∃ n ≤ start.toNat, l.id = id ∧ (l.mat1, l.mat2) = mats id (BitVec.ofNat 32 n) := by
  unfold linesOf at h
  rw [List.mem_filter, List.mem_filterMap] at h
  obtain ⟨⟨n, h1, h2⟩, -⟩ := h
  have := start.isLt
  exact ⟨n, by have := (numbers_spec h1).1; omega, freshLine_mats (by omega) h1 h2⟩

theorem linesOf_pairwise {id : BitVec 32} {maxDelta : ℤ} {start : BitVec 32} (hs : start.toNat < 2 ^ 31) :
    (linesOf id maxDelta start).Pairwise fun l l' => (l.mat1, l.mat2) ≠ (l'.mat1, l'.mat2) := by
  unfold linesOf
  refine List.Pairwise.filter _ ?_
  rw [List.pairwise_filterMap]
  have hp : (numbers id (start.toNat + 1)).Pairwise (· ≠ ·) := by
    unfold numbers
    exact List.Pairwise.filter _ (List.pairwise_reverse.2 ((List.nodup_range).imp fun h => h.symm))
  refine List.Pairwise.imp_of_mem ?_ hp
  intro n n' hn hn' hne l hl l' hl' he
  rw [(freshLine_mats (by omega) hn hl).2, (freshLine_mats (by omega) hn' hl').2] at he
  exact hne (mats_inj (by have := (numbers_spec hn).1; omega) (by have := (numbers_spec hn').1; omega) he).2

/-- **C125.**  No two lines of a run have the same recursion parameters (the options admit start values up to `0x7fffffff`). -/
theorem dcMain_distinct (hm : MinPolySeqSpec mps) (veq : ℕ → ℕ) (count : ℕ) (all : Bool) (maxDelta : ℤ) {start : BitVec 32}
    (hs : start ≤ 0x7fffffff) (uid : BitVec 32) {fuel : ℕ} (hf : start.toNat + 1 < fuel) :
    ∃ L, dcMain mps (Period.primitivityOp none) veq count all maxDelta start uid fuel = some L ∧
      L.Pairwise fun l l' => (l.mat1, l.mat2) ≠ (l'.mat1, l'.mat2) := by
  refine ⟨_, dcMain_lines hm veq count all maxDelta start uid hf, ?_⟩
  have := linesOf_pairwise (id := uid) (maxDelta := maxDelta) (start := start) (by
    have h : start.toNat ≤ (0x7fffffff : BitVec 32).toNat := hs
    have e : (0x7fffffff : BitVec 32).toNat = 2 ^ 31 - 1 := by decide
    omega)
  split
  · exact this
  · exact this.sublist (List.take_sublist ..)

/-- **C125.**  Lines of runs for different ids never have the same recursion parameters. -/
theorem dcMain_disjoint (hm : MinPolySeqSpec mps) (hm' : MinPolySeqSpec mps') (veq veq' : ℕ → ℕ) (count count' : ℕ) (all all' : Bool)
    (maxDelta maxDelta' : ℤ) (start start' : BitVec 32) {uid uid' : BitVec 32} (hne : uid ≠ uid') {fuel fuel' : ℕ}
    (hf : start.toNat + 1 < fuel) (hf' : start'.toNat + 1 < fuel') :
    ∃ L L', dcMain mps (Period.primitivityOp none) veq count all maxDelta start uid fuel = some L ∧
      dcMain mps' (Period.primitivityOp none) veq' count' all' maxDelta' start' uid' fuel' = some L' ∧
      ∀ l ∈ L, ∀ l' ∈ L', (l.mat1, l.mat2) ≠ (l'.mat1, l'.mat2) := by
  refine ⟨_, _, dcMain_lines hm veq count all maxDelta start uid hf, dcMain_lines hm' veq' count' all' maxDelta' start' uid' hf', ?_⟩
  have key : ∀ (b : Bool) (c : ℕ) (L : List Line) l, l ∈ (if b then L else L.take c) → l ∈ L := by
    intro b c L l h
    cases b with
    | true => exact h
    | false => exact List.mem_of_mem_take h
  intro l hl l' hl' he
  obtain ⟨n, -, -, g1⟩ := linesOf_mem (key _ _ _ _ hl)
  obtain ⟨n', -, -, g2⟩ := linesOf_mem (key _ _ _ _ hl')
  rw [g1, g2] at he
  unfold mats at he
  rw [Prod.mk.injEq, setUpParam_inj] at he
  exact hne he.1

/-- **C125.**  The bound on the start value is needed: a number and the number with the highest bit changed have the same line. -/
theorem freshLine_top (id n : BitVec 32) : freshLine id (n ^^^ 0x80000000).toNat = freshLine id n.toNat := by
  have h : setUpParam (n ^^^ 0x80000000) (ctor id) = setUpParam n (ctor id) := by
    have h1 := (setUpParam_inj (n ^^^ 0x80000000) n (ctor id) (ctor id)).2 ⟨rfl, by
      apply BitVec.eq_of_getLsbD_eq
      intro i hi
      have e : (0x80000000 : BitVec 32).getLsbD i = false := by
        rw [show (0x80000000 : BitVec 32) = BitVec.twoPow 32 31 from by decide, BitVec.getLsbD_twoPow]
        simp; omega
      rw [BitVec.getLsbD_setWidth, BitVec.getLsbD_setWidth, BitVec.getLsbD_xor, e, Bool.xor_false]⟩
    unfold setUpParam at h1 ⊢
    dsimp only at h1 ⊢
    rw [h1.1, h1.2]
  unfold freshLine
  rw [BitVec.ofNat_toNat, BitVec.setWidth_eq, BitVec.ofNat_toNat, BitVec.setWidth_eq, h]

/-- The hypotheses can be met: the ids 1 and 2 from the largest start value. -/
example : ∃ mps : MPS, ∃ L L', dcMain mps (Period.primitivityOp none) (fun _ => 0) 3 false 20 0x7fffffff 1 (2 ^ 31 + 1) = some L ∧
    dcMain mps (Period.primitivityOp none) (fun i => i) 5 true 20 0x7fffffff 2 (2 ^ 31 + 1) = some L' ∧
    ∀ l ∈ L, ∀ l' ∈ L', (l.mat1, l.mat2) ≠ (l'.mat1, l'.mat2) := by
  obtain ⟨mps, hm⟩ := minPolySeqSpec_sat
  exact ⟨mps, dcMain_disjoint hm hm _ _ 3 5 false true 20 20 _ _ (by decide) (by decide) (by decide)⟩

end MTT.TinyMT
