import Verif.Samples.SearchTextLemmas
import Verif.Samples.ProgramsProps
import Verif.Samples.EquidistMainProps
import Verif.Samples.OptionsMore
import Verif.Samples.RMTToolsProps

/-!
# C107: the text that the search programs write
-/

namespace MTT.SearchText

open Text Options

/-! ### The specification of the texts -/

/-- A number in decimal. -/
def num (x : ℤ) : List Char := (toString x).toList

/-- A number as `n` hexadecimal digits. -/
def hexa (n x : ℕ) : List Char := (Nat.toDigits 16 x).leftpad n '0'

/-- A line: cells separated by commas. -/
def row (cells : List (List Char)) : List Char := List.intercalate [','] cells ++ ['\n']

/-- A header line: names separated by a comma and a space. -/
def head (names : List String) : List Char := List.intercalate [',', ' '] (names.map String.toList) ++ ['\n']

end MTT.SearchText

namespace MTT.SFMT

open SearchText

/-- The columns of sfmtdc and sfmtdcfixed. -/
def names : List String := ["mexp", "pos1", "sl1", "sl2", "sr1", "sr2", "msk1", "msk2", "msk3", "msk4", "parity1", "parity2", "parity3",
  "parity4", "delta32", "delta64", "delta128"]

def Line.cells (l : Line) : List (List Char) := [num l.mexp, num l.param.pos1, num l.param.sl1, num l.param.sl2, num l.param.sr1,
  num l.param.sr2, hexa 8 l.param.msk1.toNat, hexa 8 l.param.msk2.toNat, hexa 8 l.param.msk3.toNat, hexa 8 l.param.msk4.toNat,
  hexa 8 l.parity1.toNat, hexa 8 l.parity2.toNat, hexa 8 l.parity3.toNat, hexa 8 l.parity4.toNat, num l.delta32, num l.delta64,
  num l.delta128]

end MTT.SFMT

namespace MTT.DSFMT

open SearchText

/-- The columns of dSFMTdc. -/
def names : List String := ["mexp", "pos1", "sl1", "msk1", "msk2", "fix1", "fix2", "parity1", "parity2", "delta52"]

def Line.cells (l : Line) : List (List Char) := [num l.mexp, num l.param.pos1, num l.param.sl1, hexa 16 l.param.msk1.toNat,
  hexa 16 l.param.msk2.toNat, hexa 16 l.fix1.toNat, hexa 16 l.fix2.toNat, hexa 16 l.parity1.toNat, hexa 16 l.parity2.toNat,
  num l.delta52]

end MTT.DSFMT

namespace MTT.RMT

open SearchText

/-- The columns of rmt64dc. -/
def names : List String := ["mexp", "pos", "mata", "parity", "maskb", "maskc", "delta"]

def Line.cells (l : Line) : List (List Char) := [num l.param.mexp, num l.param.pos, hexa 16 l.param.mata.toNat,
  hexa 16 l.param.parity.toNat, hexa 16 l.param.maskb.toNat, hexa 16 l.param.maskc.toNat, num l.delta]

end MTT.RMT

namespace MTT.MTDC

open SearchText

/-- The columns of mt2. -/
def names : List String := ["mexp", "id", "pos", "mata", "maskb", "maskc", "delta"]

def Line.cells (l : Line) : List (List Char) := [num l.mexp, num l.id, num l.pos, hexa 8 l.mata.toNat, hexa 8 l.maskb.toNat,
  hexa 8 l.maskc.toNat, num l.delta]

end MTT.MTDC

namespace MTT.MTGP

open SearchText

/-- The columns of MTGP32dc that its header names. -/
def names : List String := ["sha1", "mexp", "type", "id", "pos", "sh1", "sh2", "tbl_0", "tbl_1", "tbl_2", "tbl_3", "tmp_0", "tmp_1",
  "tmp_2", "tmp_3", "mask"]

def Line.cells (l : Line) : List (List Char) := ["\"\"".toList, num l.mexp, "uint32_t".toList, num l.id.toNat, num l.pos, num l.sh1,
  num l.sh2, hexa 8 (l.tbl 0).toNat, hexa 8 (l.tbl 1).toNat, hexa 8 (l.tbl 2).toNat, hexa 8 (l.tbl 3).toNat, hexa 8 (l.tmp 0).toNat,
  hexa 8 (l.tmp 1).toNat, hexa 8 (l.tmp 2).toNat, hexa 8 (l.tmp 3).toNat, hexa 8 l.mask.toNat, num l.weight, num l.delta]

end MTT.MTGP

namespace MTT.TinyMT

open SearchText Polynomial

/-- The columns of tinymt32dc. -/
def names : List String := ["characteristic", "id", "mat1", "mat2", "tmat", "weight", "delta"]

open Classical in
/-- The polynomial as a number: bit `i` is the coefficient of `X^i`. -/
noncomputable def polyNat (p : (ZMod 2)[X]) : ℕ := ∑ i ∈ Finset.range 128, if p.coeff i = 1 then 2 ^ i else 0

noncomputable def Line.cells (l : Line) : List (List Char) := [hexa 32 (polyNat l.poly), num l.id.toNat, hexa 8 l.mat1.toNat,
  hexa 8 l.mat2.toNat, hexa 8 l.tmat.toNat, num l.weight, num l.delta]

end MTT.TinyMT

namespace MTT.SearchText

open Text Options

/-! ### Cells -/

theorem dec_num (x : ℕ) : dec x = num x := (nat_text x).symm

theorem decInt_num (x : ℤ) : decInt x = num x := decInt_text x

theorem hexW_hexa (n x : ℕ) : hexW n x = hexa n x := hexW_text n x

theorem num_plain (x : ℤ) : Plain (num x) := decInt_num x ▸ decInt_plain x

theorem hexa_plain (n x : ℕ) : Plain (hexa n x) := hexW_hexa n x ▸ hexW_plain n x

theorem num_inj {x y : ℤ} (h : num x = num y) : x = y := decInt_inj (by rwa [decInt_num, decInt_num])

theorem num_nat_inj {x y : ℕ} (h : num (x : ℤ) = num (y : ℤ)) : x = y := Int.ofNat_inj.1 (num_inj h)

theorem hexa_inj {n x y : ℕ} (h : hexa n x = hexa n y) : x = y := hexW_inj (n := n) (by rwa [hexW_hexa, hexW_hexa])

theorem hexa_bv {n w : ℕ} {x y : BitVec w} (h : hexa n x.toNat = hexa n y.toNat) : x = y := BitVec.eq_of_toNat_eq (hexa_inj h)

theorem num_bv {w : ℕ} {x y : BitVec w} (h : num (x.toNat : ℤ) = num (y.toNat : ℤ)) : x = y := BitVec.eq_of_toNat_eq (num_nat_inj h)

/-- A line determines its cells. -/
theorem cells_inj : ∀ {A B : List (List Char)}, A ≠ [] → B ≠ [] → (∀ t ∈ A, Plain t) → (∀ t ∈ B, Plain t) →
    List.intercalate [','] A = List.intercalate [','] B → A = B
  | [], _, hA, _, _, _, _ => absurd rfl hA
  | _ :: _, [], _, hB, _, _, _ => absurd rfl hB
  | [a], [b], _, _, _, _, h => by simpa [List.intercalate] using h
  | [a], b :: b' :: B, _, _, h1, h2, h => by
    rw [List.intercalate_cons_cons] at h
    have e : List.intercalate [','] [a] = a := by simp [List.intercalate]
    rw [e] at h
    have := congrArg (List.count ',') h
    rw [count_plain (h1 a (by simp)), List.count_append, List.count_append] at this
    simp at this
    omega
  | a :: a' :: A, [b], _, _, h1, h2, h => by
    rw [List.intercalate_cons_cons] at h
    have e : List.intercalate [','] [b] = b := by simp [List.intercalate]
    rw [e] at h
    have := congrArg (List.count ',') h
    rw [count_plain (h2 b (by simp)), List.count_append, List.count_append] at this
    simp at this
  | a :: a' :: A, b :: b' :: B, _, _, h1, h2, h => by
    rw [List.intercalate_cons_cons, List.intercalate_cons_cons, List.append_assoc, List.append_assoc, List.singleton_append,
      List.singleton_append] at h
    obtain ⟨e1, e2⟩ := cell (h1 a (by simp)) (h2 b (by simp)) h
    rw [e1, cells_inj (by simp) (by simp) (fun t ht => h1 t (List.mem_cons_of_mem _ ht)) (fun t ht => h2 t (List.mem_cons_of_mem _ ht)) e2]

/-- A line contains no line feed. -/
theorem cells_lf : ∀ {A : List (List Char)}, (∀ t ∈ A, Plain t) → '\n' ∉ List.intercalate [','] A
  | [], _ => by simp [List.intercalate]
  | [a], h => by simpa [List.intercalate] using lf_plain (h a (by simp))
  | a :: a' :: A, h => by
    rw [List.intercalate_cons_cons, List.append_assoc, List.singleton_append, List.mem_append, List.mem_cons]
    rintro (hc | hc | hc)
    · exact lf_plain (h a (by simp)) hc
    · exact absurd hc (by decide)
    · exact cells_lf (fun t ht => h t (List.mem_cons_of_mem _ ht)) hc

/-- The commas of a line. -/
theorem cells_count : ∀ {A : List (List Char)}, (∀ t ∈ A, Plain t) → (List.intercalate [','] A).count ',' = A.length - 1
  | [], _ => rfl
  | [a], h => by simpa [List.intercalate] using count_plain (h a (by simp))
  | a :: a' :: A, h => by
    rw [List.intercalate_cons_cons, List.count_append, List.count_append, count_plain (h a (by simp)),
      cells_count (fun t ht => h t (List.mem_cons_of_mem _ ht))]
    simp
    omega

end MTT.SearchText

namespace MTT.SFMT

open SearchText Text

theorem cells_plain (l : Line) : ∀ t ∈ l.cells, Plain t := by
  simp only [Line.cells, List.forall_mem_cons, num_plain, hexa_plain, true_and]
  simp

theorem text_cells (l : Line) : l.text = List.intercalate [','] l.cells := by
  unfold Line.text getString Line.cells
  simp only [dec_num, decInt_num, hexW_hexa]
  simp [List.intercalate]

theorem cells_line {l l' : Line} (h : l.cells = l'.cells) : l = l' := by
  obtain ⟨⟨m, ⟨a1, a2, a3, a4, a5, a6, a7, a8, a9⟩, p1, p2, p3, p4⟩, d1, d2, d3⟩ := l
  obtain ⟨⟨m', ⟨a1', a2', a3', a4', a5', a6', a7', a8', a9'⟩, p1', p2', p3', p4'⟩, d1', d2', d3'⟩ := l'
  simp only [Line.cells, List.cons.injEq] at h
  obtain ⟨h1, h2, h3, h4, h5, h6, h7, h8, h9, h10, h11, h12, h13, h14, h15, h16, h17, -⟩ := h
  rw [num_nat_inj h1, num_nat_inj h2, num_nat_inj h3, num_nat_inj h4, num_nat_inj h5, num_nat_inj h6, hexa_bv h7, hexa_bv h8, hexa_bv h9,
    hexa_bv h10, hexa_bv h11, hexa_bv h12, hexa_bv h13, hexa_bv h14, num_inj h15, num_inj h16, num_inj h17]

theorem header_head : "# ".toList ++ header ++ ", delta32, delta64, delta128\n".toList = "# ".toList ++ head names := by decide +kernel

end MTT.SFMT

namespace MTT.DSFMT

open SearchText Text

theorem cells_plain (l : Line) : ∀ t ∈ l.cells, Plain t := by
  simp only [Line.cells, List.forall_mem_cons, num_plain, hexa_plain, true_and]
  simp

theorem text_cells (l : Line) : l.text = List.intercalate [','] l.cells := by
  unfold Line.text getString Line.cells
  simp only [dec_num, decInt_num, hexW_hexa]
  simp [List.intercalate]

theorem cells_line {l l' : Line} (h : l.cells = l'.cells) : l = l' := by
  obtain ⟨⟨m, ⟨a1, a2, a3, a4⟩, p1, p2, p3, p4⟩, d1⟩ := l
  obtain ⟨⟨m', ⟨a1', a2', a3', a4'⟩, p1', p2', p3', p4'⟩, d1'⟩ := l'
  simp only [Line.cells, List.cons.injEq] at h
  obtain ⟨h1, h2, h3, h4, h5, h6, h7, h8, h9, h10, -⟩ := h
  rw [num_nat_inj h1, num_nat_inj h2, num_nat_inj h3, hexa_bv h4, hexa_bv h5, hexa_bv h6, hexa_bv h7, hexa_bv h8, hexa_bv h9, num_inj h10]

theorem header_head : "# ".toList ++ header ++ ", delta52\n".toList = "# ".toList ++ head names := by decide +kernel

end MTT.DSFMT

namespace MTT.RMT

open SearchText Text

theorem cells_plain (l : Line) : ∀ t ∈ l.cells, Plain t := by
  simp only [Line.cells, List.forall_mem_cons, num_plain, hexa_plain, true_and]
  simp

theorem text_cells (l : Line) : l.text = List.intercalate [','] l.cells := by
  unfold Line.text getString Line.cells
  simp only [dec_num, decInt_num, hexW_hexa]
  simp [List.intercalate]

theorem cells_line {l l' : Line} (h : l.cells = l'.cells) : l = l' := by
  obtain ⟨⟨m, a1, p1, p2, p3, p4⟩, d1⟩ := l
  obtain ⟨⟨m', a1', p1', p2', p3', p4'⟩, d1'⟩ := l'
  simp only [Line.cells, List.cons.injEq] at h
  obtain ⟨h1, h2, h3, h4, h5, h6, h7, -⟩ := h
  rw [num_nat_inj h1, num_nat_inj h2, hexa_bv h3, hexa_bv h4, hexa_bv h5, hexa_bv h6, num_inj h7]

theorem header_head : "# ".toList ++ header ++ ", delta\n".toList = "# ".toList ++ head names := by decide +kernel

end MTT.RMT

namespace MTT.MTDC

open SearchText Text

theorem cells_plain (l : Line) : ∀ t ∈ l.cells, Plain t := by
  simp only [Line.cells, List.forall_mem_cons, num_plain, hexa_plain, true_and]
  simp

theorem text_cells (l : Line) : l.text = List.intercalate [','] l.cells := by
  unfold Line.text Line.cells
  simp only [dec_num, decInt_num, hexW_hexa]
  simp [List.intercalate]

theorem cells_line {l l' : Line} (h : l.cells = l'.cells) : l = l' := by
  obtain ⟨m, a1, p1, p2, p3, p4, d1⟩ := l
  obtain ⟨m', a1', p1', p2', p3', p4', d1'⟩ := l'
  simp only [Line.cells, List.cons.injEq] at h
  obtain ⟨h1, h2, h3, h4, h5, h6, h7, -⟩ := h
  rw [num_nat_inj h1, num_inj h2, num_nat_inj h3, hexa_bv h4, hexa_bv h5, hexa_bv h6, num_inj h7]

theorem header_head : header ++ ", delta\n".toList = head names := by decide +kernel

end MTT.MTDC

namespace MTT.MTGP

open SearchText Text

theorem cells_plain (l : Line) : ∀ t ∈ l.cells, Plain t := by
  have h1 : Plain "\"\"".toList := by unfold Plain; decide
  have h2 : Plain "uint32_t".toList := by unfold Plain; decide
  simp only [Line.cells, List.forall_mem_cons, num_plain, hexa_plain, h1, h2, true_and]
  simp

theorem text_cells (l : Line) : l.text = List.intercalate [','] l.cells := by
  unfold Line.text Line.cells
  simp only [dec_num, decInt_num, hexW_hexa]
  simp [List.intercalate, show List.range 4 = [0, 1, 2, 3] from rfl]

/-- The members that are printed. -/
theorem cells_line {l l' : Line} (h : l.cells = l'.cells) : l.mexp = l'.mexp ∧ l.id = l'.id ∧ l.pos = l'.pos ∧ l.sh1 = l'.sh1 ∧
    l.sh2 = l'.sh2 ∧ (∀ i < 4, l.tbl i = l'.tbl i ∧ l.tmp i = l'.tmp i) ∧ l.mask = l'.mask ∧ l.weight = l'.weight ∧
    l.delta = l'.delta := by
  simp only [Line.cells, List.cons.injEq] at h
  obtain ⟨-, h1, -, h2, h3, h4, h5, t0, t1, t2, t3, s0, s1, s2, s3, h6, h7, h8, -⟩ := h
  refine ⟨num_nat_inj h1, num_bv h2, num_nat_inj h3, num_nat_inj h4, num_nat_inj h5, fun i hi => ?_, hexa_bv h6, num_nat_inj h7,
    num_inj h8⟩
  rcases i with _ | _ | _ | _ | i
  · exact ⟨hexa_bv t0, hexa_bv s0⟩
  · exact ⟨hexa_bv t1, hexa_bv s1⟩
  · exact ⟨hexa_bv t2, hexa_bv s2⟩
  · exact ⟨hexa_bv t3, hexa_bv s3⟩
  · omega

end MTT.MTGP

namespace MTT.TinyMT

open Polynomial SearchText Text

theorem bitLoop_toNat (poly : (ZMod 2)[X]) : ∀ (k i j : ℕ) (p : BitVec 64), j + k ≤ 64 → p.toNat < 2 ^ j →
    (bitLoop poly k i p (1#64 <<< j)).toNat = p.toNat + ∑ t ∈ Finset.range k, (open Classical in if poly.coeff (i + t) = 1 then 2 ^ (j + t) else 0)
  | 0, i, j, p, _, _ => by simp [bitLoop]
  | k + 1, i, j, p, hj, hp => by
    have hpow : 2 ^ j < 2 ^ 64 := Nat.pow_lt_pow_right (by omega) (by omega)
    have hpow' : 2 ^ (j + 1) = 2 ^ j + 2 ^ j := by rw [pow_succ]; omega
    have hmask : (1#64 <<< j).toNat = 2 ^ j := by
      rw [BitVec.toNat_shiftLeft, Nat.shiftLeft_eq, BitVec.toNat_ofNat, Nat.mod_eq_of_lt (show 1 < 2 ^ 64 by norm_num), one_mul,
        Nat.mod_eq_of_lt hpow]
    have hor : (p ||| 1#64 <<< j).toNat = p.toNat + 2 ^ j := by
      rw [BitVec.toNat_or, hmask, Nat.or_comm, ← Nat.mul_one (2 ^ j), ← Nat.two_pow_add_eq_or_of_lt hp, Nat.mul_one, Nat.add_comm]
    have hsh : (1#64 <<< j) <<< 1 = 1#64 <<< (j + 1) := (BitVec.shiftLeft_add _ _ _).symm
    unfold bitLoop
    rw [hsh, Finset.sum_range_succ']
    simp only [Nat.add_zero]
    have hs : ∀ t, (open Classical in if poly.coeff (i + 1 + t) = 1 then 2 ^ (j + 1 + t) else 0) =
        (open Classical in if poly.coeff (i + (t + 1)) = 1 then 2 ^ (j + (t + 1)) else 0) := fun t => by
      rw [show i + 1 + t = i + (t + 1) by omega, show j + 1 + t = j + (t + 1) by omega]
    by_cases hc : poly.coeff i = 1
    · rw [if_pos hc, if_pos hc, bitLoop_toNat poly k (i + 1) (j + 1) _ (by omega) (by omega), hor]
      simp only [hs]
      omega
    · rw [if_neg hc, if_neg hc, bitLoop_toNat poly k (i + 1) (j + 1) _ (by omega) (by omega)]
      simp only [hs]
      omega

theorem hexW_succ {n : ℕ} (hn : 1 ≤ n) (x : ℕ) : hexW (n + 1) x = hexW n (x / 16) ++ [Nat.digitChar (x % 16)] := by
  unfold hexW
  by_cases h : x < 16
  · rw [digits, dif_pos (.inl h), show x / 16 = 0 by omega, digits, dif_pos (.inl (by omega)), Nat.mod_eq_of_lt h]
    obtain ⟨m, rfl⟩ : ∃ m, n = m + 1 := ⟨n - 1, by omega⟩
    simp only [List.length_singleton, Nat.add_sub_cancel]
    rw [show [Nat.digitChar 0] = List.replicate 1 '0' from rfl, ← List.replicate_add]
  · have e : digits 16 x = digits 16 (x / 16) ++ [Nat.digitChar (x % 16)] := by
      rw [digits, dif_neg (by omega)]
    rw [e, List.length_append, List.length_singleton, Nat.add_sub_add_right, List.append_assoc]

theorem hexW_split (k a q : ℕ) (hq : q < 16 ^ (k + 1)) : hexW (16 + (k + 1)) (a * 16 ^ (k + 1) + q) = hexW 16 a ++ hexW (k + 1) q := by
  induction k generalizing q with
  | zero =>
    rw [hexW_succ (by omega)]
    have h16 : q < 16 := by simpa using hq
    have e1 : (a * 16 ^ (0 + 1) + q) / 16 = a := by omega
    have e2 : (a * 16 ^ (0 + 1) + q) % 16 = q := by omega
    rw [e1, e2]
    congr 1
    unfold hexW
    rw [digits, dif_pos (.inl h16)]
    rfl
  | succ k ih =>
    rw [show 16 + (k + 1 + 1) = 16 + (k + 1) + 1 by omega, hexW_succ (n := 16 + (k + 1)) (by omega), hexW_succ (n := k + 1) (by omega)]
    have e1 : (a * 16 ^ (k + 1 + 1) + q) / 16 = a * 16 ^ (k + 1) + q / 16 := by
      rw [pow_succ, ← Nat.mul_assoc]
      omega
    have e2 : (a * 16 ^ (k + 1 + 1) + q) % 16 = q % 16 := by
      rw [pow_succ, ← Nat.mul_assoc]
      omega
    rw [e1, e2, ih _ (by rw [pow_succ] at hq; omega), List.append_assoc]

theorem sum_split (c : ℕ → Prop) [DecidablePred c] (n m : ℕ) :
    ∑ t ∈ Finset.range (n + m), (if c t then 2 ^ t else 0) =
      (∑ t ∈ Finset.range m, (if c (n + t) then 2 ^ t else 0)) * 2 ^ n + ∑ t ∈ Finset.range n, (if c t then 2 ^ t else 0) := by
  rw [Finset.sum_range_add, Nat.add_comm, Finset.sum_mul]
  congr 1
  refine Finset.sum_congr rfl fun t _ => ?_
  split
  · rw [pow_add, Nat.mul_comm]
  · rw [Nat.zero_mul]

theorem polyNat_halves (p : (ZMod 2)[X]) : polyNat p = (bitLoop p 64 64 0 1).toNat * 16 ^ (15 + 1) + (bitLoop p 64 0 0 1).toNat := by
  classical
  have h2 := bitLoop_toNat p 64 0 0 0 (by omega) (by decide)
  have h1 := bitLoop_toNat p 64 64 0 0 (by omega) (by decide)
  have e0 : (0#64).toNat = 0 := by decide
  rw [show (1#64 <<< 0) = 1#64 by decide] at h1 h2
  simp only [Nat.zero_add] at h1 h2
  rw [show (0 : BitVec 64) = 0#64 from rfl, e0, Nat.zero_add] at h1 h2
  have hs := sum_split (fun i => p.coeff i = 1) 64 64
  have e : (16 : ℕ) ^ (15 + 1) = 2 ^ 64 := by norm_num
  rw [e]
  unfold polyNat
  rw [show (1 : BitVec 64) = 1#64 from rfl, show (0 : BitVec 64) = 0#64 from rfl, h1, h2]
  convert hs

theorem polyText_hexa (p : (ZMod 2)[X]) : polyText p = hexa 32 (polyNat p) := by
  have e : (16 : ℕ) ^ (15 + 1) = 2 ^ 64 := by norm_num
  unfold polyText
  dsimp only
  rw [← hexW_hexa, polyNat_halves, show (32 : ℕ) = 16 + (15 + 1) from rfl, hexW_split 15 _ _ (by
    rw [e]; exact (bitLoop p 64 0 0 1).isLt)]

/-- The number determines the coefficients. -/
theorem polyNat_inj {p q : (ZMod 2)[X]} (hp : p.natDegree < 128) (hq : q.natDegree < 128) (h : polyNat p = polyNat q) : p = q := by
  classical
  have key : ∀ (n : ℕ) (f g : ℕ → Prop), (∑ i ∈ Finset.range n, (if f i then 2 ^ i else 0)) = (∑ i ∈ Finset.range n, (if g i then 2 ^ i else 0)) →
      ∀ i < n, (f i ↔ g i) := by
    intro n
    have hlt : ∀ (m : ℕ) (f : ℕ → Prop), (∑ i ∈ Finset.range m, (if f i then 2 ^ i else 0)) < 2 ^ m := by
      intro m f
      induction m with
      | zero => simp
      | succ m ih =>
        rw [Finset.sum_range_succ, pow_succ]
        split <;> omega
    induction n with
    | zero => exact fun _ _ _ i hi => absurd hi (by omega)
    | succ n ih =>
      intro f g h i hi
      rw [Finset.sum_range_succ, Finset.sum_range_succ] at h
      have l1 := hlt n f
      have l2 := hlt n g
      by_cases hf : f n <;> by_cases hg : g n
      · rw [if_pos hf, if_pos hg] at h
        rcases Nat.lt_succ_iff_lt_or_eq.1 hi with hi | rfl
        · exact ih f g (by omega) i hi
        · exact iff_of_true hf hg
      · rw [if_pos hf, if_neg hg] at h; omega
      · rw [if_neg hf, if_pos hg] at h; omega
      · rw [if_neg hf, if_neg hg] at h
        rcases Nat.lt_succ_iff_lt_or_eq.1 hi with hi | rfl
        · exact ih f g (by omega) i hi
        · exact iff_of_false hf hg
  have h01 : ∀ a : ZMod 2, a = 0 ∨ a = 1 := by decide
  ext i
  by_cases hi : i < 128
  · have := key 128 (fun i => p.coeff i = 1) (fun i => q.coeff i = 1) (by unfold polyNat at h; convert h) i hi
    rcases h01 (p.coeff i) with e | e <;> rcases h01 (q.coeff i) with e' | e' <;> rw [e, e'] at this ⊢
    · exact absurd (this.2 rfl) (by decide)
    · exact absurd (this.1 rfl) (by decide)
  · rw [coeff_eq_zero_of_natDegree_lt (by omega), coeff_eq_zero_of_natDegree_lt (by omega)]

theorem cells_plain (l : Line) : ∀ t ∈ l.cells, Plain t := by
  simp only [Line.cells, List.forall_mem_cons, num_plain, hexa_plain, true_and]
  simp

theorem text_cells (l : Line) : l.text = List.intercalate [','] l.cells := by
  unfold Line.text Line.cells
  simp only [polyText_hexa, dec_num, decInt_num, hexW_hexa]
  simp [List.intercalate]

theorem cells_line {l l' : Line} (hl : l.poly.natDegree < 128) (hl' : l'.poly.natDegree < 128) (h : l.cells = l'.cells) : l = l' := by
  obtain ⟨a1, a2, a3, a4, a5, a6, a7⟩ := l
  obtain ⟨b1, b2, b3, b4, b5, b6, b7⟩ := l'
  simp only [Line.cells, List.cons.injEq] at h
  obtain ⟨h1, h2, h3, h4, h5, h6, h7, -⟩ := h
  have e : a1 = b1 := polyNat_inj hl hl' (hexa_inj h1)
  rw [e, num_bv h2, hexa_bv h3, hexa_bv h4, hexa_bv h5, num_nat_inj h6, num_inj h7]

theorem header_head : "# characteristic, ".toList ++ header ++ ", weight, delta\n".toList = "# ".toList ++ head names := by
  decide +kernel

end MTT.TinyMT

namespace MTT.SearchText

open Polynomial Text Options Search Parity

/-! ### The columns -/

/-- Specification: the header of MTGP32dc, with a blank missing in the middle. -/
def mtgpHead : List Char :=
  "#".toList ++ List.intercalate [',', ' '] ((MTGP.names.take 11).map String.toList) ++ ",".toList ++ head (MTGP.names.drop 11)

theorem mtgp_head : '#' :: MTGP.header ++ ['\n'] = mtgpHead := by decide +kernel

/-- **C107 (negation).**  The header of MTGP32dc has two names less than its lines have cells, counted by the commas of the printed texts. -/
theorem mtgp_columns (l : MTGP.Line) : mtgpHead.count ',' = 15 ∧ l.text.count ',' = 17 :=
  ⟨by decide +kernel, by rw [MTGP.text_cells, cells_count (MTGP.cells_plain l)]; rfl⟩

/-- **C107.**  The headers of the other programs name every column: the printed header and every printed line have the same number of commas. -/
theorem commas : (∀ l : SFMT.Line, (head SFMT.names).count ',' = l.text.count ',') ∧
    (∀ l : DSFMT.Line, (head DSFMT.names).count ',' = l.text.count ',') ∧
    (∀ l : RMT.Line, (head RMT.names).count ',' = l.text.count ',') ∧
    (∀ l : MTDC.Line, (head MTDC.names).count ',' = l.text.count ',') ∧
    (∀ l : TinyMT.Line, (head TinyMT.names).count ',' = l.text.count ',') := by
  refine ⟨fun l => ?_, fun l => ?_, fun l => ?_, fun l => ?_, fun l => ?_⟩
  · rw [SFMT.text_cells, cells_count (SFMT.cells_plain l)]; exact (by decide +kernel : (head SFMT.names).count ',' = 16)
  · rw [DSFMT.text_cells, cells_count (DSFMT.cells_plain l)]; exact (by decide +kernel : (head DSFMT.names).count ',' = 9)
  · rw [RMT.text_cells, cells_count (RMT.cells_plain l)]; exact (by decide +kernel : (head RMT.names).count ',' = 6)
  · rw [MTDC.text_cells, cells_count (MTDC.cells_plain l)]; exact (by decide +kernel : (head MTDC.names).count ',' = 6)
  · rw [TinyMT.text_cells, cells_count (TinyMT.cells_plain l)]; exact (by decide +kernel : (head TinyMT.names).count ',' = 6)

/-! ### The text determines the lines -/

theorem body_rows {α : Type} {line : α → List Char} {cells : α → List (List Char)}
    (h : ∀ l, line l = List.intercalate [','] (cells l)) (L : List α) : body line L = L.flatMap fun l => row (cells l) := by
  unfold body row
  simp only [h]

theorem rows_inj {α : Type} {cells : α → List (List Char)} {P : α → Prop} {R : α → α → Prop} (hp : ∀ l, ∀ t ∈ cells l, Plain t)
    (hne : ∀ l, cells l ≠ []) (hc : ∀ l l', P l → P l' → cells l = cells l' → R l l') :
    ∀ {L L' : List α}, (∀ l ∈ L, P l) → (∀ l ∈ L', P l) →
      (L.flatMap fun l => row (cells l)) = (L'.flatMap fun l => row (cells l)) → List.Forall₂ R L L'
  | [], [], _, _, _ => .nil
  | [], l :: L, _, _, h => by simp [row] at h
  | l :: L, [], _, _, h => by simp [row] at h
  | l :: L, l' :: L', h1, h2, h => by
    unfold row at h
    rw [List.flatMap_cons, List.flatMap_cons, List.append_assoc, List.append_assoc, List.singleton_append, List.singleton_append] at h
    obtain ⟨e1, e2⟩ := Text.line (cells_lf (hp l)) (cells_lf (hp l')) h
    exact .cons (hc l l' (h1 l (by simp)) (h2 l' (by simp)) (cells_inj (hne l) (hne l') (hp l) (hp l') e1))
      (rows_inj hp hne hc (fun l h => h1 l (List.mem_cons_of_mem _ h)) (fun l h => h2 l (List.mem_cons_of_mem _ h)) e2)

/-- **C107.**  The printed lines of a run determine its parameters and its delta values. -/
theorem lines_of_text :
    (∀ L L' : List SFMT.Line, (L.flatMap fun l => row l.cells) = (L'.flatMap fun l => row l.cells) → L = L') ∧
    (∀ L L' : List DSFMT.Line, (L.flatMap fun l => row l.cells) = (L'.flatMap fun l => row l.cells) → L = L') ∧
    (∀ L L' : List RMT.Line, (L.flatMap fun l => row l.cells) = (L'.flatMap fun l => row l.cells) → L = L') ∧
    (∀ L L' : List MTDC.Line, (L.flatMap fun l => row l.cells) = (L'.flatMap fun l => row l.cells) → L = L') ∧
    (∀ L L' : List MTGP.Line, (L.flatMap fun l => row l.cells) = (L'.flatMap fun l => row l.cells) →
      List.Forall₂ (fun l l' => l.mexp = l'.mexp ∧ l.id = l'.id ∧ l.pos = l'.pos ∧ l.sh1 = l'.sh1 ∧ l.sh2 = l'.sh2 ∧
        (∀ i < 4, l.tbl i = l'.tbl i ∧ l.tmp i = l'.tmp i) ∧ l.mask = l'.mask ∧ l.weight = l'.weight ∧ l.delta = l'.delta) L L') ∧
    (∀ L L' : List TinyMT.Line, (∀ l ∈ L, l.poly.natDegree < 128) → (∀ l ∈ L', l.poly.natDegree < 128) →
      (L.flatMap fun l => row l.cells) = (L'.flatMap fun l => row l.cells) → L = L') :=
  ⟨fun _ _ h => List.forall₂_eq_eq_eq ▸ rows_inj (P := fun _ => True) SFMT.cells_plain (fun _ => by simp [SFMT.Line.cells])
      (fun _ _ _ _ => SFMT.cells_line) (fun _ _ => trivial) (fun _ _ => trivial) h,
    fun _ _ h => List.forall₂_eq_eq_eq ▸ rows_inj (P := fun _ => True) DSFMT.cells_plain (fun _ => by simp [DSFMT.Line.cells])
      (fun _ _ _ _ => DSFMT.cells_line) (fun _ _ => trivial) (fun _ _ => trivial) h,
    fun _ _ h => List.forall₂_eq_eq_eq ▸ rows_inj (P := fun _ => True) RMT.cells_plain (fun _ => by simp [RMT.Line.cells])
      (fun _ _ _ _ => RMT.cells_line) (fun _ _ => trivial) (fun _ _ => trivial) h,
    fun _ _ h => List.forall₂_eq_eq_eq ▸ rows_inj (P := fun _ => True) MTDC.cells_plain (fun _ => by simp [MTDC.Line.cells])
      (fun _ _ _ _ => MTDC.cells_line) (fun _ _ => trivial) (fun _ _ => trivial) h,
    fun _ _ h => rows_inj (P := fun _ => True) MTGP.cells_plain (fun _ => by simp [MTGP.Line.cells])
      (fun _ _ _ _ => MTGP.cells_line) (fun _ _ => trivial) (fun _ _ => trivial) h,
    fun _ _ h1 h2 h => List.forall₂_eq_eq_eq ▸ rows_inj (P := fun l : TinyMT.Line => l.poly.natDegree < 128) TinyMT.cells_plain
      (fun _ => by simp [TinyMT.Line.cells]) (fun _ _ => TinyMT.cells_line) h1 h2 h⟩

/-! ### The programs -/

/-- Specification: the report of sfmtdc, sfmtdcfixed and dSFMTdc about a run that was asked for `n` lines. -/
def report (verbose : Prop) [Decidable verbose] (t0 t1 : List Char) (seed : BitVec 64) (names : List String)
    (rows : List (List (List Char))) (n : ℕ) : List Char :=
  "seed = ".toList ++ num seed.toNat ++ "\n".toList ++ (if verbose then "search start at ".toList ++ t0 else []) ++
    "# ".toList ++ head names ++ rows.flatMap row ++ (if rows.length < n then "search failed\n".toList else []) ++
    (if verbose then "search end at ".toList ++ t1 ++ "\n".toList else [])

section

variable {mps : MPS} {kernel : KernelFn} {xgcd : DSFMT.XgcdFn} {fuel : ℕ} {clock : BitVec 64} {canOpen : List Char → Bool}
  {evs : List Ev} {operands : List (List Char)}

theorem sfmt_shown (v : Bool) (t0 t1 : List Char) (s : BitVec 64) (L : List SFMT.Line) (n : ℕ) :
    (L.length = n → SFMT.shown v t0 t1 s (.done L) = some ⟨report (v = true) t0 t1 s SFMT.names (L.map SFMT.Line.cells) n, 0⟩) ∧
    (L.length < n → SFMT.shown v t0 t1 s (.failed L) = some ⟨report (v = true) t0 t1 s SFMT.names (L.map SFMT.Line.cells) n, 0⟩) := by
  have hb := body_rows SFMT.text_cells L
  have hh := SFMT.header_head
  constructor
  · intro h
    unfold SFMT.shown report opening closing
    dsimp only
    rw [List.append_assoc _ "# ".toList, List.append_assoc _ ("# ".toList ++ _), hh, hb, List.length_map, if_neg (show ¬ L.length < n by omega), dec_num, List.flatMap_map]
    simp only [List.append_assoc, List.nil_append]
    rfl
  · intro h
    unfold SFMT.shown report opening closing
    dsimp only
    rw [List.append_assoc _ "# ".toList, List.append_assoc _ ("# ".toList ++ _), hh, hb, List.length_map, if_pos (show L.length < n from h), dec_num, List.flatMap_map]
    simp only [List.append_assoc]
    rfl

theorem dsfmt_shown (v : Bool) (t0 t1 : List Char) (s : BitVec 64) (L : List DSFMT.Line) (n : ℕ) :
    (L.length = n → DSFMT.shown v t0 t1 s (.done L) = some ⟨report (v = true) t0 t1 s DSFMT.names (L.map DSFMT.Line.cells) n, 0⟩) ∧
    (L.length < n → DSFMT.shown v t0 t1 s (.failed L) = some ⟨report (v = true) t0 t1 s DSFMT.names (L.map DSFMT.Line.cells) n, 0⟩) := by
  have hb := body_rows DSFMT.text_cells L
  have hh := DSFMT.header_head
  constructor
  · intro h
    unfold DSFMT.shown report opening closing
    dsimp only
    rw [List.append_assoc _ "# ".toList, List.append_assoc _ ("# ".toList ++ _), hh, hb, List.length_map, if_neg (show ¬ L.length < n by omega), dec_num, List.flatMap_map]
    simp only [List.append_assoc, List.nil_append]
    rfl
  · intro h
    unfold DSFMT.shown report opening closing
    dsimp only
    rw [List.append_assoc _ "# ".toList, List.append_assoc _ ("# ".toList ++ _), hh, hb, List.length_map, if_pos (show L.length < n from h), dec_num, List.flatMap_map]
    simp only [List.append_assoc]
    rfl

theorem report_congr {p q : Prop} [Decidable p] [Decidable q] (h : p ↔ q) (t0 t1 : List Char) (s : BitVec 64) (names : List String)
    (rows : List (List (List Char))) (n : ℕ) : report p t0 t1 s names rows n = report q t0 t1 s names rows n := by
  unfold report
  by_cases hp : p
  · rw [if_pos hp, if_pos hp, if_pos (h.1 hp), if_pos (h.1 hp)]
  · rw [if_neg hp, if_neg hp, if_neg fun hq => hp (h.2 hq), if_neg fun hq => hp (h.2 hq)]

open Classical in
/-- **C107.**  What sfmtdc writes: nothing for a command line that is not in order; otherwise the seed, the header and one line for every
parameter set, as many as asked for or fewer and "search failed"; with `-v` also when it began and ended. -/
theorem sfmtdc_text (hm : MinPolySeqSpec mps) (hK : KernelSpec kernel) (hfuel : 50000 ≤ fuel) (J : SFMT.Junk) (t0 t1 : List Char) :
    ((¬ ∃ mexp, Accepts fineSeed SFMT.allowedMexp canOpen evs operands mexp) →
      sfmtdc mps kernel fuel clock canOpen evs operands t0 t1 J = some ⟨[], -1⟩) ∧
    ∀ mexp, Accepts fineSeed SFMT.allowedMexp canOpen evs operands mexp → ∃ L : List SFMT.Line, (∀ l ∈ L, SFMT.GoodLine mexp l) ∧
      L.length ≤ lines evs ∧ sfmtdc mps kernel fuel clock canOpen evs operands t0 t1 J =
        some ⟨report (Ev.verbose ∈ evs) t0 t1 (lastOf seedVal evs clock) SFMT.names (L.map SFMT.Line.cells) (lines evs), 0⟩ := by
  obtain ⟨h1, h2⟩ := Options.sfmtdc_program (clock := clock) (canOpen := canOpen) (evs := evs) (operands := operands) hm hK hfuel J
  constructor
  · intro h
    unfold sfmtdc
    rw [h1 h]
  · intro mexp h
    have hs := (field_seed clock).1 h.options
    have hv := (field_verbose clock 0 0 0 evs).1 h.options
    obtain ⟨L, g1, g2⟩ := h2 mexp h
    refine ⟨L, g1, by rcases g2 with g2 | g2 <;> omega, ?_⟩
    rw [← report_congr hv, ← hs]
    unfold sfmtdc
    rcases g2 with ⟨e, g2⟩ | ⟨e, g2⟩
    · rw [e]; exact (sfmt_shown _ _ _ _ L _).1 g2
    · rw [e]; exact (sfmt_shown _ _ _ _ L _).2 g2

open Classical in
/-- **C107.**  The same for sfmtdcfixed. -/
theorem sfmtdcfixed_text (hm : MinPolySeqSpec mps) (hK : KernelSpec kernel) (hfuel : 50000 ≤ fuel) (J : SFMT.Junk) (t0 t1 : List Char) :
    ((¬ ∃ mexp, Accepts fineSeed SFMT.allowedMexp canOpen evs operands mexp) →
      sfmtdcfixed mps kernel fuel clock canOpen evs operands t0 t1 J = some ⟨[], -1⟩) ∧
    ∀ mexp, Accepts fineSeed SFMT.allowedMexp canOpen evs operands mexp → ∃ L : List SFMT.Line, (∀ l ∈ L, SFMT.GoodLine mexp l) ∧
      L.length ≤ lines evs ∧ sfmtdcfixed mps kernel fuel clock canOpen evs operands t0 t1 J =
        some ⟨report (Ev.verbose ∈ evs) t0 t1 (lastOf seedVal evs clock) SFMT.names (L.map SFMT.Line.cells) (lines evs), 0⟩ := by
  obtain ⟨h1, h2⟩ := Options.sfmtdcfixed_program (clock := clock) (canOpen := canOpen) (evs := evs) (operands := operands) hm hK hfuel J
  constructor
  · intro h
    unfold sfmtdcfixed
    rw [h1 h]
  · intro mexp h
    have hs := (field_seed clock).1 h.options
    have hv := (field_verbose clock 0 0 0 evs).1 h.options
    obtain ⟨L, g1, g2⟩ := h2 mexp h
    refine ⟨L, g1, by rcases g2 with g2 | g2 <;> omega, ?_⟩
    rw [← report_congr hv, ← hs]
    unfold sfmtdcfixed
    rcases g2 with ⟨e, g2⟩ | ⟨e, g2⟩
    · rw [e]; exact (sfmt_shown _ _ _ _ L _).1 g2
    · rw [e]; exact (sfmt_shown _ _ _ _ L _).2 g2

open Classical in
/-- **C107.**  The same for dSFMTdc, as long as `--fixed` does not ask for 0 or for more than 63. -/
theorem dsfmtdc_text (hm : MinPolySeqSpec mps) (hK : KernelSpec kernel) (hX : DSFMT.XgcdSpec xgcd) (hfuel : 50000 ≤ fuel)
    (J : DSFMT.Junk) (t0 t1 : List Char) :
    ((¬ ∃ mexp, Accepts fineFixed DSFMT.allowedMexp canOpen evs operands mexp) →
      dsfmtdc mps kernel xgcd fuel clock canOpen evs operands t0 t1 J = some ⟨[], -1⟩) ∧
    ∀ mexp, Accepts fineFixed DSFMT.allowedMexp canOpen evs operands mexp →
      (∀ x ∈ lastOf fixedVal evs none, 1 ≤ x.toNat ∧ x.toNat < 64) → ∃ L : List DSFMT.Line,
      (∀ l ∈ L, DSFMT.GoodLine ((mexp - 128) / 104 + 1) mexp l) ∧ L.length ≤ lines evs ∧
      dsfmtdc mps kernel xgcd fuel clock canOpen evs operands t0 t1 J =
        some ⟨report (Ev.verbose ∈ evs) t0 t1 (lastOf seedVal evs clock) DSFMT.names (L.map DSFMT.Line.cells) (lines evs), 0⟩ := by
  obtain ⟨h1, h2⟩ := Options.dsfmtdc_program (clock := clock) (canOpen := canOpen) (evs := evs) (operands := operands) hm hK hX hfuel J
  constructor
  · intro h
    unfold dsfmtdc
    rw [h1 h]
  · intro mexp h hx
    have hs := (field_seed clock).2 h.options
    have hv := (field_verbose clock 0 0 0 evs).2.1 h.options
    obtain ⟨L, g1, g2⟩ := h2 mexp h hx
    refine ⟨L, g1, by rcases g2 with g2 | g2 <;> omega, ?_⟩
    rw [← report_congr hv, ← hs]
    unfold dsfmtdc
    rcases g2 with ⟨e, g2⟩ | ⟨e, g2⟩
    · rw [e]; exact (dsfmt_shown _ _ _ _ L _).1 g2
    · rw [e]; exact (dsfmt_shown _ _ _ _ L _).2 g2

/-- **C107.**  What rmt64dc writes without `-v`, if it ends and the shift is defined: the header and as many lines as asked for.  The seed is
not written. -/
theorem rmt64dc_text (hm : MinPolySeqSpec mps) (hK : KernelSpec kernel) (one : ℕ → Option (BitVec 64)) (junk : ℕ → BitVec 64)
    (veq : ℕ → ℕ) (junkPos : ℕ) (junkA : BitVec 64) (junkS : ℕ → BitVec 64) (_hv : Ev.verbose ∉ evs) :
    ((¬ ∃ mexp, Accepts fineSeed RMT.allowedMexp canOpen evs operands mexp) →
      rmt64dc mps kernel fuel clock canOpen evs operands one junk veq junkPos junkA junkS = some (some ⟨[], -1⟩)) ∧
    ∀ mexp, Accepts fineSeed RMT.allowedMexp canOpen evs operands mexp → ∀ r,
      rmt64dc mps kernel fuel clock canOpen evs operands one junk veq junkPos junkA junkS = some r →
      (r = none ∧ ∃ k < 64, one k = none) ∨
        ∃ L : List RMT.Line, L.length = lines evs ∧ (∀ l ∈ L, RMT.GoodLine mexp l) ∧
          r = some ⟨"# ".toList ++ head RMT.names ++ L.flatMap fun l => row l.cells, 0⟩ := by
  obtain ⟨h1, h2⟩ := Options.rmt64dc_program (clock := clock) (canOpen := canOpen) (evs := evs) (operands := operands) (fuel := fuel) hm hK
    one junk veq junkPos junkA junkS
  constructor
  · intro h
    unfold rmt64dc
    rw [h1 h]
  · intro mexp h r hr
    obtain ⟨res, e, g⟩ := h2 mexp h
    unfold rmt64dc at hr
    rw [e] at hr
    cases res with
    | none => cases hr
    | some res =>
      injection hr with hr
      rcases g res rfl with ⟨L, rfl, g1, g2⟩ | ⟨L, rfl, -, g2, -⟩
      · refine .inr ⟨L, g1, g2, ?_⟩
        rw [← hr, ← RMT.header_head, ← body_rows RMT.text_cells]
        rfl
      · exact .inl ⟨hr.symm, g2⟩

/-- **C107.**  What mt2 writes without `-v`: the help for a command line that is not in order; otherwise, if it ends, the header and as many
lines as asked for. -/
theorem mt2_text (hm : MinPolySeqSpec mps) (pgm : List Char) (veq : ℕ → ℕ) (turns junkPos : ℕ) (junkA junkSeed : BitVec 32)
    (junk : ℕ → BitVec 32) (_hv : Ev.verbose ∉ evs) :
    ((¬ ((∀ e ∈ evs, fineMt2 e) ∧ ∃ mexp ∈ MTDC.allowedMexp, ∃ i a b rest, operands = a :: b :: rest ∧ IsNumeral a mexp ∧ Reads b i ∧
        0 ≤ i ∧ i ≤ 0xffff)) →
      mt2 mps fuel canOpen evs operands pgm veq turns junkPos junkA junkSeed junk = some (some ⟨MTDC.help pgm, -1⟩)) ∧
    ∀ mexp ∈ MTDC.allowedMexp, ∀ i a b rest, (∀ e ∈ evs, fineMt2 e) → operands = a :: b :: rest → IsNumeral a mexp → Reads b i → 0 ≤ i →
      i ≤ 0xffff → ∀ r, mt2 mps fuel canOpen evs operands pgm veq turns junkPos junkA junkSeed junk = some r →
      ∃ L : List MTDC.Line, L.length = (lastOf intVal evs 1).toNat ∧
        (∀ l ∈ L, MTDC.GoodLine mexp i (lastOf maxVal evs 0x7fffffff).toInt l) ∧
        r = some ⟨head MTDC.names ++ L.flatMap fun l => row l.cells, 0⟩ := by
  obtain ⟨h1, h2⟩ := Options.mt2_program (canOpen := canOpen) (evs := evs) (operands := operands) (fuel := fuel) hm veq turns junkPos junkA
    junkSeed junk
  constructor
  · intro h
    unfold mt2
    rw [h1 h]
  · intro mexp hmexp i a b rest k1 k2 k3 k4 k5 k6 r hr
    obtain ⟨res, e, g⟩ := h2 mexp hmexp i a b rest k1 k2 k3 k4 k5 k6
    unfold mt2 at hr
    rw [e] at hr
    cases res with
    | none => cases hr
    | some res =>
      injection hr with hr
      obtain ⟨L, rfl, g1, g2⟩ := g res rfl
      refine ⟨L, g1, g2, ?_⟩
      rw [← hr, ← MTDC.header_head, ← body_rows MTDC.text_cells]
      rfl

theorem mtgp_lines (q : ℕ → BitVec 8) : ∀ (L : List MTGP.Line) (i : ℕ),
    ((∀ k < L.length, q (i + k) = 0) → MTGP.lines q i L = some (L.flatMap fun l => row l.cells)) ∧
    ((∃ k < L.length, q (i + k) ≠ 0) → MTGP.lines q i L = none)
  | [], i => ⟨fun _ => rfl, fun ⟨k, hk, _⟩ => absurd hk (by simp)⟩
  | l :: L, i => by
    have ih := mtgp_lines q L (i + 1)
    constructor
    · intro h
      unfold MTGP.lines
      have h0 := h 0 (by simp)
      rw [Nat.add_zero] at h0
      rw [if_pos h0, ih.1 (fun k hk => by
        have := h (k + 1) (by simpa using hk)
        rwa [show i + 1 + k = i + (k + 1) by omega]), MTGP.text_cells]
      rfl
    · rintro ⟨k, hk, hq⟩
      unfold MTGP.lines
      by_cases h0 : q i = 0
      · rw [if_pos h0]
        cases k with
        | zero => exact absurd h0 hq
        | succ k =>
          rw [ih.2 ⟨k, by simpa using hk, by rwa [show i + 1 + k = i + (k + 1) by omega]⟩]
          rfl
      · rw [if_neg h0]

/-- **C107.**  What MTGP32dc writes without `-v`, if it ends and the uninitialised character of every line is 0: the header, if there is a
line, and as many lines as asked for. If one of the characters is not 0, a read beyond the array: the behaviour is undefined. -/
theorem mtgp32dc_text (hm : MinPolySeqSpec mps) (J : ℕ → MTGP.Junk) (rng : List Char → ℕ → BitVec 32) (q : ℕ → BitVec 8)
    (_hv : Ev.verbose ∉ evs) :
    ((¬ ((∀ e ∈ evs, fineMtgp e) ∧ (∃ a b rest y z, operands = a :: b :: rest ∧ Reads a y ∧ (-2 ^ 63 ≤ y ∧ y < 2 ^ 63) ∧ Reads b z ∧
        (-2 ^ 63 ≤ z ∧ z < 2 ^ 63) ∧ ∃ mexp ∈ MTGP.allowedMexp, y % 2 ^ 32 = mexp) ∧
        (lastOf fileVal evs [] = [] ∨ canOpen (lastOf fileVal evs []) = true))) →
      mtgp32dc mps fuel canOpen evs operands J rng q = some (some ⟨[], -1⟩)) ∧
    ∀ mexp ∈ MTGP.allowedMexp, ∀ a b rest y z, (∀ e ∈ evs, fineMtgp e) → operands = a :: b :: rest → Reads a y →
      (-2 ^ 63 ≤ y ∧ y < 2 ^ 63) → y % 2 ^ 32 = mexp → Reads b z → (-2 ^ 63 ≤ z ∧ z < 2 ^ 63) →
      (lastOf fileVal evs [] = [] ∨ canOpen (lastOf fileVal evs []) = true) →
      ∀ r, mtgp32dc mps fuel canOpen evs operands J rng q = some r →
      ((∃ k < (lastOf countVal evs 1).toNat, q k ≠ 0) → r = none) ∧
      ((∀ k < (lastOf countVal evs 1).toNat, q k = 0) → ∃ L : List MTGP.Line, L.length = (lastOf countVal evs 1).toNat ∧
        (∀ i (hi : i < L.length), MTGP.GoodLine (mexp / 32 + 1) (32 - mexp % 32) mexp (BitVec.ofInt 32 (z + i)) L[i]) ∧
        r = some ⟨(if L = [] then [] else mtgpHead) ++ L.flatMap fun l => row l.cells, 0⟩) := by
  obtain ⟨h1, h2⟩ := Options.mtgp32dc_program (canOpen := canOpen) (evs := evs) (operands := operands) (fuel := fuel) hm J rng
  constructor
  · intro h
    unfold mtgp32dc
    rw [h1 h]
  · intro mexp hmexp a b rest y z k1 k2 k3 k4 k5 k6 k7 k8 r hr
    obtain ⟨res, e, g⟩ := h2 mexp hmexp a b rest y z k1 k2 k3 k4 k5 k6 k7 k8
    unfold mtgp32dc at hr
    rw [e] at hr
    cases res with
    | none => cases hr
    | some res =>
      injection hr with hr
      obtain ⟨L, rfl, g1, g2⟩ := g res rfl
      dsimp only [Option.bind_some] at hr
      unfold MTGP.shown at hr
      have hl := mtgp_lines q L 0
      simp only [Nat.zero_add, g1] at hl
      constructor
      · intro hq
        rw [hl.2 hq] at hr
        exact hr.symm
      · intro hq
        refine ⟨L, g1, g2, ?_⟩
        rw [hl.1 hq] at hr
        rw [← hr, ← mtgp_head]
        cases L <;> rfl

/-- **C107.**  What tinymt32dc writes without `-v`: the header, if there is a line, and the lines. -/
theorem tinymt32dc_text (hm : MinPolySeqSpec mps) (veq : ℕ → ℕ) (hfuel : 2 ^ 31 < fuel) (_hv : Ev.verbose ∉ evs) :
    ((¬ ((∀ e ∈ evs, fineTiny 0x7fffffff e) ∧ (∃ b rest, ∃ i : BitVec 32, operands = b :: rest ∧ Reads b i.toNat) ∧
        (lastOf fileVal evs [] = [] ∨ canOpen (lastOf fileVal evs []) = true))) →
      tinymt32dc mps fuel canOpen evs operands veq = some ⟨[], -1⟩) ∧
    ∀ b rest, ∀ i : BitVec 32, (∀ e ∈ evs, fineTiny 0x7fffffff e) → operands = b :: rest → Reads b i.toNat →
      (lastOf fileVal evs [] = [] ∨ canOpen (lastOf fileVal evs []) = true) →
      ∃ M L : List TinyMT.Line,
        List.Forall₂ (TinyMT.GoodLine i) (TinyMT.numbers i ((lastOf startVal evs 0x7fffffff).toNat + 1)) M ∧
        L = (if lastOf allVal evs false then M.filter (fun l => l.delta ≤ (lastOf maxVal evs 10).toInt)
            else (M.filter (fun l => l.delta ≤ (lastOf maxVal evs 10).toInt)).take (lines evs)) ∧
        tinymt32dc mps fuel canOpen evs operands veq =
          some ⟨(if L.length = 0 then [] else "# ".toList ++ head TinyMT.names) ++ L.flatMap fun l => row l.cells, 0⟩ := by
  obtain ⟨h1, h2⟩ := Options.tinymt32dc_program (canOpen := canOpen) (evs := evs) (operands := operands) hm veq hfuel
  constructor
  · intro h
    unfold tinymt32dc
    rw [h1 h]
  · intro b rest i k1 k2 k3 k4
    obtain ⟨M, g1, g2⟩ := h2 b rest i k1 k2 k3 k4
    refine ⟨M, _, g1, rfl, ?_⟩
    unfold tinymt32dc
    rw [g2]
    generalize (if lastOf allVal evs false then M.filter (fun l => l.delta ≤ (lastOf maxVal evs 10).toInt)
            else (M.filter (fun l => l.delta ≤ (lastOf maxVal evs 10).toInt)).take (lines evs)) = L
    dsimp only [Option.map_some]
    unfold TinyMT.shown
    rw [TinyMT.header_head, body_rows TinyMT.text_cells]
    cases L <;> rfl

-- Command lines as in the hypotheses: `sfmtdc -c 2 607`, and with `-v`.
example : Accepts fineSeed SFMT.allowedMexp (fun _ => false) [.count ['2']] [['6', '0', '7']] 607 ∧
    Accepts fineSeed SFMT.allowedMexp (fun _ => false) [.verbose, .count ['2']] [['6', '0', '7']] 607 ∧
    lines [.verbose, .count ['2']] = 2 := by
  refine ⟨⟨?_, ⟨_, _, rfl, [], [], ['6', '0', '7'], [], by decide, by decide, by decide, by decide, by decide, by decide, by decide⟩,
    by decide, .inl rfl⟩, ⟨?_, ⟨_, _, rfl, [], [], ['6', '0', '7'], [], by decide, by decide, by decide, by decide, by decide, by decide,
    by decide⟩, by decide, .inl rfl⟩, by decide⟩
  · intro e he
    rw [List.mem_singleton] at he
    subst he
    exact strtol_ok.1 (by decide)
  · intro e he
    rw [List.mem_cons, List.mem_singleton] at he
    rcases he with rfl | rfl
    · trivial
    · exact strtol_ok.1 (by decide)

-- A report with one line where two were asked for.
example : report True "T0\n".toList "T1\n".toList 5 RMT.names [(⟨⟨1279, 7, 0x9d2c, 3, 0x20000, 0⟩, 42⟩ : RMT.Line).cells] 2 =
    ("seed = 5\nsearch start at T0\n# mexp, pos, mata, parity, maskb, maskc, delta\n" ++
      "1279,7,0000000000009d2c,0000000000000003,0000000000020000,0000000000000000,42\nsearch failed\nsearch end at T1\n\n").toList := by
  decide +kernel

-- The header and a line of MTGP32dc.
example : mtgpHead = "#sha1, mexp, type, id, pos, sh1, sh2, tbl_0, tbl_1, tbl_2, tbl_3,tmp_0, tmp_1, tmp_2, tmp_3, mask\n".toList := by
  decide +kernel

/-! ### A run can be repeated -/

/-- **C107.**  The seed that sfmtdc, sfmtdcfixed and dSFMTdc print repeats the run: the same command line with this text as the argument of a
further `-s` gives the same output at any other time. -/
theorem again (clock' : BitVec 64) (t0 t1 : List Char) :
    ((∀ e ∈ evs, fineSeed e) → ∀ J, sfmtdc mps kernel fuel clock' canOpen (evs ++ [.seed (num (lastOf seedVal evs clock).toNat)]) operands t0 t1 J =
      sfmtdc mps kernel fuel clock canOpen evs operands t0 t1 J) ∧
    ((∀ e ∈ evs, fineSeed e) → ∀ J,
      sfmtdcfixed mps kernel fuel clock' canOpen (evs ++ [.seed (num (lastOf seedVal evs clock).toNat)]) operands t0 t1 J =
      sfmtdcfixed mps kernel fuel clock canOpen evs operands t0 t1 J) ∧
    ((∀ e ∈ evs, fineFixed e) → ∀ J,
      dsfmtdc mps kernel xgcd fuel clock' canOpen (evs ++ [.seed (num (lastOf seedVal evs clock).toNat)]) operands t0 t1 J =
      dsfmtdc mps kernel xgcd fuel clock canOpen evs operands t0 t1 J) := by
  refine ⟨fun h J => ?_, fun h J => ?_, fun h J => ?_⟩
  · have e := readOpts_again known_seed stepSeed_seed (fun _ _ => rfl) h clock clock'
    rw [(field_seed clock).1 h, dec_num] at e
    unfold sfmtdc Options.sfmtdc parseMexp
    rw [e]
  · have e := readOpts_again known_seed stepSeed_seed (fun _ _ => rfl) h clock clock'
    rw [(field_seed clock).1 h, dec_num] at e
    unfold sfmtdcfixed Options.sfmtdcfixed parseMexp
    rw [e]
  · have e := readOpts_again known_fixed stepFixed_seed (fun _ _ => rfl) h clock clock'
    rw [(field_seed clock).2 h, dec_num] at e
    unfold dsfmtdc Options.dsfmtdc parseMexp
    rw [e]

/-! ### From rmt64dc to calc_equidist -/

theorem excess_pos {mexp : ℕ} : 0 < RMT.excess mexp := by
  unfold RMT.excess
  refine Finset.sum_pos' (fun v _ => ?_) ⟨1, by simp, ?_⟩
  · have : mexp / v ≤ (mexp / 64 + 1) * 64 / v := Nat.div_le_div_right (by omega)
    omega
  · rw [Nat.div_one, Nat.div_one]
    omega

/-- **C107.**  A line of rmt64dc given to `calc_equidist`: no message but the failure, and else the same parameters with the table of the large
component; if the state that the parity search left still contains the component, the sum is smaller than the printed delta, always by the
same positive number. -/
theorem rmt_line (hm : MinPolySeqSpec mps) {mexp : ℕ} (h1 : 65 ≤ mexp) (h3 : mexp < 2 ^ 31) {l : RMT.Line} (hl : RMT.GoodLine mexp l)
    (junk : ℕ → BitVec 64) (veq0 : ℕ → ℕ) :
    RMT.calcEquidist mps junk veq0 l.text = .fails ∨
    ∃ f r, RMT.calcEquidist mps junk veq0 l.text = .printed (l.param, r) ∧ RMT.Table l.param f r.veq r.sum ∧
      ((∃ x, RMT.IsWords l.param x ∧ ∀ f, Irreducible f → f.natDegree = mexp → RMT.Keeps _ l.param.par f (RMT.leftState l.param x)) →
        r.sum = l.delta - RMT.excess mexp ∧ r.sum < l.delta) := by
  have hme := hl.mexp_eq
  subst hme
  have e : l.text = RMT.getString l.param ++ (',' :: decInt l.delta) := by
    unfold RMT.Line.text
    rw [List.append_assoc]
    rfl
  rw [e]
  rcases RMT.calcEquidist_line hm l.param hl.clean (rest := ',' :: decInt l.delta) (.inr ⟨_, rfl⟩) h1 h3 hl.pos junk veq0 with
    h | ⟨f, r, g1, g2⟩
  · exact .inl h
  · refine .inr ⟨f, r, g1, g2, ?_⟩
    rintro ⟨x, hx, hk⟩
    obtain ⟨f', veq', a1, a2, -, a4⟩ := hl.table
    have := (g2.unique rfl rfl h1 (a4 x hx (hk f' a1 a2))).2.2
    have hp := @excess_pos l.param.mexp
    exact ⟨this, by omega⟩

end

end MTT.SearchText
