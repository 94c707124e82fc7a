import Verif.Samples.TinyMTDefault
import Verif.Samples.GetoptLongProps
import Verif.Samples.SearchTextProps

/-!
# C124: the text of `tinymt32dc 0`
-/

namespace MTT.TinyMT

open Polynomial PIS Search Temper GF2 Tests SearchText

variable {mps : MPS}

theorem polyText_default : polyText (bitPoly (127 + 1) 0xd8524022ed8dff4a8dcc50c798faba43) =
    "d8524022ed8dff4a8dcc50c798faba43".toList := by
  have h : polyNat (bitPoly (127 + 1) 0xd8524022ed8dff4a8dcc50c798faba43) = 0xd8524022ed8dff4a8dcc50c798faba43 := by
    unfold polyNat
    have : ∀ t ∈ Finset.range 128, (open Classical in if (bitPoly (127 + 1) 0xd8524022ed8dff4a8dcc50c798faba43).coeff t = 1 then 2 ^ t else 0) =
        if Nat.testBit 0xd8524022ed8dff4a8dcc50c798faba43 t = true then 2 ^ t else 0 := by
      intro t ht
      refine if_congr ?_ rfl rfl
      rw [bitPoly_coeff]
      by_cases hb : Nat.testBit 0xd8524022ed8dff4a8dcc50c798faba43 t = true
      · rw [if_pos ⟨Finset.mem_range.1 ht, hb⟩]; exact ⟨fun _ => hb, fun _ => rfl⟩
      · rw [if_neg (fun h => hb h.2)]; exact ⟨fun h => absurd h (by decide), fun h => absurd h hb⟩
    rw [Finset.sum_congr rfl this]
    decide +kernel
  rw [polyText_hexa, h]
  decide +kernel

theorem parse_default (canOpen : List Char → Bool) : Options.parseTiny 0x7fffffff canOpen [] ["0".toList] =
    some (Options.init 0 10 0x7fffffff, 0) := by
  rfl

/-- **C124.**  `tinymt32dc 0`: the command line. -/
theorem default_args (hm : MinPolySeqSpec mps) (canOpen : List Char → Bool) (veq : ℕ → ℕ) {fuel : ℕ} (hf : 2 ^ 31 < fuel) :
    ∃ l, GetoptLong.tinymt32dcArgs mps fuel canOpen ["0".toList] veq = some ⟨none, some (some [l])⟩ ∧ freshLine 0 0x7fffff8f = some l := by
  obtain ⟨l, h1, -, -, -, -, -, -, h8⟩ := freshLine_default
  have hl : linesOf 0 10 0x7fffffff = l :: ((numbers 0 0x7fffff8f).filterMap (freshLine 0)).filter fun l => l.delta ≤ 10 := by
    unfold linesOf
    rw [show (0x7fffffff : BitVec 32).toNat + 1 = 0x7fffffff + 1 from rfl, numbers_default, List.filterMap_cons_some h1,
      List.filter_cons_of_pos (by simpa using h8.trans (by decide : (6 : ℤ) ≤ 10))]
  have hmain := dcMain_lines hm veq 1 false 10 0x7fffffff 0 (show (0x7fffffff : BitVec 32).toNat + 1 < fuel from hf)
  rw [hl] at hmain
  refine ⟨l, ?_, h1⟩
  rw [GetoptLong.tinymt32dc_args (GetoptLong.reads_words (ops := ["0".toList]) (by simp [GetoptLong.Word])) veq]
  unfold Options.tinymt32dc
  dsimp only [List.map_nil, Option.getD_some]
  rw [if_neg (by simp), List.append_nil, List.map_nil, parse_default, Option.map_some]
  exact congrArg some (congrArg (Options.Run.mk none) (congrArg some hmain))

/-- **C124.**  The whole text that `tinymt32dc 0` writes, but for the tempering matrix and the digit of its defect. -/
theorem default_text (hm : MinPolySeqSpec mps) (canOpen : List Char → Bool) (veq : ℕ → ℕ) {fuel : ℕ} (hf : 2 ^ 31 < fuel) :
    ∃ (tmat : BitVec 32) (d : ℕ), d ≤ 6 ∧ SearchText.tinymt32dc mps fuel canOpen [] ["0".toList] veq =
      some ⟨("# characteristic, id, mat1, mat2, tmat, weight, delta\n" ++
        "d8524022ed8dff4a8dcc50c798faba43,0,8f7011ee,fc78ff1f,").toList ++ hexa 8 tmat.toNat ++ ",63,".toList ++ num d ++ ['\n'], 0⟩ := by
  obtain ⟨l, L, h1, h2, h3, h4, h5, h6, h7, h8, h9⟩ := default_line hm veq hf (maxDelta := 10) (by decide) (count := 1) le_rfl false
  rw [h9 rfl rfl] at h1
  have hout : (Options.tinymt32dc mps fuel canOpen [] ["0".toList] veq).out = some (some [l]) := by
    unfold Options.tinymt32dc
    rw [parse_default, Option.map_some]
    exact congrArg some h1
  refine ⟨l.tmat, l.delta.toNat, by omega, ?_⟩
  unfold SearchText.tinymt32dc
  rw [hout]
  dsimp only
  rw [Option.map_some]
  unfold shown body
  rw [List.flatMap_cons, List.flatMap_nil, List.append_nil]
  unfold Line.text
  rw [h5, polyText_default, h2, h3, h4, h6, dec_num, dec_num, hexW_hexa, hexW_hexa, hexW_hexa, decInt_num, Int.toNat_of_nonneg h7]
  have e1 : num ((0 : BitVec 32).toNat : ℤ) = "0".toList := by decide +kernel
  have e2 : num ((63 : ℕ) : ℤ) = "63".toList := by decide +kernel
  have e3 : hexa 8 (0x8f7011ee : BitVec 32).toNat = "8f7011ee".toList := by decide +kernel
  have e4 : hexa 8 (0xfc78ff1f : BitVec 32).toNat = "fc78ff1f".toList := by decide +kernel
  rw [e1, e2, e3, e4]
  rw [if_neg (by simp), show ("# characteristic, id, mat1, mat2, tmat, weight, delta\n" ++
        "d8524022ed8dff4a8dcc50c798faba43,0,8f7011ee,fc78ff1f,").toList = "# characteristic, ".toList ++ header ++
        ", weight, delta\n".toList ++ "d8524022ed8dff4a8dcc50c798faba43".toList ++ [','] ++ "0".toList ++ [','] ++ "8f7011ee".toList ++ [','] ++
        "fc78ff1f".toList ++ [','] by decide +kernel, show ",63,".toList = [','] ++ "63".toList ++ [','] by decide +kernel]
  simp only [List.append_assoc]

end MTT.TinyMT
