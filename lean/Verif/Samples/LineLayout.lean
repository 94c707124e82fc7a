import Verif.Samples.NumberText
import Verif.Samples.OldFormatProps

/-!
# C69: the layout of the printed lines, and what else the readers accept

The printed lines are fields separated by commas; the words are hexadecimal with a fixed number of digits.  The readers
(`strtoul` with base 16) also accept words with the prefix `0x`, and numbers are reduced to the width of the field.
-/

namespace MTT.Text

theorem nat_text (k : ℕ) : (toString (k : ℤ)).toList = dec k := by
  rw [← decInt_text]
  unfold decInt
  rw [if_neg (by omega), Int.natAbs_natCast]

/-- A text of `n` hexadecimal digits with the value `x`. -/
def HexN (n x : Nat) (d : List Char) : Prop := d.length = n ∧ readDigits 16 d 0 = (x, [])

theorem hexW_hexN {n x : Nat} (h : x < 16 ^ (n + 1)) : HexN (n + 1) x (hexW (n + 1) x) := by
  constructor
  · unfold hexW
    have := DSFMT.digits_len n x h
    rw [List.length_append, List.length_replicate]
    omega
  · unfold hexW
    rw [readDigits_zeros (.inr rfl)]
    have := readDigits_digits (.inr rfl) x []
    rw [List.append_nil] at this
    rw [this]
    rfl

theorem hex8 (x : BitVec 32) : HexN 8 x.toNat (hexW 8 x.toNat) := hexW_hexN (by have := x.isLt; omega)

theorem hex16 (x : BitVec 64) : HexN 16 x.toNat (hexW 16 x.toNat) := hexW_hexN (by have := x.isLt; omega)

/-- **C69.**  The prefix `0x` or `0X` in front of a hexadecimal number is skipped. -/
theorem strtoul_prefix {c : Char} (hc : c = 'x' ∨ c = 'X') {n x : Nat} (hx : x < 2 ^ 64) {r : List Char} (hr : Ends r) :
    strtoul 16 ('0' :: c :: (hexW n x ++ r)) = (BitVec.ofNat 64 x, r) := by
  have hds : ∀ c ∈ hexW n x, ∃ d < 16, c = Nat.digitChar d := by
    intro c hc
    unfold hexW at hc
    rw [List.mem_append] at hc
    rcases hc with hc | hc
    · exact ⟨0, by omega, (List.mem_replicate.1 hc).2⟩
    · exact digits_chars (.inr rfl) x c hc
  have hne : hexW n x ≠ [] := by
    unfold hexW
    rw [Ne, List.append_eq_nil_iff, not_and_or]
    exact .inr (digits_ne _ _)
  have hst : startsDigit 16 (hexW n x ++ r) = true := by
    obtain ⟨d, ds, hd⟩ := List.exists_cons_of_ne_nil hne
    obtain ⟨k, hk, he⟩ := hds d (hd ▸ List.mem_cons_self)
    rw [hd]
    show (digitVal 16 d).isSome = true
    rw [he, digitVal_base (.inr rfl) hk]; rfl
  have hrd : readDigits 16 (hexW n x ++ r) 0 = (x, r) := by
    unfold hexW
    rw [List.append_assoc, readDigits_zeros (.inr rfl), readDigits_digits (.inr rfl), readDigits_ends (.inr rfl) hr]
  have hsk : skipPrefix 16 ('0' :: c :: (hexW n x ++ r)) = hexW n x ++ r := by
    show (if 16 = 16 ∧ (c = 'x' ∨ c = 'X') ∧ startsDigit 16 (hexW n x ++ r) = true then hexW n x ++ r else _) = _
    rw [if_pos ⟨rfl, hc, hst⟩]
  unfold strtoul
  have e1 : ('0' :: c :: (hexW n x ++ r)).dropWhile isSpace = '0' :: c :: (hexW n x ++ r) :=
    List.dropWhile_cons_of_neg (by decide)
  rw [e1]
  dsimp only
  have h1 : ('0' :: c :: (hexW n x ++ r)).head? = some '0' := rfl
  rw [h1, if_neg (show ¬ (some '0' = some '-' ∨ some '0' = some '+') by decide), hsk, if_pos hst, hrd]
  dsimp only
  rw [if_pos hx, if_neg (by decide)]

/-- **C69.**  Without a hexadecimal digit behind it, `0x` is the number 0, and reading stops at the `x`. -/
theorem strtoul_bare {c : Char} (hc : c = 'x' ∨ c = 'X') {r : List Char} (hr : Ends r) :
    strtoul 16 ('0' :: c :: r) = (0, c :: r) := by
  rcases hc with rfl | rfl <;> rcases hr with rfl | ⟨r', rfl⟩ <;>
    simp [strtoul, isSpace, skipPrefix, startsDigit, digitVal, readDigits]

/-- **C69.**  A decimal number of up to 64 bits is reduced to 32 bits by the assignment to an `int`. -/
theorem toInt_mod {x : Nat} (hx : x < 2 ^ 64) {r : List Char} (hr : Ends r) :
    ∃ v, strtoul 10 (dec x ++ r) = (v, r) ∧ toInt v = x % 2 ^ 32 := by
  refine ⟨_, strtoul_digits (.inl rfl) (digits_ne _ _) (digits_chars (.inl rfl) x) hr hx
    (readDigits_digits (.inl rfl) x r), ?_⟩
  unfold toInt
  rw [BitVec.toNat_setWidth, BitVec.toNat_ofNat, Nat.mod_eq_of_lt hx]

example : strtoul 16 "0xBeef,1".toList = (0xbeef, ",1".toList) ∧ strtoul 16 "0x,1".toList = (0, "x,1".toList) ∧
    toInt (strtoul 10 "4294967301,".toList).1 = 5 := by decide +kernel

end MTT.Text

namespace MTT.SFMT

open Text

/-- **C69 (SFMT).**  A printed line: six decimal numbers, then eight words of 8 hexadecimal digits, each followed by a comma. -/
theorem getString_layout (l : Fields) : ∃ m1 m2 m3 m4 p1 p2 p3 p4,
    HexN 8 l.param.msk1.toNat m1 ∧ HexN 8 l.param.msk2.toNat m2 ∧ HexN 8 l.param.msk3.toNat m3 ∧
    HexN 8 l.param.msk4.toNat m4 ∧ HexN 8 l.parity1.toNat p1 ∧ HexN 8 l.parity2.toNat p2 ∧ HexN 8 l.parity3.toNat p3 ∧
    HexN 8 l.parity4.toNat p4 ∧
    getString l = List.intercalate [','] ([l.mexp, l.param.pos1, l.param.sl1, l.param.sl2, l.param.sr1, l.param.sr2].map
      (fun k : ℕ => (toString (k : ℤ)).toList) ++ [m1, m2, m3, m4, p1, p2, p3, p4, []]) := by
  refine ⟨_, _, _, _, _, _, _, _, hex8 _, hex8 _, hex8 _, hex8 _, hex8 _, hex8 _, hex8 _, hex8 _, ?_⟩
  simp only [nat_text]
  unfold getString
  simp [List.intercalate]

end MTT.SFMT

namespace MTT.DSFMT

open Text

/-- **C69 (dSFMT).**  A printed line: three decimal numbers, then six words of 16 hexadecimal digits, each followed by a
comma. -/
theorem getString_layout (l : Fields) : ∃ m1 m2 f1 f2 p1 p2,
    HexN 16 l.param.msk1.toNat m1 ∧ HexN 16 l.param.msk2.toNat m2 ∧ HexN 16 l.fix1.toNat f1 ∧ HexN 16 l.fix2.toNat f2 ∧
    HexN 16 l.parity1.toNat p1 ∧ HexN 16 l.parity2.toNat p2 ∧
    getString l = List.intercalate [','] ([l.mexp, l.param.pos1, l.param.sl1].map
      (fun k : ℕ => (toString (k : ℤ)).toList) ++ [m1, m2, f1, f2, p1, p2, []]) := by
  refine ⟨_, _, _, _, _, _, hex16 _, hex16 _, hex16 _, hex16 _, hex16 _, hex16 _, ?_⟩
  simp only [nat_text]
  unfold getString
  simp [List.intercalate]

end MTT.DSFMT

namespace MTT.RMT

open Text

/-- **C69 (RMT).**  A printed line: two decimal numbers, then four words of 16 hexadecimal digits, separated by commas. -/
theorem getString_layout (l : Fields) : ∃ m p b c,
    HexN 16 l.mata.toNat m ∧ HexN 16 l.parity.toNat p ∧ HexN 16 l.maskb.toNat b ∧ HexN 16 l.maskc.toNat c ∧
    getString l = List.intercalate [','] ([l.mexp, l.pos].map (fun k : ℕ => (toString (k : ℤ)).toList) ++ [m, p, b, c]) := by
  refine ⟨_, _, _, _, hex16 _, hex16 _, hex16 _, hex16 _, ?_⟩
  simp only [nat_text]
  unfold getString
  simp [List.intercalate]

end MTT.RMT
