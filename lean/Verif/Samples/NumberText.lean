import Verif.Samples.LineTextProps

/-!
# C69: the printed numbers are the usual decimal and hexadecimal representations
-/

namespace MTT.Text

theorem digits_eq {b : Nat} (hb : 1 < b) (x : Nat) : digits b x = Nat.toDigits b x := by
  induction x using Nat.strongRecOn with
  | _ x ih =>
    unfold digits
    by_cases h : x < b
    · rw [dif_pos (.inl h), Nat.toDigits_of_lt_base h]
    · rw [dif_neg (by omega), ih _ (Nat.div_lt_self (by omega) hb), Nat.toDigits_of_base_le (n := x) hb (by omega)]

/-- **C69.**  An `int` is printed in decimal, with a minus sign exactly if it is negative. -/
theorem decInt_text (x : Int) : decInt x = (toString x).toList := by
  unfold decInt dec
  rw [digits_eq (by decide), Int.toString_eq_repr, Int.repr_eq_if]
  by_cases h : x < 0
  · rw [if_pos h, if_neg (by omega), String.toList_append, Nat.toList_repr, show (-x).toNat = x.natAbs by omega]
    rfl
  · rw [if_neg h, if_pos (by omega), Nat.toList_repr, show x.toNat = x.natAbs by omega]

/-- **C69.**  A number in a field of width `n` and base 16: the hexadecimal digits, filled with zeros on the left. -/
theorem hexW_text (n x : Nat) : hexW n x = (Nat.toDigits 16 x).leftpad n '0' := by
  unfold hexW List.leftpad
  rw [digits_eq (by decide)]

/-- Different numbers have different texts. -/
theorem decInt_inj {x y : Int} (h : decInt x = decInt y) : x = y := by
  have hd : ∀ a : Nat, readDigits 10 (digits 10 a) 0 = (a, []) := fun a => by
    have := readDigits_digits (.inl rfl) a []
    rw [List.append_nil] at this
    rw [this]; rfl
  have hne : ∀ a b : Nat, '-' :: digits 10 a ≠ digits 10 b := fun a b he => by
    obtain ⟨d, hd, hc⟩ := digits_chars (.inl rfl) b '-' (he ▸ List.mem_cons_self)
    exact (char_plain d (by omega)).2.1 hc.symm
  have hnat : ∀ a b : Nat, digits 10 a = digits 10 b → a = b := fun a b he => by
    have := hd a
    rw [he, hd b] at this
    exact (congrArg Prod.fst this).symm
  unfold decInt dec at h
  by_cases hx : x < 0 <;> by_cases hy : y < 0
  · rw [if_pos hx, if_pos hy] at h
    have := hnat _ _ (List.cons.inj h).2
    omega
  · rw [if_pos hx, if_neg hy] at h
    exact absurd h (hne _ _)
  · rw [if_neg hx, if_pos hy] at h
    exact absurd h.symm (hne _ _)
  · rw [if_neg hx, if_neg hy] at h
    have := hnat _ _ h
    omega

example : decInt (-120) = "-120".toList ∧ decInt 0 = "0".toList ∧ hexW 8 0xbeef = "0000beef".toList := by decide +kernel

end MTT.Text
