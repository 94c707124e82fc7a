import Verif.Mexp.Comp3

/-!
# Lucas–Lehmer tests that fail (generated)
-/

set_option Elab.async false

namespace MTT.Mexp

theorem comp223 : ([10273, 10303].all fun p => !Nat.beq (residue p) 0) = true := by decide +kernel
theorem comp224 : ([10313, 10343].all fun p => !Nat.beq (residue p) 0) = true := by decide +kernel
theorem comp225 : ([10369, 10399].all fun p => !Nat.beq (residue p) 0) = true := by decide +kernel
theorem comp226 : ([10453, 10463].all fun p => !Nat.beq (residue p) 0) = true := by decide +kernel
theorem comp227 : ([10477, 10487].all fun p => !Nat.beq (residue p) 0) = true := by decide +kernel
theorem comp228 : ([10501, 10531].all fun p => !Nat.beq (residue p) 0) = true := by decide +kernel
theorem comp229 : ([10597, 10639].all fun p => !Nat.beq (residue p) 0) = true := by decide +kernel
theorem comp230 : ([10667, 10709].all fun p => !Nat.beq (residue p) 0) = true := by decide +kernel
theorem comp231 : ([10711, 10723].all fun p => !Nat.beq (residue p) 0) = true := by decide +kernel
theorem comp232 : ([10729, 10771].all fun p => !Nat.beq (residue p) 0) = true := by decide +kernel
theorem comp233 : ([10781, 10789].all fun p => !Nat.beq (residue p) 0) = true := by decide +kernel
theorem comp234 : ([10831, 10909].all fun p => !Nat.beq (residue p) 0) = true := by decide +kernel
theorem comp235 : ([10937, 10939].all fun p => !Nat.beq (residue p) 0) = true := by decide +kernel
theorem comp236 : ([10957, 11003].all fun p => !Nat.beq (residue p) 0) = true := by decide +kernel
theorem comp237 : ([11027, 11057].all fun p => !Nat.beq (residue p) 0) = true := by decide +kernel
theorem comp238 : ([11069, 11093].all fun p => !Nat.beq (residue p) 0) = true := by decide +kernel
theorem comp239 : ([11113, 11117].all fun p => !Nat.beq (residue p) 0) = true := by decide +kernel
theorem comp240 : ([11131, 11159].all fun p => !Nat.beq (residue p) 0) = true := by decide +kernel
theorem comp241 : ([11161, 11177].all fun p => !Nat.beq (residue p) 0) = true := by decide +kernel

/-- The exponents tested in this file. -/
def compList4 : List (List Nat) :=
  [[10273, 10303], [10313, 10343], [10369, 10399], [10453, 10463], [10477, 10487], [10501, 10531], [10597, 10639],
   [10667, 10709], [10711, 10723], [10729, 10771], [10781, 10789], [10831, 10909], [10937, 10939], [10957, 11003],
   [11027, 11057], [11069, 11093], [11113, 11117], [11131, 11159], [11161, 11177]]

theorem compList4_ok : ∀ l ∈ compList4, (l.all fun p => !Nat.beq (residue p) 0) = true := by
  unfold compList4
  simp only [List.forall_mem_cons]
  exact ⟨comp223, comp224, comp225, comp226, comp227, comp228, comp229, comp230, comp231, comp232, comp233, comp234,
   comp235, comp236, comp237, comp238, comp239, comp240, comp241, by simp⟩

end MTT.Mexp
