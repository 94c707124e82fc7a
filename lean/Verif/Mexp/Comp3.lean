import Verif.Mexp.Comp2

/-!
# Lucas–Lehmer tests that fail (generated)
-/

set_option Elab.async false

namespace MTT.Mexp

theorem comp198 : ([9187, 9203].all fun p => !Nat.beq (residue p) 0) = true := by decide +kernel
theorem comp199 : ([9209, 9227].all fun p => !Nat.beq (residue p) 0) = true := by decide +kernel
theorem comp200 : ([9241, 9257].all fun p => !Nat.beq (residue p) 0) = true := by decide +kernel
theorem comp201 : ([9277, 9281].all fun p => !Nat.beq (residue p) 0) = true := by decide +kernel
theorem comp202 : ([9319, 9377].all fun p => !Nat.beq (residue p) 0) = true := by decide +kernel
theorem comp203 : ([9413, 9433].all fun p => !Nat.beq (residue p) 0) = true := by decide +kernel
theorem comp204 : ([9437, 9463].all fun p => !Nat.beq (residue p) 0) = true := by decide +kernel
theorem comp205 : ([9473, 9533].all fun p => !Nat.beq (residue p) 0) = true := by decide +kernel
theorem comp206 : ([9551, 9587].all fun p => !Nat.beq (residue p) 0) = true := by decide +kernel
theorem comp207 : ([9623, 9631].all fun p => !Nat.beq (residue p) 0) = true := by decide +kernel
theorem comp208 : ([9649, 9661].all fun p => !Nat.beq (residue p) 0) = true := by decide +kernel
theorem comp209 : ([9679, 9697].all fun p => !Nat.beq (residue p) 0) = true := by decide +kernel
theorem comp210 : ([9719, 9721].all fun p => !Nat.beq (residue p) 0) = true := by decide +kernel
theorem comp211 : ([9749, 9767].all fun p => !Nat.beq (residue p) 0) = true := by decide +kernel
theorem comp212 : ([9769, 9781].all fun p => !Nat.beq (residue p) 0) = true := by decide +kernel
theorem comp213 : ([9787, 9803].all fun p => !Nat.beq (residue p) 0) = true := by decide +kernel
theorem comp214 : ([9839, 9857].all fun p => !Nat.beq (residue p) 0) = true := by decide +kernel
theorem comp215 : ([9871, 9887].all fun p => !Nat.beq (residue p) 0) = true := by decide +kernel
theorem comp216 : ([9901, 9907].all fun p => !Nat.beq (residue p) 0) = true := by decide +kernel
theorem comp217 : ([9929, 9931].all fun p => !Nat.beq (residue p) 0) = true := by decide +kernel
theorem comp218 : ([9967, 10037].all fun p => !Nat.beq (residue p) 0) = true := by decide +kernel
theorem comp219 : ([10061, 10069].all fun p => !Nat.beq (residue p) 0) = true := by decide +kernel
theorem comp220 : ([10079, 10099].all fun p => !Nat.beq (residue p) 0) = true := by decide +kernel
theorem comp221 : ([10159, 10169].all fun p => !Nat.beq (residue p) 0) = true := by decide +kernel
theorem comp222 : ([10177, 10259].all fun p => !Nat.beq (residue p) 0) = true := by decide +kernel

/-- The exponents tested in this file. -/
def compList3 : List (List Nat) :=
  [[9187, 9203], [9209, 9227], [9241, 9257], [9277, 9281], [9319, 9377], [9413, 9433], [9437, 9463], [9473, 9533],
   [9551, 9587], [9623, 9631], [9649, 9661], [9679, 9697], [9719, 9721], [9749, 9767], [9769, 9781], [9787, 9803],
   [9839, 9857], [9871, 9887], [9901, 9907], [9929, 9931], [9967, 10037], [10061, 10069], [10079, 10099],
   [10159, 10169], [10177, 10259]]

theorem compList3_ok : ∀ l ∈ compList3, (l.all fun p => !Nat.beq (residue p) 0) = true := by
  unfold compList3
  simp only [List.forall_mem_cons]
  exact ⟨comp198, comp199, comp200, comp201, comp202, comp203, comp204, comp205, comp206, comp207, comp208, comp209,
   comp210, comp211, comp212, comp213, comp214, comp215, comp216, comp217, comp218, comp219, comp220, comp221,
   comp222, by simp⟩

end MTT.Mexp
