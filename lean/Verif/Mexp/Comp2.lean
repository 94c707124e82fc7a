import Verif.Mexp.Comp1

/-!
# Lucas–Lehmer tests that fail (generated)
-/

set_option Elab.async false

namespace MTT.Mexp

theorem comp162 : ([7331, 7333].all fun p => !Nat.beq (residue p) 0) = true := by decide +kernel
theorem comp163 : ([7351, 7369].all fun p => !Nat.beq (residue p) 0) = true := by decide +kernel
theorem comp164 : ([7433, 7477].all fun p => !Nat.beq (residue p) 0) = true := by decide +kernel
theorem comp165 : ([7481, 7489].all fun p => !Nat.beq (residue p) 0) = true := by decide +kernel
theorem comp166 : ([7507, 7523].all fun p => !Nat.beq (residue p) 0) = true := by decide +kernel
theorem comp167 : ([7559, 7577].all fun p => !Nat.beq (residue p) 0) = true := by decide +kernel
theorem comp168 : ([7603, 7607].all fun p => !Nat.beq (residue p) 0) = true := by decide +kernel
theorem comp169 : ([7621, 7649].all fun p => !Nat.beq (residue p) 0) = true := by decide +kernel
theorem comp170 : ([7699, 7703].all fun p => !Nat.beq (residue p) 0) = true := by decide +kernel
theorem comp171 : ([7723, 7727].all fun p => !Nat.beq (residue p) 0) = true := by decide +kernel
theorem comp172 : ([7753, 7757].all fun p => !Nat.beq (residue p) 0) = true := by decide +kernel
theorem comp173 : ([7793, 7817].all fun p => !Nat.beq (residue p) 0) = true := by decide +kernel
theorem comp174 : ([7867, 7927].all fun p => !Nat.beq (residue p) 0) = true := by decide +kernel
theorem comp175 : ([7937, 7949].all fun p => !Nat.beq (residue p) 0) = true := by decide +kernel
theorem comp176 : ([8009, 8069].all fun p => !Nat.beq (residue p) 0) = true := by decide +kernel
theorem comp177 : ([8089, 8117].all fun p => !Nat.beq (residue p) 0) = true := by decide +kernel
theorem comp178 : ([8147, 8191].all fun p => !Nat.beq (residue p) 0) = true := by decide +kernel
theorem comp179 : ([8233, 8263].all fun p => !Nat.beq (residue p) 0) = true := by decide +kernel
theorem comp180 : ([8291, 8297].all fun p => !Nat.beq (residue p) 0) = true := by decide +kernel
theorem comp181 : ([8311, 8329].all fun p => !Nat.beq (residue p) 0) = true := by decide +kernel
theorem comp182 : ([8363, 8369].all fun p => !Nat.beq (residue p) 0) = true := by decide +kernel
theorem comp183 : ([8389, 8443].all fun p => !Nat.beq (residue p) 0) = true := by decide +kernel
theorem comp184 : ([8447, 8521].all fun p => !Nat.beq (residue p) 0) = true := by decide +kernel
theorem comp185 : ([8527, 8543].all fun p => !Nat.beq (residue p) 0) = true := by decide +kernel
theorem comp186 : ([8581, 8609].all fun p => !Nat.beq (residue p) 0) = true := by decide +kernel
theorem comp187 : ([8647, 8681].all fun p => !Nat.beq (residue p) 0) = true := by decide +kernel
theorem comp188 : ([8707, 8753].all fun p => !Nat.beq (residue p) 0) = true := by decide +kernel
theorem comp189 : ([8779, 8819].all fun p => !Nat.beq (residue p) 0) = true := by decide +kernel
theorem comp190 : ([8831, 8837].all fun p => !Nat.beq (residue p) 0) = true := by decide +kernel
theorem comp191 : ([8861, 8863].all fun p => !Nat.beq (residue p) 0) = true := by decide +kernel
theorem comp192 : ([8887, 8893].all fun p => !Nat.beq (residue p) 0) = true := by decide +kernel
theorem comp193 : ([8923, 8941].all fun p => !Nat.beq (residue p) 0) = true := by decide +kernel
theorem comp194 : ([8971, 8999].all fun p => !Nat.beq (residue p) 0) = true := by decide +kernel
theorem comp195 : ([9011, 9013].all fun p => !Nat.beq (residue p) 0) = true := by decide +kernel
theorem comp196 : ([9041, 9091].all fun p => !Nat.beq (residue p) 0) = true := by decide +kernel
theorem comp197 : ([9133, 9151].all fun p => !Nat.beq (residue p) 0) = true := by decide +kernel

/-- The exponents tested in this file. -/
def compList2 : List (List Nat) :=
  [[7331, 7333], [7351, 7369], [7433, 7477], [7481, 7489], [7507, 7523], [7559, 7577], [7603, 7607], [7621, 7649],
   [7699, 7703], [7723, 7727], [7753, 7757], [7793, 7817], [7867, 7927], [7937, 7949], [8009, 8069], [8089, 8117],
   [8147, 8191], [8233, 8263], [8291, 8297], [8311, 8329], [8363, 8369], [8389, 8443], [8447, 8521], [8527, 8543],
   [8581, 8609], [8647, 8681], [8707, 8753], [8779, 8819], [8831, 8837], [8861, 8863], [8887, 8893], [8923, 8941],
   [8971, 8999], [9011, 9013], [9041, 9091], [9133, 9151]]

theorem compList2_ok : ∀ l ∈ compList2, (l.all fun p => !Nat.beq (residue p) 0) = true := by
  unfold compList2
  simp only [List.forall_mem_cons]
  exact ⟨comp162, comp163, comp164, comp165, comp166, comp167, comp168, comp169, comp170, comp171, comp172, comp173,
   comp174, comp175, comp176, comp177, comp178, comp179, comp180, comp181, comp182, comp183, comp184, comp185,
   comp186, comp187, comp188, comp189, comp190, comp191, comp192, comp193, comp194, comp195, comp196, comp197, by simp⟩

end MTT.Mexp
