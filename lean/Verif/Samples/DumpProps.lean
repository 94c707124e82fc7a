import Verif.Samples.ParityTest
import Verif.Samples.SearchTextLemmas
import Verif.Samples.W128Props

/-!
# C117: the dumps `d_p` show the whole state
-/

namespace MTT.Text

/-- Texts of equal length split uniquely. -/
theorem split_len {a a' b b' : List Char} (hl : a.length = a'.length) (h : a ++ b = a' ++ b') : a = a' ∧ b = b' :=
  List.append_inj h hl

/-- A text is determined line by line. -/
theorem lines_inj : ∀ {A B : List (List Char)}, (∀ t ∈ A, '\n' ∉ t) → (∀ t ∈ B, '\n' ∉ t) →
    A.flatMap (· ++ ['\n']) = B.flatMap (· ++ ['\n']) → A = B
  | [], [], _, _, _ => rfl
  | [], b :: B, _, _, h => by simp at h
  | a :: A, [], _, _, h => by simp at h
  | a :: A, b :: B, hA, hB, h => by
    rw [List.flatMap_cons, List.flatMap_cons, List.append_assoc, List.append_assoc] at h
    obtain ⟨e1, e2⟩ := line (hA a List.mem_cons_self) (hB b List.mem_cons_self) h
    rw [e1, lines_inj (fun t ht => hA t (List.mem_cons_of_mem _ ht)) (fun t ht => hB t (List.mem_cons_of_mem _ ht)) e2]

theorem index_line {i j : ℕ} {a b : List Char}
    (h : "index = ".toList ++ dec i ++ ['\n'] ++ a = "index = ".toList ++ dec j ++ ['\n'] ++ b) : i = j ∧ a = b := by
  simp only [List.append_assoc] at h
  obtain ⟨e1, e2⟩ := line (lf_plain (dec_plain i)) (lf_plain (dec_plain j)) (List.append_cancel_left h)
  exact ⟨dec_inj e1, e2⟩

theorem map_range_inj {α : Type} {f g : ℕ → α} {m n : ℕ} (h : (List.range m).map f = (List.range n).map g) :
    m = n ∧ ∀ i < n, f i = g i := by
  have hl : m = n := by simpa using congrArg List.length h
  subst hl
  refine ⟨rfl, fun i hi => ?_⟩
  have := congrArg (·[i]?) h
  simpa [hi] using this

end MTT.Text

namespace MTT.SFMT

open W128 Text

/-- The line of a word of the array. -/
def dumpLine (x : W128) : List Char := (List.range 4).flatMap fun j => hexW 8 (u x j).toNat

theorem dumpLine_lf (x : W128) : '\n' ∉ dumpLine x := by
  unfold dumpLine
  intro h
  obtain ⟨j, _, hj⟩ := List.mem_flatMap.1 h
  exact (hexW_plain 8 _ _ hj).2 rfl

theorem dumpLine_inj {x y : W128} (h : dumpLine x = dumpLine y) : x = y := by
  have r : List.range 4 = [0, 1, 2, 3] := rfl
  unfold dumpLine at h
  rw [r] at h
  simp only [List.flatMap_cons, List.flatMap_nil, List.append_nil] at h
  obtain ⟨h0, h⟩ := split_len (by rw [(hex8 _).1, (hex8 _).1]) h
  obtain ⟨h1, h⟩ := split_len (by rw [(hex8 _).1, (hex8 _).1]) h
  obtain ⟨h2, h3⟩ := split_len (by rw [(hex8 _).1, (hex8 _).1]) h
  have k0 := BitVec.eq_of_toNat_eq (hexW_inj h0)
  have k1 := BitVec.eq_of_toNat_eq (hexW_inj h1)
  have k2 := BitVec.eq_of_toNat_eq (hexW_inj h2)
  have k3 := BitVec.eq_of_toNat_eq (hexW_inj h3)
  rw [← mk32_eta x, ← mk32_eta y, k0, k1, k2, k3]

theorem dumpText_eq (s : St) : dumpText s = "index = ".toList ++ dec s.index ++ ['\n'] ++
    ((List.range s.size).map fun i => dumpLine (s.state i)).flatMap (· ++ ['\n']) := by
  unfold dumpText dumpLine
  rw [List.flatMap_map]

/-- **C117.**  Two objects of the class sfmt have the same dump exactly if they have the same position and
the same array. -/
theorem dump_inj (s t : St) : dumpText s = dumpText t ↔
    s.index = t.index ∧ s.size = t.size ∧ ∀ i < t.size, s.state i = t.state i := by
  rw [dumpText_eq, dumpText_eq]
  constructor
  · intro h
    obtain ⟨h1, h2⟩ := index_line h
    have h3 := lines_inj (by intro t ht; obtain ⟨i, _, rfl⟩ := List.mem_map.1 ht; exact dumpLine_lf _)
      (by intro t ht; obtain ⟨i, _, rfl⟩ := List.mem_map.1 ht; exact dumpLine_lf _) h2
    obtain ⟨h4, h5⟩ := map_range_inj h3
    exact ⟨h1, h4, fun i hi => dumpLine_inj (h5 i hi)⟩
  · rintro ⟨h1, h2, h3⟩
    rw [h1, h2, List.map_congr_left fun i hi => congrArg dumpLine (h3 i (List.mem_range.1 hi))]

/-- **C117.**  The dump has one line for the position and one line of 32 digits for every word. -/
theorem dump_shape (s : St) : ∃ L : List (List Char), dumpText s = L.flatMap (· ++ ['\n']) ∧ L.length = s.size + 1 ∧
    (∀ t ∈ L, '\n' ∉ t) ∧ ∀ t ∈ L.tail, t.length = 32 := by
  refine ⟨("index = ".toList ++ dec s.index) :: (List.range s.size).map fun i => dumpLine (s.state i), ?_, by simp, ?_, ?_⟩
  · rw [dumpText_eq, List.flatMap_cons]
  · intro t ht
    rcases List.mem_cons.1 ht with rfl | ht
    · intro h
      rcases List.mem_append.1 h with h | h
      · revert h; decide
      · exact lf_plain (dec_plain _) h
    · obtain ⟨i, _, rfl⟩ := List.mem_map.1 ht; exact dumpLine_lf _
  · intro t ht
    obtain ⟨i, _, rfl⟩ := List.mem_map.1 ht
    have r : List.range 4 = [0, 1, 2, 3] := rfl
    unfold dumpLine
    rw [r]
    simp only [List.flatMap_cons, List.flatMap_nil, List.append_nil, List.length_append, (hex8 _).1]

end MTT.SFMT

namespace MTT.DSFMT

open W128 Text

/-- The line of a word of the array, or of the lung. -/
def dumpLine (x : W128) : List Char := (List.range 2).flatMap fun j => hexW 16 (u64 x j).toNat ++ [' ']

theorem dumpLine_lf (x : W128) : '\n' ∉ dumpLine x := by
  unfold dumpLine
  intro h
  obtain ⟨j, _, hj⟩ := List.mem_flatMap.1 h
  rcases List.mem_append.1 hj with hj | hj
  · exact (hexW_plain 16 _ _ hj).2 rfl
  · revert hj; decide

theorem dumpLine_inj {x y : W128} (h : dumpLine x = dumpLine y) : x = y := by
  have r : List.range 2 = [0, 1] := rfl
  unfold dumpLine at h
  rw [r] at h
  simp only [List.flatMap_cons, List.flatMap_nil, List.append_nil, List.append_assoc] at h
  obtain ⟨h0, h⟩ := split_len (by rw [(hex16 _).1, (hex16 _).1]) h
  obtain ⟨h1, -⟩ := split_len (by rw [(hex16 _).1, (hex16 _).1]) (List.append_cancel_left h)
  rw [← mk64_eta x, ← mk64_eta y, BitVec.eq_of_toNat_eq (hexW_inj h0), BitVec.eq_of_toNat_eq (hexW_inj h1)]

theorem dumpText_eq (s : St) : dumpText s = "index = ".toList ++ dec s.index ++ ['\n'] ++
    (((List.range s.size).map fun i => dumpLine (s.state i)) ++ [dumpLine s.lung]).flatMap (· ++ ['\n']) := by
  unfold dumpText dumpLine
  rw [List.flatMap_append, List.flatMap_map]
  simp only [List.flatMap_cons, List.flatMap_nil, List.append_nil, List.append_assoc]

/-- **C117.**  Two objects of the class dSFMT have the same dump exactly if they have the same position, the
same array and the same lung. -/
theorem dump_inj (s t : St) : dumpText s = dumpText t ↔
    s.index = t.index ∧ s.size = t.size ∧ (∀ i < t.size, s.state i = t.state i) ∧ s.lung = t.lung := by
  rw [dumpText_eq, dumpText_eq]
  constructor
  · intro h
    obtain ⟨h1, h2⟩ := index_line h
    have hl : ∀ s : St, ∀ t ∈ ((List.range s.size).map fun i => dumpLine (s.state i)) ++ [dumpLine s.lung], '\n' ∉ t := by
      intro s t ht
      rcases List.mem_append.1 ht with ht | ht
      · obtain ⟨i, _, rfl⟩ := List.mem_map.1 ht; exact dumpLine_lf _
      · rw [List.mem_singleton.1 ht]; exact dumpLine_lf _
    have h3 := lines_inj (hl s) (hl t) h2
    obtain ⟨h4, h5⟩ := List.append_inj' h3 rfl
    obtain ⟨h6, h7⟩ := map_range_inj h4
    exact ⟨h1, h6, fun i hi => dumpLine_inj (h7 i hi), dumpLine_inj (List.cons.inj h5).1⟩
  · rintro ⟨h1, h2, h3, h4⟩
    rw [h1, h2, h4, List.map_congr_left fun i hi => congrArg dumpLine (h3 i (List.mem_range.1 hi))]

/-- **C117.**  The dump has one line for the position, one line of two numbers for every word, and one for the
lung. -/
theorem dump_shape (s : St) : ∃ L : List (List Char), dumpText s = L.flatMap (· ++ ['\n']) ∧ L.length = s.size + 2 ∧
    (∀ t ∈ L, '\n' ∉ t) ∧ ∀ t ∈ L.tail, t.length = 34 := by
  refine ⟨("index = ".toList ++ dec s.index) :: (((List.range s.size).map fun i => dumpLine (s.state i)) ++ [dumpLine s.lung]),
    ?_, by simp, ?_, ?_⟩
  · rw [dumpText_eq, List.flatMap_cons]
  · intro t ht
    rcases List.mem_cons.1 ht with rfl | ht
    · intro h
      rcases List.mem_append.1 h with h | h
      · revert h; decide
      · exact lf_plain (dec_plain _) h
    · rcases List.mem_append.1 ht with ht | ht
      · obtain ⟨i, _, rfl⟩ := List.mem_map.1 ht; exact dumpLine_lf _
      · rw [List.mem_singleton.1 ht]; exact dumpLine_lf _
  · intro t ht
    have r : List.range 2 = [0, 1] := rfl
    have key : ∀ x, (dumpLine x).length = 34 := fun x => by
      unfold dumpLine
      rw [r]
      simp only [List.flatMap_cons, List.flatMap_nil, List.append_nil, List.length_append, (hex16 _).1, List.length_singleton]
    rcases List.mem_append.1 ht with ht | ht
    · obtain ⟨i, _, rfl⟩ := List.mem_map.1 ht; exact key _
    · rw [List.mem_singleton.1 ht]; exact key _

end MTT.DSFMT

/-! ### Concrete cases -/

section
open MTT W128

-- two objects with different arrays
example : SFMT.dumpText (SFMT.ctor 128 fun _ => 0) ≠ SFMT.dumpText (SFMT.ctor 128 fun i => if i = 1 then 1 else 0) := by
  rw [Ne, SFMT.dump_inj]
  rintro ⟨-, -, h⟩
  exact absurd (h 1 (by decide)) (by decide)

example : DSFMT.dumpText (DSFMT.ctor 300 fun _ => 0) ≠ DSFMT.dumpText (DSFMT.ctor 300 fun i => if i = 1 then 1 else 0) := by
  rw [Ne, DSFMT.dump_inj]
  rintro ⟨-, -, h, -⟩
  exact absurd (h 1 (by decide)) (by decide)

end
