import Verif.Period.Tables
import Verif.Period.Props

/-!
# C116: the numbers read by the constructor `AlgorithmPrimitivity(const char*[])`

The constructor appends every string and a blank to one stream and reads one number per string; what a
string has beyond one number stays in the stream.  `isPrime(poly, degree, const char*[])` reads the start of
every string and ignores the rest.
-/

namespace MTT.Period

/-- The text `s` consists of white space and the decimal notations of the numbers `ns`, in this order, each
followed by white space. -/
inductive Numbers : List Char → List ℕ → Prop
  | nil {b : List Char} : (∀ c ∈ b, isSpace c = true) → Numbers b []
  | cons {b s : List Char} {c : Char} {n : ℕ} {ns : List ℕ} : (∀ c ∈ b, isSpace c = true) → isSpace c = true →
      Numbers (c :: s) ns → Numbers (b ++ (toString n).toList ++ c :: s) (n :: ns)

theorem space_not_digit {c : Char} (h : isSpace c = true) : c.isDigit = false := by
  unfold isSpace at h
  have h : c ∈ [' ', '\t', '\n', '\x0b', '\x0c', '\r'] := by simpa using h
  have : ∀ c ∈ [' ', '\t', '\n', '\x0b', '\x0c', '\r'], c.isDigit = false := by decide
  exact this c h

theorem digit_not_space {c : Char} (h : c.isDigit = true) : isSpace c = false := by
  cases e : isSpace c with
  | false => rfl
  | true => rw [space_not_digit e] at h; cases h

theorem digits_ne_nil (n : ℕ) : (toString n).toList ≠ [] := by
  have e : (toString n).toList = Nat.toDigits 10 n := Nat.toList_repr
  rw [e]; exact Nat.toDigits_ne_nil

theorem digits_isDigit (n : ℕ) : ∀ c ∈ (toString n).toList, c.isDigit = true := by
  have e : (toString n).toList = Nat.toDigits 10 n := Nat.toList_repr
  rw [e]; exact fun c hc => Nat.isDigit_of_mem_toDigits (by norm_num) (by norm_num) hc

theorem takeWhile_stop {p : Char → Bool} {a r : List Char} (ha : ∀ c ∈ a, p c = true)
    (hr : ∀ c, r.head? = some c → p c = false) :
    (a ++ r).takeWhile p = a ∧ (a ++ r).dropWhile p = r := by
  induction a with
  | nil =>
    cases r with
    | nil => exact ⟨rfl, rfl⟩
    | cons c r => simp [hr c rfl]
  | cons x a ih =>
    have := ih fun c hc => ha c (List.mem_cons_of_mem _ hc)
    simp [ha x List.mem_cons_self, this]

/-- One number after white space is read, up to the character behind it. -/
theorem readZZ_number (b r : List Char) (n : ℕ) (hb : ∀ c ∈ b, isSpace c = true)
    (hr : ∀ c, r.head? = some c → c.isDigit = false) :
    readZZ (b ++ (toString n).toList ++ r) = some ((n : ℤ), r) := by
  obtain ⟨d, ds, hd⟩ := List.exists_cons_of_ne_nil (digits_ne_nil n)
  have hdig := digits_isDigit n
  have hdd : d.isDigit = true := hdig d (by rw [hd]; exact List.mem_cons_self)
  have h1 := (takeWhile_stop (p := isSpace) (a := b) (r := (toString n).toList ++ r) hb (by
    rw [hd]; intro c hc
    have : d = c := by simpa using hc
    rw [← this]; exact digit_not_space hdd)).2
  have h2 := takeWhile_stop (p := Char.isDigit) (a := (toString n).toList) (r := r) hdig hr
  have hneg : ¬ ((toString n).toList ++ r).head? = some '-' := by
    rw [hd]; intro h
    have : d = '-' := by simpa using h
    rw [this] at hdd; revert hdd; decide
  unfold readZZ
  rw [List.append_assoc, h1]
  dsimp only
  rw [if_neg hneg, h2.1, h2.2, if_neg (digits_ne_nil n), if_neg hneg]
  have := parse_correct n [] (by simp)
  rw [List.append_nil] at this
  unfold parseZZ at this
  rw [this]

theorem Numbers.append {a b : List Char} {ms ns : List ℕ} (ha : Numbers a ms) (hb : Numbers b ns) :
    Numbers (a ++ b) (ms ++ ns) := by
  induction ha with
  | nil h =>
    cases hb with
    | nil h' => exact .nil (by intro c hc; rcases List.mem_append.1 hc with hc | hc; exacts [h c hc, h' c hc])
    | cons h1 h2 h3 =>
      rw [← List.append_assoc, ← List.append_assoc]
      exact .cons (by intro c hc; rcases List.mem_append.1 hc with hc | hc; exacts [h c hc, h1 c hc]) h2 h3
  | cons h1 h2 _ ih =>
    rw [List.append_assoc, List.cons_append, List.cons_append]
    exact .cons h1 h2 ih

/-- A string with the numbers it holds. -/
def Holds (s : List Char) (ns : List ℕ) : Prop := ns ≠ [] ∧ Numbers (s ++ [' ']) ns

theorem ctorLoop_numbers (entries : List (List Char × List ℕ)) (junk : List (Option (List Char)))
    (he : ∀ e ∈ entries, Holds e.1 e.2) (ss : List Char) (ms : List ℕ) (hs : Numbers ss ms) :
    ctorLoop ss ((entries.map fun e => some e.1) ++ none :: junk) =
      some (((ms ++ entries.flatMap (·.2)).take entries.length).map Int.ofNat) := by
  induction entries generalizing ss ms with
  | nil => simp [ctorLoop]
  | cons e es ih =>
    have h1 := hs.append (he e List.mem_cons_self).2
    have h0 := (he e List.mem_cons_self).1
    rw [← List.append_assoc] at h1
    have hlist : ms ++ (e :: es).flatMap (·.2) = (ms ++ e.2) ++ es.flatMap (·.2) := by simp
    rw [hlist]
    have hne : ms ++ e.2 ≠ [] := by simp [h0]
    rw [List.map_cons, List.cons_append, ctorLoop]
    generalize ms ++ e.2 = l at h1 hne
    generalize ss ++ e.1 ++ [' '] = t at h1
    cases h1 with
    | nil _ => exact absurd rfl hne
    | cons hb hc hr =>
      rw [readZZ_number _ _ _ hb (by
        intro c hc'
        rw [List.head?_cons, Option.some.injEq] at hc'
        subst hc'; exact space_not_digit hc)]
      dsimp only
      rw [ih (fun e he' => he e (List.mem_cons_of_mem _ he')) _ _ hr]
      simp

/-- **C116.**  If every string of the table holds at least one number and nothing but decimal numbers and
white space, the constructor stores as many numbers as there are strings: the first ones of all numbers of the
table, in their order.  What follows the `NULL` is not looked at. -/
theorem ctor_numbers (entries : List (List Char × List ℕ)) (junk : List (Option (List Char)))
    (he : ∀ e ∈ entries, Holds e.1 e.2) :
    ctor ((entries.map fun e => some e.1) ++ none :: junk) =
      some (((entries.flatMap (·.2)).take entries.length).map Int.ofNat) :=
  ctorLoop_numbers entries junk he [] [] (.nil (by simp))

theorem holds_one (n : ℕ) : Holds (toString n).toList [n] :=
  ⟨by simp, Numbers.cons (b := []) (s := []) (by simp) (by decide) (.nil (by intro c hc; simp at hc; rw [hc]; decide))⟩

theorem holds_two (m n : ℕ) : Holds ((toString m).toList ++ ' ' :: (toString n).toList) [m, n] := by
  refine ⟨by simp, ?_⟩
  have := (holds_one n).2
  rw [List.append_assoc, List.cons_append]
  exact Numbers.cons (b := []) (by simp) (by decide) (Numbers.append (a := [' ']) (ms := [])
    (.nil (by intro c hc; simp at hc; rw [hc]; decide)) this)

/-- **C116.**  A table with one decimal number per string is stored as it is, whatever follows the `NULL`;
this is also what `isPrime(poly, degree, const char*[])` reads. -/
theorem ctor_correct (L : List ℕ) (junk : List (Option (List Char))) :
    ctor ((L.map fun n => some (toString n).toList) ++ none :: junk) = some (L.map Int.ofNat) ∧
      readTable ((L.map fun n => some (toString n).toList) ++ none :: junk) = some (L.map Int.ofNat) := by
  constructor
  · have := ctor_numbers (L.map fun n => ((toString n).toList, [n])) junk (by
      intro e he
      obtain ⟨n, _, rfl⟩ := List.mem_map.1 he
      exact holds_one n)
    rw [List.map_map] at this
    have e : (L.map fun n => ((toString n).toList, [n])).flatMap (·.2) = L := by
      rw [List.flatMap_map]; simp
    rw [e, List.length_map, List.take_length] at this
    exact this
  · induction L with
    | nil => rfl
    | cons n L ih =>
      have := parse_correct n [] (by simp)
      rw [List.append_nil] at this
      simp only [List.map_cons, List.cons_append, readTable, ih, Option.map_some, this]
      rfl

/-- **C116: the two readers differ.**  With two numbers in the first string the constructor stores the second
one instead of the number of the second string; `isPrime` reads the first number of every string. -/
theorem ctor_two (k m n : ℕ) (junk : List (Option (List Char))) :
    ctor (some ((toString k).toList ++ ' ' :: (toString m).toList) :: some (toString n).toList :: none :: junk) =
        some [(k : ℤ), (m : ℤ)] ∧
      readTable (some ((toString k).toList ++ ' ' :: (toString m).toList) :: some (toString n).toList ::
        none :: junk) = some [(k : ℤ), (n : ℤ)] := by
  constructor
  · have := ctor_numbers [((toString k).toList ++ ' ' :: (toString m).toList, [k, m]), ((toString n).toList, [n])]
      junk (by
        intro e he
        simp only [List.mem_cons, List.not_mem_nil, or_false] at he
        rcases he with rfl | rfl
        exacts [holds_two k m, holds_one n])
    simpa using this
  · have h1 := parse_correct k (' ' :: (toString m).toList) (by intro c hc; simp at hc; rw [← hc]; decide)
    have h2 := parse_correct n [] (by simp)
    rw [List.append_nil] at h2
    simp only [readTable, Option.map_some, h1, h2]

/-- **C116: the two readers differ.**  If a string that is not the last one continues after its number with
a character that is no digit, no white space and no minus sign, the constructor aborts at the next string;
`isPrime` ignores the rest of the string. -/
theorem ctor_garbage (n : ℕ) (c : Char) (r s : List Char) (rest : List (Option (List Char)))
    (hd : c.isDigit = false) (hsp : isSpace c = false) (hm : c ≠ '-') :
    ctor (some ((toString n).toList ++ c :: r) :: some s :: rest) = none ∧
      parseZZ ((toString n).toList ++ c :: r) = n := by
  refine ⟨?_, parse_correct n _ (by intro d h; simp at h; rw [← h]; exact hd)⟩
  have h1 := readZZ_number [] (c :: (r ++ [' '])) n (by simp) (by intro d h; simp at h; rw [← h]; exact hd)
  have e : [] ++ ((toString n).toList ++ c :: r) ++ [' '] = [] ++ (toString n).toList ++ c :: (r ++ [' ']) := by simp
  have h2 : readZZ (c :: (r ++ [' ']) ++ s ++ [' ']) = none := by
    unfold readZZ
    have hds : (c :: (r ++ [' ']) ++ s ++ [' ']).dropWhile isSpace = c :: (r ++ [' '] ++ s ++ [' ']) := by
      rw [List.cons_append, List.cons_append, List.dropWhile_cons, hsp]; rfl
    rw [hds]
    dsimp only
    have hneg : ¬ (c :: (r ++ [' '] ++ s ++ [' '])).head? = some '-' := by simpa using hm
    have ht : (c :: (r ++ [' '] ++ s ++ [' '])).takeWhile (·.isDigit) = [] := by
      rw [List.takeWhile_cons, hd]; rfl
    rw [if_neg hneg, ht, if_pos rfl]
  unfold ctor
  rw [ctorLoop, e, h1]
  dsimp only
  rw [ctorLoop, h2]
  rfl

/-! ### Concrete cases -/

-- `"3 5"`, `"17"`, NULL: the constructor stores 3 and 5
example : ctor [some "3 5".toList, some "17".toList, none] = some [3, 5] ∧
    readTable [some "3 5".toList, some "17".toList, none] = some [3, 17] := by decide +kernel

-- the hypotheses of `ctor_numbers` for this table
example : ∀ e ∈ [("3 5".toList, [3, 5]), ("17".toList, [17])], Holds e.1 e.2 := by
  intro e he
  simp only [List.mem_cons, List.not_mem_nil, or_false] at he
  rcases he with rfl | rfl
  exacts [holds_two 3 5, holds_one 17]

-- the character `;` meets the hypotheses of `ctor_garbage`; as the last string it does no harm
example : (';'.isDigit = false ∧ isSpace ';' = false ∧ ';' ≠ '-') ∧
    ctor [some "3;".toList, some "5".toList, none] = none ∧
    ctor [some "3".toList, some "5;".toList, none] = some [3, 5] := by decide +kernel

end MTT.Period
