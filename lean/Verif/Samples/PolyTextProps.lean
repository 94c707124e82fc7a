import Verif.Samples.PolyText
import Verif.Samples.SearchTextLemmas

/-!
# C108: the texts of a polynomial
-/

namespace MTT.PolyText

open Polynomial Text

noncomputable section

/-! ## Specification -/

/-- The coefficients, lowest degree first, as characters. -/
def bits (p : (ZMod 2)[X]) : List Char :=
  (List.range (p.natDegree + 1)).map fun i => if p.coeff i = 1 then '1' else '0'

/-! ## Lemmas -/

theorem coeffLoop_plain (p : (ZMod 2)[X]) : ∀ k i, coeffLoop p false k i =
    (List.range' i k).map fun i => if p.coeff i = 1 then '1' else '0'
  | 0, i => rfl
  | k + 1, i => by
    rw [coeffLoop, coeffLoop_plain p k, List.range'_succ, List.map_cons]
    by_cases h : p.coeff i = 1
    · simp [h]
    · simp [h]

theorem shaLoop_eq (p : (ZMod 2)[X]) : ∀ k i, shaLoop p k i =
    (List.range' i k).map fun i => if p.coeff i = 1 then '1' else '0'
  | 0, i => rfl
  | k + 1, i => by
    rw [shaLoop, shaLoop_eq p k, List.range'_succ, List.map_cons]
    by_cases h : p.coeff i = 1
    · simp [h]
    · simp [h]

theorem deg_ne {p : (ZMod 2)[X]} (hp : p ≠ 0) : Period.deg p = p.natDegree := by
  unfold Period.deg; rw [if_neg hp]

theorem deg_zero : Period.deg (0 : (ZMod 2)[X]) = -1 := by
  unfold Period.deg; rw [if_pos rfl]

theorem bits_chars (p : (ZMod 2)[X]) : ∀ c ∈ bits p, c = '1' ∨ c = '0' := by
  intro c hc
  obtain ⟨i, -, rfl⟩ := List.mem_map.1 hc
  by_cases h : p.coeff i = 1
  · exact .inl (if_pos h)
  · exact .inr (if_neg h)

/-- The coefficients determine the polynomial. -/
theorem bits_inj {p q : (ZMod 2)[X]} (h : bits p = bits q) : p = q := by
  have hl := congrArg List.length h
  unfold bits at h hl
  rw [List.length_map, List.length_map, List.length_range, List.length_range] at hl
  have hd : p.natDegree = q.natDegree := by omega
  rw [hd] at h
  ext i
  by_cases hi : i ≤ q.natDegree
  · have h2 := congrArg (fun l => l[i]?) h
    have hr : (List.range (q.natDegree + 1))[i]? = some i := by rw [List.getElem?_range (by omega)]
    simp only [List.getElem?_map, hr, Option.map_some, Option.some.injEq] at h2
    have key : ∀ a b : ZMod 2, (if a = 1 then '1' else '0') = (if b = 1 then '1' else '0') → a = b := by decide
    exact key _ _ h2
  · rw [coeff_eq_zero_of_natDegree_lt (by omega), coeff_eq_zero_of_natDegree_lt (by omega)]

theorem row {p : (ZMod 2)[X]} : ∀ k i, ∃ (full : List (List Char)) (last : List Char),
    coeffLoop p true k i = full.flatMap (· ++ ['\n']) ++ last ∧
    full.flatten ++ last = (List.range' i k).map (fun i => if p.coeff i = 1 then '1' else '0') ∧
    (∀ r ∈ full.head?, r.length = 32 - i % 32) ∧ (∀ r ∈ full.tail, r.length = 32) ∧
    (full = [] → last.length < 32 - i % 32) ∧ last.length < 32
  | 0, i => ⟨[], [], rfl, rfl, by simp, by simp, by
      intro _; have := Nat.mod_lt i (show 32 > 0 by decide); simp; omega, by simp⟩
  | k + 1, i => by
    obtain ⟨full, last, h1, h2, h3, h4, h5, h6⟩ := row (p := p) k (i + 1)
    have hc : ∀ t : List Char, (if p.coeff i = 1 then ['1'] else ['0']) ++ t = (if p.coeff i = 1 then '1' else '0') :: t := by
      intro t; by_cases h : p.coeff i = 1 <;> simp [h]
    rw [coeffLoop, h1, List.range'_succ, List.map_cons, ← h2, List.append_assoc, hc]
    by_cases hi : i % 32 = 31
    · refine ⟨[if p.coeff i = 1 then '1' else '0'] :: full, last, ?_, ?_, ?_, ?_, ?_, h6⟩
      · rw [if_pos (show true = true ∧ i % 32 = 31 from ⟨rfl, hi⟩)]; simp
      · simp
      · simp [hi]
      · rw [List.tail_cons]
        intro r hr
        cases full with
        | nil => simp at hr
        | cons a f =>
          rcases List.mem_cons.1 hr with rfl | hr
          · rw [h3 _ rfl]; omega
          · exact h4 _ hr
      · intro h; simp at h
    · rw [if_neg (show ¬ (true = true ∧ i % 32 = 31) from fun h => hi h.2)]
      cases full with
      | nil =>
        refine ⟨[], (if p.coeff i = 1 then '1' else '0') :: last, by simp, by simp, by simp, by simp, ?_, ?_⟩
        · intro _; have := h5 rfl; rw [List.length_cons]; omega
        · have := h5 rfl; rw [List.length_cons]; omega
      | cons a f =>
        refine ⟨((if p.coeff i = 1 then '1' else '0') :: a) :: f, last, by simp, by simp, ?_, h4, ?_, h6⟩
        · intro r hr
          have := h3 a rfl
          simp at hr
          rw [← hr, List.length_cons]; omega
        · intro h; simp at h

theorem filter_loop (p : (ZMod 2)[X]) : ∀ k i, (coeffLoop p true k i).filter (· ≠ '\n') = coeffLoop p false k i
  | 0, _ => rfl
  | k + 1, i => by
    rw [coeffLoop, coeffLoop, List.filter_append, List.filter_append, filter_loop p k]
    congr 1
    by_cases h : p.coeff i = 1 <;> by_cases hi : i % 32 = 31 <;> simp [h, hi]

/-! ## C108 -/

/-- **C108.**  The zero polynomial. -/
theorem printBinary_zero (b : Bool) : printBinary 0 b = "0deg=-1\n".toList := by
  unfold printBinary; rw [if_pos (by rw [deg_zero]; decide)]

/-- **C108.**  Without line breaks `print_binary` prints the coefficients, lowest degree first, and the degree. -/
theorem printBinary_plain {p : (ZMod 2)[X]} (hp : p ≠ 0) :
    printBinary p false = bits p ++ "deg=".toList ++ (toString p.natDegree).toList ++ ['\n'] := by
  unfold printBinary
  rw [if_neg (by rw [deg_ne hp]; omega), coeffLoop_plain, deg_ne hp, decInt_text,
    show ((p.natDegree : ℤ) + 1).toNat = p.natDegree + 1 by omega]
  unfold bits
  rw [List.range_eq_range']
  rfl

/-- **C108.**  With line breaks the coefficients are in rows of 32; the row that is not complete stands in front of "deg=". -/
theorem printBinary_rows {p : (ZMod 2)[X]} (hp : p ≠ 0) : ∃ (rows : List (List Char)) (last : List Char),
    printBinary p true = rows.flatMap (· ++ ['\n']) ++ last ++ "deg=".toList ++ (toString p.natDegree).toList ++ ['\n'] ∧
    rows.flatten ++ last = bits p ∧ (∀ r ∈ rows, r.length = 32) ∧ last.length < 32 := by
  unfold printBinary
  rw [if_neg (by rw [deg_ne hp]; omega), deg_ne hp, decInt_text,
    show ((p.natDegree : ℤ) + 1).toNat = p.natDegree + 1 by omega]
  obtain ⟨full, last, h1, h2, h3, h4, h5, h6⟩ := row (p := p) (p.natDegree + 1) 0
  refine ⟨full, last, ?_, ?_, ?_, h6⟩
  · rw [h1]; rfl
  · rw [h2, ← List.range_eq_range']; rfl
  · intro r hr
    cases full with
    | nil => simp at hr
    | cons a f =>
      rcases List.mem_cons.1 hr with rfl | hr
      · exact h3 _ rfl
      · exact h4 _ hr

/-- **C108.**  Either text determines the polynomial. -/
theorem printBinary_inj (b : Bool) {p q : (ZMod 2)[X]} (h : printBinary p b = printBinary q b) : p = q := by
  -- drop the ends of line
  have h0 : ∀ p : (ZMod 2)[X], p ≠ 0 → (printBinary p b).filter (· ≠ '\n') =
      bits p ++ 'd' :: ("eg=".toList ++ (decInt p.natDegree).filter (· ≠ '\n')) := by
    intro p hp
    unfold printBinary
    rw [if_neg (by rw [deg_ne hp]; omega), List.filter_append, List.filter_append, List.filter_append,
      show (coeffLoop p b (Period.deg p + 1).toNat 0).filter (· ≠ '\n') = bits p from ?_, deg_ne hp]
    · simp
    · have hb : bits p = coeffLoop p false (Period.deg p + 1).toNat 0 := by
        rw [deg_ne hp, coeffLoop_plain, show ((p.natDegree : ℤ) + 1).toNat = p.natDegree + 1 by omega]
        unfold bits; rw [List.range_eq_range']
      cases b with
      | true => rw [filter_loop, hb]
      | false =>
        rw [← hb, List.filter_eq_self]
        intro c hc
        rcases bits_chars p c hc with rfl | rfl <;> decide
  have hz : (printBinary 0 b).filter (· ≠ '\n') = ['0'] ++ 'd' :: "eg=-1".toList := by rw [printBinary_zero]; decide
  have hcut : ∀ {a a' t t' : List Char}, 'd' ∉ a → 'd' ∉ a' → a ++ 'd' :: t = a' ++ 'd' :: t' → a = a' ∧ t = t' := by
    intro a
    induction a with
    | nil =>
      intro a' t t' _ h2 h
      cases a' with
      | nil => simpa using h
      | cons c a' => simp only [List.nil_append, List.cons_append, List.cons.injEq] at h; exact absurd (h.1 ▸ List.mem_cons_self) h2
    | cons c a ih =>
      intro a' t t' h1 h2 h
      cases a' with
      | nil => simp only [List.nil_append, List.cons_append, List.cons.injEq] at h; exact absurd (h.1 ▸ List.mem_cons_self) h1
      | cons c' a' =>
        simp only [List.cons_append, List.cons.injEq] at h
        obtain ⟨e1, e2⟩ := ih (fun hm => h1 (List.mem_cons_of_mem _ hm)) (fun hm => h2 (List.mem_cons_of_mem _ hm)) h.2
        exact ⟨by rw [h.1, e1], e2⟩
  have hd : ∀ p, 'd' ∉ bits p := fun p hm => by rcases bits_chars p _ hm with h | h <;> revert h <;> decide
  have hlead : ∀ p : (ZMod 2)[X], p ≠ 0 → bits p ≠ ['0'] := by
    intro p hp he
    have hl := congrArg List.length he
    unfold bits at hl he
    rw [List.length_map, List.length_range] at hl
    have h0 : p.natDegree = 0 := by simpa using hl
    have hc : p.coeff 0 = 1 := by
      have := leadingCoeff_ne_zero.2 hp
      rw [leadingCoeff, h0] at this
      have key : ∀ a : ZMod 2, a ≠ 0 → a = 1 := by decide
      exact key _ this
    rw [h0] at he
    simp [hc] at he
  have h' := congrArg (List.filter (· ≠ '\n')) h
  by_cases hp : p = 0 <;> by_cases hq : q = 0
  · rw [hp, hq]
  · rw [hp, hz, h0 q hq] at h'
    exact absurd (hcut (by decide) (hd q) h').1.symm (hlead q hq)
  · rw [hq, hz, h0 p hp] at h'
    exact absurd (hcut (hd p) (by decide) h').1 (hlead p hp)
  · rw [h0 p hp, h0 q hq] at h'
    exact bits_inj (hcut (hd p) (hd q) h').1

/-- **C108.**  The text whose digest `poly_sha1` calculates: the coefficients, lowest degree first, and "-1" for 0. -/
theorem shaText_eq (p : (ZMod 2)[X]) [Decidable (p = 0)] : shaText p = if p = 0 then "-1".toList else bits p := by
  unfold shaText
  by_cases hp : p = 0
  · rw [if_pos hp, hp, deg_zero, if_pos (by decide)]; rfl
  · rw [if_neg hp, deg_ne hp, if_neg (by omega), shaLoop_eq, List.nil_append,
      show ((p.natDegree : ℤ) + 1).toNat = p.natDegree + 1 by omega]
    unfold bits; rw [List.range_eq_range']

/-- **C108.**  Different polynomials have different texts. -/
theorem shaText_inj {p q : (ZMod 2)[X]} (h : shaText p = shaText q) : p = q := by
  classical
  rw [shaText_eq, shaText_eq] at h
  have hm : ∀ p, bits p ≠ "-1".toList := fun p he => by
    have := bits_chars p '-' (by rw [he]; decide)
    revert this; decide
  by_cases hp : p = 0 <;> by_cases hq : q = 0
  · rw [hp, hq]
  · rw [if_pos hp, if_neg hq] at h; exact absurd h.symm (hm q)
  · rw [if_neg hp, if_pos hq] at h; exact absurd h (hm p)
  · rw [if_neg hp, if_neg hq] at h; exact bits_inj h

theorem hexW_two (x : BitVec 8) : (hexW 2 x.toNat).length = 2 := (hexW_hexN (n := 1) (by have := x.isLt; omega)).1

theorem hexW_chars {n x : ℕ} : ∀ c ∈ hexW n x, ∃ d < 16, c = Nat.digitChar d := by
  intro c hc
  unfold hexW at hc
  rcases List.mem_append.1 hc with hc | hc
  · exact ⟨0, by decide, (List.mem_replicate.1 hc).2⟩
  · exact digits_chars (.inr rfl) x c hc

/-- **C108.**  A digest is written as 40 hexadecimal digits, two for each byte. -/
theorem digestText_length (md : Digest) : (digestText md).length = 40 := by
  unfold digestText
  rw [List.length_flatMap]
  simp only [hexW_two]
  rfl

/-- **C108.**  Every character is one of 0 to 9 and a to f. -/
theorem digestText_chars (md : Digest) : ∀ c ∈ digestText md, c ∈ "0123456789abcdef".toList := by
  intro c hc
  obtain ⟨i, -, hc⟩ := List.mem_flatMap.1 hc
  obtain ⟨d, hd, rfl⟩ := hexW_chars c hc
  have key : ∀ d < 16, Nat.digitChar d ∈ "0123456789abcdef".toList := by decide
  exact key d hd

/-- **C108.**  The text of a digest determines it. -/
theorem digestText_inj {a b : Digest} (h : digestText a = digestText b) : a = b := by
  have key : ∀ (L : List (Fin 20)), (L.flatMap fun i => hexW 2 (a i).toNat) = (L.flatMap fun i => hexW 2 (b i).toNat) →
      ∀ i ∈ L, a i = b i := by
    intro L
    induction L with
    | nil => simp
    | cons i L ih =>
      intro h
      rw [List.flatMap_cons, List.flatMap_cons] at h
      obtain ⟨h1, h2⟩ := List.append_inj h (by rw [hexW_two, hexW_two])
      intro j hj
      rcases List.mem_cons.1 hj with rfl | hj
      · exact BitVec.eq_of_toNat_eq (hexW_inj h1)
      · exact ih h2 j hj
  funext i
  exact key _ h i (List.mem_finRange i)

/-- **C108.**  Two polynomials with the same result of `poly_sha1` are equal or give two different texts with the same
SHA-1 digest. -/
theorem polySha1_collision {sha : List Char → Digest} {p q : (ZMod 2)[X]} (h : polySha1 sha p = polySha1 sha q) :
    p = q ∨ (shaText p ≠ shaText q ∧ sha (shaText p) = sha (shaText q)) := by
  by_cases hpq : p = q
  · exact .inl hpq
  · exact .inr ⟨fun he => hpq (shaText_inj he), digestText_inj h⟩

theorem setLoop_get (src : List Char) : ∀ k i (a : Sha1) (j : Fin 41), setLoop src k i a j =
    if i ≤ j.val ∧ j.val < i + k ∧ j.val < src.length then BitVec.ofNat 8 (src.getD j.val ' ').toNat else a j
  | 0, i, a, j => by rw [setLoop, if_neg (by omega)]
  | k + 1, i, a, j => by
    rw [setLoop]
    by_cases hi : i < src.length
    · rw [if_pos hi, setLoop_get src k]
      by_cases hj : j.val = i
      · rw [if_neg (by omega), if_pos hj, if_pos (by omega), hj]
      · rw [if_neg hj]
        by_cases h2 : i + 1 ≤ j.val ∧ j.val < i + 1 + k ∧ j.val < src.length
        · rw [if_pos h2, if_pos (by omega)]
        · rw [if_neg h2, if_neg (by omega)]
    · rw [if_neg hi, if_neg (by omega)]

theorem readChars_text {a : Sha1} {str : List Char} (hl : str.length = 40) (hc : ∀ c ∈ str, 0 < c.toNat ∧ c.toNat < 128)
    (ha : ∀ j : Fin 41, j.val < 40 → a j = BitVec.ofNat 8 (str.getD j.val ' ').toNat) :
    ∀ k i, k + i = 41 → readChars a k i = if k = 0 then none else if a 40 = 0 then some (str.drop i) else none
  | 0, i, _ => rfl
  | k + 1, i, hk => by
    rw [readChars, dif_pos (by omega), if_neg (Nat.succ_ne_zero k), readChars_text hl hc ha k (i + 1) (by omega)]
    by_cases h40 : i = 40
    · subst h40
      have hk0 : k = 0 := by omega
      subst hk0
      rw [if_pos rfl, show (⟨40, by omega⟩ : Fin 41) = 40 from rfl, List.drop_of_length_le (by omega)]
      rfl
    · have hi : i < str.length := by omega
      have hm := hc _ (List.getElem_mem hi)
      have hv : (BitVec.ofNat 8 (str.getD i ' ').toNat).toNat = str[i].toNat := by
        rw [List.getD_eq_getElem?_getD, List.getElem?_eq_getElem hi, Option.getD_some, BitVec.toNat_ofNat]
        omega
      rw [ha ⟨i, by omega⟩ (by show i < 40; omega), if_neg (show ¬ BitVec.ofNat 8 (str.getD i ' ').toNat = 0 from fun h => by
        have := congrArg BitVec.toNat h
        rw [hv] at this
        simp at this
        omega), if_neg (show ¬ k = 0 by omega), hv, Char.ofNat_toNat]
      by_cases h0 : a 40 = 0
      · rw [if_pos h0, if_pos h0, Option.map_some, List.drop_eq_getElem_cons hi]
      · rw [if_neg h0, if_neg h0]; rfl

/-- **C108.**  What a program compiled with `USE_SHA` prints between the quotes of the first cell: the digest if the memory of
the argument of `set_param` had a 0 in the place of the last character, and otherwise it reads behind the array. -/
theorem shaCell_eq (sha : List Char → Digest) (p : (ZMod 2)[X]) (mem1 mem2 old : Sha1) :
    shaCell mem1 mem2 old (polySha1 sha p) = if mem2 40 = 0 then some (polySha1 sha p) else none := by
  unfold shaCell
  have hl := digestText_length (sha (shaText p))
  have hc : ∀ c ∈ digestText (sha (shaText p)), 0 < c.toNat ∧ c.toNat < 128 := by
    intro c hc
    have := digestText_chars _ c hc
    revert c
    intro c _ h
    rw [show "0123456789abcdef".toList = ['0', '1', '2', '3', '4', '5', '6', '7', '8', '9', 'a', 'b', 'c', 'd', 'e', 'f'] from rfl] at h
    simp only [List.mem_cons, List.not_mem_nil, or_false] at h
    rcases h with rfl | rfl | rfl | rfl | rfl | rfl | rfl | rfl | rfl | rfl | rfl | rfl | rfl | rfl | rfl | rfl <;> decide
  rw [show polySha1 sha p = digestText (sha (shaText p)) from rfl]
  rw [readChars_text hl hc _ 41 0 rfl, if_neg (by decide), List.drop_zero]
  · rfl
  · intro j hj
    show (if j.val < 40 then _ else _) = _
    rw [if_pos hj]
    show (if j.val = 40 then _ else _) = _
    rw [if_neg (by omega), setLoop_get, if_pos ⟨by omega, by omega, by rw [hl]; exact hj⟩]

/-- **C108 is false of the program as written.**  With `USE_SHA` the first cell need not be the digest: the copy constructor
leaves out the end of the string. -/
theorem shaCell_unended (sha : List Char → Digest) (p : (ZMod 2)[X]) (mem1 old : Sha1) :
    ∃ mem2, shaCell mem1 mem2 old (polySha1 sha p) = none :=
  ⟨fun _ => 1, by rw [shaCell_eq, if_neg (by decide)]⟩

/-! ## Examples -/

theorem sample_ne : (X ^ 33 + X : (ZMod 2)[X]) ≠ 0 := by
  intro h
  have := congrArg (fun p => coeff p 1) h
  simp [coeff_X_pow, coeff_X] at this

/-- `x^33 + x`: one row of 32 and two coefficients more. -/
example : ∃ r last : List Char, r.length = 32 ∧ last.length = 2 ∧
    printBinary (X ^ 33 + X : (ZMod 2)[X]) true = r ++ ['\n'] ++ last ++ "deg=33\n".toList := by
  have hd : (X ^ 33 + X : (ZMod 2)[X]).natDegree = 33 := by compute_degree!
  obtain ⟨rows, last, h1, h2, h3, h4⟩ := printBinary_rows sample_ne
  have hl := congrArg List.length h2
  unfold bits at hl
  rw [hd] at hl
  rw [List.length_append, List.length_map, List.length_range, List.length_flatten] at hl
  rw [List.map_congr_left h3] at hl
  rw [List.map_const', List.sum_replicate] at hl
  have hr : rows.length = 1 := by
    simp at hl
    omega
  obtain ⟨r, rfl⟩ := List.length_eq_one_iff.1 hr
  refine ⟨r, last, h3 r (by simp), by simp at hl; omega, ?_⟩
  rw [h1, hd]
  simp
  decide

example : printBinary (1 : (ZMod 2)[X]) true = "1deg=0\n".toList := by
  have h : (1 : (ZMod 2)[X]) ≠ 0 := one_ne_zero
  unfold printBinary
  rw [if_neg (by rw [deg_ne h]; omega), deg_ne h, natDegree_one, decInt_text]
  simp [coeffLoop]
  rfl

end

end MTT.PolyText
