import Verif.Samples.Options
import Mathlib.Data.Nat.Digits.Defs
import Mathlib.Tactic.Ring
import Mathlib.Tactic.Linarith

/-!
# C91: what the option parsers accept
-/

namespace MTT.Options

open Text

/-! ### Decimal numbers in front of a text -/

/-- Specification: the text begins with an optionally signed decimal number (behind white space), and its value is `z`. -/
def IsNumeral (s : List Char) (z : ℤ) : Prop :=
  ∃ sp sg ds rest : List Char, s = sp ++ (sg ++ (ds ++ rest)) ∧ (∀ c ∈ sp, isSpace c = true) ∧
    (sg = [] ∨ sg = ['+'] ∨ sg = ['-']) ∧ ds ≠ [] ∧ (∀ c ∈ ds, '0' ≤ c ∧ c ≤ '9') ∧
    (∀ c ∈ rest.head?, ¬ ('0' ≤ c ∧ c ≤ '9')) ∧
    z = (if sg = ['-'] then -1 else 1) * (Nat.ofDigits 10 ((ds.map fun c => c.toNat - 48).reverse) : ℕ)

theorem digitVal_ten (c : Char) : digitVal 10 c = if '0' ≤ c ∧ c ≤ '9' then some (c.toNat - 48) else none := by
  unfold digitVal
  have h : ∀ a b : Char, a ≤ b ↔ a.toNat ≤ b.toNat := fun a b => Iff.rfl
  simp only [h]
  have e0 : '0'.toNat = 48 := rfl
  have e9 : '9'.toNat = 57 := rfl
  have ea : 'a'.toNat = 97 := rfl
  have ez : 'z'.toNat = 122 := rfl
  have eA : 'A'.toNat = 65 := rfl
  have eZ : 'Z'.toNat = 90 := rfl
  rw [e0, e9, ea, ez, eA, eZ]
  split
  · rw [if_pos (by omega)]
  · split
    · rw [if_neg (by omega)]
    · split
      · rw [if_neg (by omega)]
      · rw [if_neg (by omega)]

theorem digit_plain {c : Char} (h : '0' ≤ c ∧ c ≤ '9') : isSpace c = false ∧ c ≠ '-' ∧ c ≠ '+' := by
  have h : 48 ≤ c.toNat ∧ c.toNat ≤ 57 := h
  have key : ∀ d : Char, ¬ (48 ≤ d.toNat ∧ d.toNat ≤ 57) → c ≠ d := fun d hd e => hd (e ▸ h)
  refine ⟨?_, key _ (by decide), key _ (by decide)⟩
  unfold isSpace
  simp only [Bool.or_eq_false_iff, beq_eq_false_iff_ne]
  exact ⟨⟨⟨⟨⟨key _ (by decide), key _ (by decide)⟩, key _ (by decide)⟩, key _ (by decide)⟩, key _ (by decide)⟩, key _ (by decide)⟩

theorem readDigits_ten (ds rest : List Char) (hd : ∀ c ∈ ds, '0' ≤ c ∧ c ≤ '9') (hr : ∀ c ∈ rest.head?, ¬ ('0' ≤ c ∧ c ≤ '9'))
    (acc : ℕ) : (readDigits 10 (ds ++ rest) acc).1 = acc * 10 ^ ds.length + Nat.ofDigits 10 ((ds.map fun c => c.toNat - 48).reverse) := by
  induction ds generalizing acc with
  | nil =>
    cases rest with
    | nil => simp [readDigits]
    | cons c cs =>
      rw [List.nil_append, readDigits, digitVal_ten, if_neg (hr c rfl)]
      simp
  | cons d ds ih =>
    rw [List.cons_append, readDigits, digitVal_ten, if_pos (hd d (by simp))]
    dsimp only
    rw [ih (fun c hc => hd c (by simp [hc])), List.map_cons, List.reverse_cons, Nat.ofDigits_append, List.length_cons]
    simp only [List.length_reverse, List.length_map, Nat.ofDigits_singleton]
    ring

theorem signed_spec {sp sg t : List Char} (h1 : ∀ c ∈ sp, isSpace c = true) (h2 : sg = [] ∨ sg = ['+'] ∨ sg = ['-'])
    (h3 : ∀ c ∈ t.head?, isSpace c = false ∧ c ≠ '-' ∧ c ≠ '+') : signed (sp ++ (sg ++ t)) = (decide (sg = ['-']), t) := by
  have e1 : (sp ++ (sg ++ t)).dropWhile isSpace = sg ++ t := by
    rw [List.dropWhile_append_of_pos h1]
    rcases h2 with rfl | rfl | rfl
    · cases t with
      | nil => rfl
      | cons c cs => exact List.dropWhile_cons_of_neg (by simp [(h3 c rfl).1])
    · exact List.dropWhile_cons_of_neg (by decide)
    · exact List.dropWhile_cons_of_neg (by decide)
  unfold signed
  dsimp only
  rw [e1]
  rcases h2 with rfl | rfl | rfl
  · cases t with
    | nil => rfl
    | cons c cs => simp [h3 c rfl]
  · simp
  · simp

/-- The number that `strtol` delivers for a text that begins with a number: the value, or the nearest limit and `ERANGE`. -/
theorem strtol_numeral {s : List Char} {z : ℤ} (h : IsNumeral s z) :
    strtol s = if z < -2 ^ 63 then (-2 ^ 63, true) else if 2 ^ 63 ≤ z then (2 ^ 63 - 1, true) else (z, false) := by
  obtain ⟨sp, sg, ds, rest, rfl, h1, h2, h3, h4, h5, rfl⟩ := h
  obtain ⟨d, ds', rfl⟩ : ∃ d ds', ds = d :: ds' := List.exists_cons_of_ne_nil h3
  have hd := h4 d (by simp)
  unfold strtol
  rw [signed_spec h1 h2 (t := d :: ds' ++ rest) (fun c hc => by
    rw [List.cons_append, List.head?_cons, Option.mem_some_iff] at hc
    subst hc; exact digit_plain hd)]
  dsimp only
  rw [if_pos (by rw [List.cons_append]; unfold startsDigit; dsimp only; rw [digitVal_ten, if_pos hd]; rfl), readDigits_ten _ _ h4 h5,
    Nat.zero_mul, Nat.zero_add]
  generalize Nat.ofDigits 10 (((d :: ds').map fun c => c.toNat - 48).reverse) = v
  by_cases hs : sg = ['-']
  · rw [if_pos hs, neg_one_mul, if_pos (show decide (sg = ['-']) = true by simpa using hs)]
  · rw [if_neg hs, one_mul, if_neg (show ¬ decide (sg = ['-']) = true by simpa using hs)]

theorem mem_takeWhile {p : Char → Bool} {s : List Char} {c : Char} (h : c ∈ s.takeWhile p) : p c = true :=
  List.all_eq_true.1 (List.all_takeWhile (l := s) (p := p)) c h

theorem exists_numeral {s : List Char} (h : startsDigit 10 (signed s).2 = true) : ∃ z, IsNumeral s z := by
  obtain ⟨sp, t, e, hsp, ht⟩ : ∃ sp t, s = sp ++ t ∧ (∀ c ∈ sp, isSpace c = true) ∧ t = s.dropWhile isSpace :=
    ⟨s.takeWhile isSpace, s.dropWhile isSpace, (List.takeWhile_append_dropWhile).symm,
      fun c hc => mem_takeWhile hc, rfl⟩
  obtain ⟨sg, u, e2, hsg, hu⟩ : ∃ sg u, t = sg ++ u ∧ (sg = [] ∨ sg = ['+'] ∨ sg = ['-']) ∧ u = (signed s).2 := by
    unfold signed
    dsimp only
    rw [← ht]
    cases t with
    | nil => exact ⟨[], [], rfl, Or.inl rfl, by simp⟩
    | cons c cs =>
      by_cases h1 : c = '-'
      · subst h1; exact ⟨['-'], cs, rfl, by simp, by simp⟩
      · by_cases h2 : c = '+'
        · subst h2; exact ⟨['+'], cs, rfl, by simp, by simp⟩
        · exact ⟨[], c :: cs, rfl, by simp, by simp [h1, h2]⟩
  rw [← hu] at h
  let p : Char → Bool := fun c => decide ('0' ≤ c ∧ c ≤ '9')
  refine ⟨_, sp, sg, u.takeWhile p, u.dropWhile p, by rw [List.takeWhile_append_dropWhile, ← e2, ← e], hsp, hsg, ?_,
    fun c hc => by simpa [p] using mem_takeWhile hc, ?_, rfl⟩
  · cases u with
    | nil => cases h
    | cons c cs =>
      unfold startsDigit at h
      dsimp only at h
      rw [digitVal_ten] at h
      have hc : '0' ≤ c ∧ c ≤ '9' := by
        by_contra hc; rw [if_neg hc] at h; cases h
      rw [List.takeWhile_cons_of_pos (by simpa [p] using hc)]
      simp
  · intro c hc
    have := List.head?_dropWhile_not p u
    rw [Option.mem_def] at hc
    rw [hc] at this
    simpa [p] using this

/-- Without a number `strtol` delivers 0. -/
theorem strtol_none {s : List Char} (h : ¬ ∃ z, IsNumeral s z) : strtol s = (0, false) := by
  have h1 : ¬ startsDigit 10 (signed s).2 = true := fun hc => h (exists_numeral hc)
  unfold strtol
  generalize hs : signed s = r at h1 ⊢
  obtain ⟨neg, t⟩ := r
  dsimp only at h1 ⊢
  rw [if_neg h1]

theorem numeral_unique {s : List Char} {y z : ℤ} (hy : IsNumeral s y) (hz : IsNumeral s z) (h1 : -2 ^ 63 ≤ y) (h2 : y < 2 ^ 63) :
    y = z := by
  have e := (strtol_numeral hy).symm.trans (strtol_numeral hz)
  rw [if_neg (by omega), if_neg (by omega)] at e
  split at e
  · exact absurd (congrArg Prod.snd e) (by simp)
  · split at e
    · exact absurd (congrArg Prod.snd e) (by simp)
    · exact congrArg Prod.fst e

/-- Specification: what a text is taken for: the number it begins with, or 0 if it does not begin with a number. -/
def Reads (s : List Char) (z : ℤ) : Prop := IsNumeral s z ∨ (¬ ∃ y, IsNumeral s y) ∧ z = 0

/-- `strtol` delivers `z` without error exactly if the text reads as `z` and `z` is in range. -/
theorem strtol_iff {s : List Char} {z : ℤ} : strtol s = (z, false) ↔ Reads s z ∧ -2 ^ 63 ≤ z ∧ z < 2 ^ 63 := by
  constructor
  · intro h
    by_cases hn : ∃ z, IsNumeral s z
    · obtain ⟨y, hy⟩ := hn
      have e := strtol_numeral hy
      rw [h] at e
      split at e
      · exact absurd (congrArg Prod.snd e) (by simp)
      · split at e
        · exact absurd (congrArg Prod.snd e) (by simp)
        · rename_i h1 h2
          have e1 : z = y := congrArg Prod.fst e
          subst e1
          exact ⟨Or.inl hy, by omega, by omega⟩
    · rw [strtol_none hn] at h
      have e1 : 0 = z := congrArg Prod.fst h
      exact ⟨Or.inr ⟨hn, e1.symm⟩, by omega, by omega⟩
  · rintro ⟨h1 | ⟨h1, rfl⟩, h2, h3⟩
    · rw [strtol_numeral h1, if_neg (by omega), if_neg (by omega)]
    · exact strtol_none h1

/-- A number in front of the text that fits into 64 bits, or none. -/
def InRange (s : List Char) : Prop := ∃ z, Reads s z ∧ -2 ^ 63 ≤ z ∧ z < 2 ^ 63

theorem strtol_ok {s : List Char} : (strtol s).2 = false ↔ InRange s := by
  constructor
  · intro h
    exact ⟨(strtol s).1, strtol_iff.1 (Prod.ext rfl h)⟩
  · rintro ⟨z, hz⟩
    rw [strtol_iff.2 hz]

example : IsNumeral " 607abc".toList 607 ∧ IsNumeral "-5".toList (-5) :=
  ⟨⟨[' '], [], ['6', '0', '7'], ['a', 'b', 'c'], by decide, by decide, by decide, by decide, by decide, by decide, by decide⟩,
    ⟨[], ['-'], ['5'], [], by decide, by decide, by decide, by decide, by decide, by decide, by decide⟩⟩

/-- `strtoull` of a decimal number that does not begin with 0: the value modulo `2^64` (also of a negative number), or the largest value and `ERANGE`. -/
theorem strtoull_decimal {sp sg ds rest : List Char} (h1 : ∀ c ∈ sp, isSpace c = true) (h2 : sg = [] ∨ sg = ['+'] ∨ sg = ['-'])
    (h3 : ds ≠ []) (h0 : ds.head? ≠ some '0') (h4 : ∀ c ∈ ds, '0' ≤ c ∧ c ≤ '9') (h5 : ∀ c ∈ rest.head?, ¬ ('0' ≤ c ∧ c ≤ '9')) {v : ℕ}
    (hv : v = Nat.ofDigits 10 ((ds.map fun c => c.toNat - 48).reverse)) :
    strtoull (sp ++ (sg ++ (ds ++ rest))) =
      if v < 2 ^ 64 then (BitVec.ofInt 64 ((if sg = ['-'] then -1 else 1) * v), false) else (BitVec.allOnes 64, true) := by
  obtain ⟨d, ds', rfl⟩ : ∃ d ds', ds = d :: ds' := List.exists_cons_of_ne_nil h3
  have hd := h4 d (by simp)
  have hd0 : d ≠ '0' := fun h => h0 (by rw [h]; rfl)
  unfold strtoull
  rw [signed_spec h1 h2 (t := d :: ds' ++ rest) (fun c hc => by
    rw [List.cons_append, List.head?_cons, Option.mem_some_iff] at hc
    subst hc; exact digit_plain hd)]
  have hb : autoBase (d :: ds' ++ rest) = (10, d :: ds' ++ rest) := by
    rw [List.cons_append]
    unfold autoBase
    split
    · rename_i h; injection h with h; exact absurd h hd0
    · rename_i h; injection h with h; exact absurd h hd0
    · rfl
  dsimp only
  rw [hb]
  dsimp only
  rw [if_pos (by rw [List.cons_append]; unfold startsDigit; dsimp only; rw [digitVal_ten, if_pos hd]; rfl), readDigits_ten _ _ h4 h5,
    Nat.zero_mul, Nat.zero_add, ← hv]
  by_cases hs : sg = ['-']
  · rw [if_pos (show decide (sg = ['-']) = true by simpa using hs), if_pos hs, neg_one_mul, BitVec.ofInt_neg, BitVec.ofInt_natCast]
  · rw [if_neg (show ¬ decide (sg = ['-']) = true by simpa using hs), if_neg hs, one_mul, BitVec.ofInt_natCast]

example : strtoull " -5x".toList = (BitVec.ofInt 64 (-5), false) ∧ strtoull "0x1F".toList = (31, false) ∧
    strtoull "010".toList = (8, false) := by decide

/-! ### The options -/

/-- The last argument of the options that `f` selects, or the default. -/
def lastOf {α : Type} (f : Ev → Option α) (evs : List Ev) (d : α) : α := (evs.filterMap f).getLast?.getD d

theorem lastOf_cons {α : Type} (f : Ev → Option α) (e : Ev) (evs : List Ev) (d : α) :
    lastOf f (e :: evs) d = lastOf f evs ((f e).getD d) := by
  unfold lastOf
  rw [List.filterMap_cons]
  cases f e with
  | none => rfl
  | some a =>
    dsimp only
    rw [List.getLast?_cons, Option.getD_some, Option.getD_some]

/-- What a program does with its options: the options it knows, the conditions on their arguments. -/
structure Known (step : Opts → Ev → Opts) (fine : Ev → Prop) : Prop where
  good : ∀ o e, o.error = false → o.errno = false → fine e → (step o e).error = false ∧ (step o e).errno = false
  bad : ∀ o e, o.error = false → o.errno = false → ¬ fine e → (step o e).error = true

theorem readOpts_stuck {step : Opts → Ev → Opts} {o : Opts} (h : o.error = true) (evs : List Ev) : readOpts step o evs = o := by
  induction evs with
  | nil => rfl
  | cons e evs ih =>
    unfold readOpts at ih ⊢
    rw [List.foldl_cons, if_pos h]
    exact ih

theorem readOpts_cons {step : Opts → Ev → Opts} {o : Opts} (h : o.error = false) (e : Ev) (evs : List Ev) :
    readOpts step o (e :: evs) = readOpts step (step o e) evs := by
  unfold readOpts
  rw [List.foldl_cons, if_neg (by rw [h]; decide)]

theorem readOpts_good {step : Opts → Ev → Opts} {fine : Ev → Prop} (K : Known step fine) {evs : List Ev} (hf : ∀ e ∈ evs, fine e) :
    ∀ {o : Opts}, o.error = false → o.errno = false →
      (readOpts step o evs).error = false ∧ (readOpts step o evs).errno = false := by
  induction evs with
  | nil => exact fun h1 h2 => ⟨h1, h2⟩
  | cons e evs ih =>
    intro o h1 h2
    rw [readOpts_cons h1]
    obtain ⟨g1, g2⟩ := K.good o e h1 h2 (hf e (by simp))
    exact ih (fun x hx => hf x (by simp [hx])) g1 g2

theorem readOpts_bad {step : Opts → Ev → Opts} {fine : Ev → Prop} (K : Known step fine) {evs : List Ev} (hf : ¬ ∀ e ∈ evs, fine e) :
    ∀ {o : Opts}, o.error = false → o.errno = false → (readOpts step o evs).error = true := by
  induction evs with
  | nil => exact absurd (fun e he => absurd he (by simp)) hf
  | cons e evs ih =>
    intro o h1 h2
    rw [readOpts_cons h1]
    by_cases he : fine e
    · obtain ⟨g1, g2⟩ := K.good o e h1 h2 he
      exact ih (fun h => hf fun x hx => by rcases List.mem_cons.1 hx with rfl | hx; exacts [he, h x hx]) g1 g2
    · have := K.bad o e h1 h2 he
      rw [readOpts_stuck this]
      exact this

/-- A member of the options is what the last option that sets it says. -/
theorem readOpts_field {step : Opts → Ev → Opts} {fine : Ev → Prop} (K : Known step fine) {α : Type} (π : Opts → α) (f : Ev → Option α)
    (hπ : ∀ o e, fine e → π (step o e) = (f e).getD (π o)) {evs : List Ev} (hf : ∀ e ∈ evs, fine e) :
    ∀ {o : Opts}, o.error = false → o.errno = false → π (readOpts step o evs) = lastOf f evs (π o) := by
  induction evs with
  | nil => exact fun _ _ => rfl
  | cons e evs ih =>
    intro o h1 h2
    rw [readOpts_cons h1, lastOf_cons, ← hπ o e (hf e (by simp))]
    obtain ⟨g1, g2⟩ := K.good o e h1 h2 (hf e (by simp))
    exact ih (fun x hx => hf x (by simp [hx])) g1 g2

/-! ### The options of the programs -/

/-- The options of sfmtdc, sfmtdcfixed and rmt64dc. -/
def fineSeed : Ev → Prop
  | .verbose => True
  | .seed a => (strtoull a).2 = false
  | .file _ => True
  | .count a => InRange a
  | _ => False

/-- The options of dSFMTdc. -/
def fineFixed : Ev → Prop
  | .fixed (some a) => (strtoull a).2 = false
  | .fixed none => True
  | e => fineSeed e

/-- The options of mt2. -/
def fineMt2 : Ev → Prop
  | .verbose => True
  | .seed a => (strtoull a).2 = false
  | .max a => InRange a
  | .count a => InRange a
  | _ => False

/-- The options of MTGP32dc. -/
def fineMtgp : Ev → Prop
  | .verbose => True
  | .seed _ => True
  | .file _ => True
  | .count a => InRange a
  | _ => False

/-- The options of tinymt32dc. -/
def fineTiny (limit : BitVec 32) : Ev → Prop
  | .verbose => True
  | .all => True
  | .start a => (strtoull a).2 = false ∧ (strtoull a).1.setWidth 32 ≤ limit
  | .file _ => True
  | .max a => InRange a
  | .count a => InRange a
  | _ => False

theorem known_seed : Known stepSeed fineSeed := by
  constructor
  · rintro ⟨⟩ (_ | a | a | a | a | _ | a | a | _) h1 h2 hf <;>
      simp_all [stepSeed, fineSeed, number, ← strtol_ok]
  · rintro ⟨⟩ (_ | a | a | a | a | _ | a | a | _) h1 h2 hf <;>
      simp_all [stepSeed, fineSeed, number, ← strtol_ok]

theorem known_fixed : Known stepFixed fineFixed := by
  constructor
  · rintro ⟨⟩ (_ | a | a | a | (_ | a) | _ | a | a | _) h1 h2 hf <;>
      simp_all [stepFixed, fineFixed, stepSeed, fineSeed, number, ← strtol_ok]
  · rintro ⟨⟩ (_ | a | a | a | (_ | a) | _ | a | a | _) h1 h2 hf <;>
      simp_all [stepFixed, fineFixed, stepSeed, fineSeed, number, ← strtol_ok]

theorem known_mt2 : Known stepMt2 fineMt2 := by
  constructor
  · rintro ⟨⟩ (_ | a | a | a | a | _ | a | a | _) h1 h2 hf <;>
      simp_all [stepMt2, fineMt2, number, ← strtol_ok]
  · rintro ⟨⟩ (_ | a | a | a | a | _ | a | a | _) h1 h2 hf <;>
      simp_all [stepMt2, fineMt2, number, ← strtol_ok]

theorem known_mtgp : Known stepMtgp fineMtgp := by
  constructor
  · rintro ⟨⟩ (_ | a | a | a | a | _ | a | a | _) h1 h2 hf <;>
      simp_all [stepMtgp, fineMtgp, number, ← strtol_ok]
  · rintro ⟨⟩ (_ | a | a | a | a | _ | a | a | _) h1 h2 hf <;>
      simp_all [stepMtgp, fineMtgp, number, ← strtol_ok]

theorem known_tiny (limit : BitVec 32) : Known (stepTiny limit) (fineTiny limit) := by
  constructor
  · rintro ⟨⟩ (_ | a | a | a | a | _ | a | a | _) h1 h2 hf <;>
      simp_all [stepTiny, fineTiny, number, ← strtol_ok]
  · rintro ⟨⟩ (_ | a | a | a | a | _ | a | a | _) h1 h2 hf <;>
      simp_all [stepTiny, fineTiny, number, ← strtol_ok]
    by_cases hh : (strtoull a).2 = false
    · right; exact hf hh
    · left; simpa using hh

/-! ### The parsers -/

theorem finish_iff {α : Type} {canOpen : List Char → Bool} {o o' : Opts} {x y : α} :
    finish canOpen o x = some (o', y) ↔ o.error = false ∧ (o.filename = [] ∨ canOpen o.filename = true) ∧ o' = o ∧ y = x := by
  unfold finish
  by_cases h1 : o.error = true
  · simp [h1]
  · rw [Bool.not_eq_true] at h1
    by_cases h2 : o.filename = []
    · rw [if_neg (by simp [h1, h2])]
      constructor
      · intro h
        injection h with h
        injection h with e1 e2
        exact ⟨h1, Or.inl h2, e1.symm, e2.symm⟩
      · rintro ⟨-, -, rfl, rfl⟩
        rfl
    · by_cases h3 : canOpen o.filename = true
      · rw [if_neg (by simp [h1, h3])]
        constructor
        · intro h
          injection h with h
          injection h with e1 e2
          exact ⟨h1, Or.inr h3, e1.symm, e2.symm⟩
        · rintro ⟨-, -, rfl, rfl⟩
          rfl
      · simp [h1, h2, h3]

theorem eta {o : Opts} (h1 : o.error = false) (h2 : o.errno = false) : o = { o with errno := false, error := false } := by
  cases o
  cases h1
  cases h2
  rfl

/-- **C91.**  What `parse_opt` of the programs with one operand (sfmtdc, sfmtdcfixed, dSFMTdc, rmt64dc) accepts: every option is known and its argument
is in range, the first operand begins with a number of the table, and the file named by `-f` can be opened. -/
theorem parseMexp_iff {step : Opts → Ev → Opts} {fine : Ev → Prop} (K : Known step fine) {allowed : List ℕ}
    (ha : ∀ k ∈ allowed, 0 < k ∧ k < 2 ^ 31) {clock : BitVec 64} {canOpen : List Char → Bool} {evs : List Ev}
    {operands : List (List Char)} {o : Opts} {m : ℤ} :
    parseMexp step allowed clock canOpen evs operands = some (o, m) ↔
      (∀ e ∈ evs, fine e) ∧ (∃ a rest, operands = a :: rest ∧ IsNumeral a m) ∧ (∃ k ∈ allowed, (k : ℤ) = m) ∧
        o = readOpts step (init clock 0 0) evs ∧ (o.filename = [] ∨ canOpen o.filename = true) := by
  unfold parseMexp
  by_cases hf : ∀ e ∈ evs, fine e
  · obtain ⟨g1, g2⟩ := readOpts_good K hf (o := init clock 0 0) rfl rfl
    generalize readOpts step (init clock 0 0) evs = r at g1 g2
    cases operands with
    | nil => simp
    | cons a rest =>
      dsimp only
      rw [finish_iff]
      unfold readMexp
      dsimp only
      rw [g1, g2, Bool.false_or, Bool.false_or, Bool.or_eq_false_iff, Bool.not_eq_false', List.any_eq_true]
      constructor
      · rintro ⟨⟨h1, k, hk, h2⟩, h3, rfl, rfl⟩
        have h2 := eq_of_beq h2
        have hs : strtol a = ((strtol a).1, false) := Prod.ext rfl h1
        obtain ⟨h4, h5, h6⟩ := strtol_iff.1 hs
        refine ⟨hf, ⟨a, rest, rfl, ?_⟩, ⟨k, hk, h2⟩, ?_, h3⟩
        · rcases h4 with h4 | ⟨-, h4⟩
          · exact h4
          · have := (ha k hk).1; omega
        · rw [h1, show (allowed.any fun x => (x : ℤ) == (strtol a).1) = true from List.any_eq_true.2 ⟨k, hk, beq_iff_eq.2 h2⟩]
          exact (eta g1 g2).symm
      · rintro ⟨-, ⟨a', rest', e, hn⟩, ⟨k, hk, rfl⟩, rfl, h3⟩
        injection e with e1 e2
        subst e1
        have := ha k hk
        have hs := strtol_iff.2 ⟨Or.inl hn, by omega, by omega⟩
        rw [hs]
        refine ⟨⟨rfl, k, hk, by simp⟩, h3, ?_, rfl⟩
        have hany : (allowed.any fun x => (x : ℤ) == (k : ℤ)) = true := List.any_eq_true.2 ⟨k, hk, by simp⟩
        rw [hany]
        exact eta g1 g2
  · have g := readOpts_bad K hf (o := init clock 0 0) rfl rfl
    constructor
    · intro h
      exfalso
      cases operands with
      | nil => cases h
      | cons a rest =>
        dsimp only at h
        rw [finish_iff] at h
        unfold readMexp at h
        dsimp only at h
        rw [g, Bool.true_or, Bool.true_or] at h
        exact absurd h.1 (by decide)
    · exact fun h => absurd h.1 hf

/-- **C91.**  The same for mt2: two operands, the exponent and an id between 0 and 65535 (or no number, which counts as 0). -/
theorem parseMt2_iff {allowed : List ℕ} (ha : ∀ k ∈ allowed, 0 < k ∧ k < 2 ^ 31) {junk : BitVec 32} {canOpen : List Char → Bool}
    {evs : List Ev} {operands : List (List Char)} {o : Opts} {m i : ℤ} :
    parseMt2 allowed junk canOpen evs operands = some (o, m, i) ↔
      (∀ e ∈ evs, fineMt2 e) ∧ (∃ a b rest, operands = a :: b :: rest ∧ IsNumeral a m ∧ Reads b i) ∧ (∃ k ∈ allowed, (k : ℤ) = m) ∧
        (0 ≤ i ∧ i ≤ 0xffff) ∧ o = readOpts stepMt2 (init (junk.setWidth 64) 0x7fffffff 0) evs ∧
        (o.filename = [] ∨ canOpen o.filename = true) := by
  unfold parseMt2
  by_cases hf : ∀ e ∈ evs, fineMt2 e
  · obtain ⟨g1, g2⟩ := readOpts_good known_mt2 hf (o := init (junk.setWidth 64) 0x7fffffff 0) rfl rfl
    generalize readOpts stepMt2 (init (junk.setWidth 64) 0x7fffffff 0) evs = r at g1 g2
    rcases operands with _ | ⟨a, _ | ⟨b, rest⟩⟩
    · simp
    · simp
    · dsimp only
      rw [finish_iff]
      unfold readMexp
      dsimp only
      rw [g1, g2, Bool.false_or, Bool.false_or, Bool.or_eq_false_iff, Bool.or_eq_false_iff, Bool.or_eq_false_iff,
        Bool.not_eq_false', List.any_eq_true]
      constructor
      · rintro ⟨⟨⟨⟨h1, k, hk, h2⟩, h7⟩, h8⟩, h3, rfl, e⟩
        have e1 := congrArg Prod.fst e
        have e2 := congrArg Prod.snd e
        dsimp only at e1 e2
        subst e1 e2
        have h2 := eq_of_beq h2
        rw [Bool.or_eq_false_iff] at h7
        have hs : strtol a = ((strtol a).1, false) := Prod.ext rfl h1
        have hs' : strtol b = ((strtol b).1, false) := Prod.ext rfl h7.2
        obtain ⟨h4, h5, h6⟩ := strtol_iff.1 hs
        refine ⟨hf, ⟨a, b, rest, rfl, ?_, (strtol_iff.1 hs').1⟩, ⟨k, hk, h2⟩, ?_, ?_, h3⟩
        · rcases h4 with h4 | ⟨-, h4⟩
          · exact h4
          · have := (ha k hk).1; omega
        · rw [decide_eq_false_iff_not] at h8; omega
        · rw [h1, h7.2, h8, show (allowed.any fun x => (x : ℤ) == (strtol a).1) = true from
            List.any_eq_true.2 ⟨k, hk, beq_iff_eq.2 h2⟩]
          exact (eta g1 g2).symm
      · rintro ⟨-, ⟨a', b', rest', e, hn, hb⟩, ⟨k, hk, rfl⟩, hi, rfl, h3⟩
        injection e with e1 e2
        injection e2 with e2 e3
        subst e1 e2
        have := ha k hk
        have hs := strtol_iff.2 ⟨Or.inl hn, by omega, by omega⟩
        have hs' := strtol_iff.2 ⟨hb, by omega, by omega⟩
        rw [hs, hs']
        have hd : decide (i < 0 ∨ i > 0xffff) = false := by rw [decide_eq_false_iff_not]; omega
        refine ⟨⟨⟨⟨rfl, k, hk, by simp⟩, rfl⟩, hd⟩, h3, ?_, rfl⟩
        have hany : (allowed.any fun x => (x : ℤ) == (k : ℤ)) = true := List.any_eq_true.2 ⟨k, hk, by simp⟩
        rw [hd, hany]
        exact eta g1 g2
  · have g := readOpts_bad known_mt2 hf (o := init (junk.setWidth 64) 0x7fffffff 0) rfl rfl
    constructor
    · intro h
      exfalso
      rcases operands with _ | ⟨a, _ | ⟨b, rest⟩⟩
      · cases h
      · cases h
      · dsimp only at h
        rw [finish_iff] at h
        unfold readMexp at h
        dsimp only at h
        simp only [g, Bool.true_or] at h
        exact absurd h.1 (by decide)
    · exact fun h => absurd h.1 hf

/-- **C91.**  The same for MTGP32dc: the exponent is compared modulo `2^32`, and of the id the low 32 bits are taken. -/
theorem parseMtgp_iff {allowed : List ℕ} (ha : ∀ k ∈ allowed, 0 < k ∧ k < 2 ^ 31) {canOpen : List Char → Bool}
    {evs : List Ev} {operands : List (List Char)} {o : Opts} {m i : BitVec 32} :
    parseMtgp allowed canOpen evs operands = some (o, m, i) ↔
      (∀ e ∈ evs, fineMtgp e) ∧ (∃ a b rest y z, operands = a :: b :: rest ∧ Reads a y ∧ (-2 ^ 63 ≤ y ∧ y < 2 ^ 63) ∧
          m = BitVec.ofInt 32 y ∧ Reads b z ∧ (-2 ^ 63 ≤ z ∧ z < 2 ^ 63) ∧ i = BitVec.ofInt 32 z) ∧ (m.toNat ∈ allowed) ∧
        o = readOpts stepMtgp (init 0 0 0) evs ∧ (o.filename = [] ∨ canOpen o.filename = true) := by
  have hmem : ∀ m : BitVec 32, (allowed.any fun k => (k : ℤ) == m.toInt) = true ↔ m.toNat ∈ allowed := by
    intro m
    rw [List.any_eq_true]
    constructor
    · rintro ⟨k, hk, h⟩
      have h := eq_of_beq h
      have := ha k hk
      have e : m.toNat = k := by rw [BitVec.toInt_eq_toNat_cond] at h; have := m.isLt; split at h <;> omega
      rw [e]; exact hk
    · intro h
      refine ⟨_, h, ?_⟩
      have := ha _ h
      rw [beq_iff_eq, BitVec.toInt_eq_toNat_cond, if_pos (by omega)]
  unfold parseMtgp
  by_cases hf : ∀ e ∈ evs, fineMtgp e
  · obtain ⟨g1, g2⟩ := readOpts_good known_mtgp hf (o := init 0 0 0) rfl rfl
    generalize readOpts stepMtgp (init 0 0 0) evs = r at g1 g2
    rcases operands with _ | ⟨a, _ | ⟨b, rest⟩⟩
    · simp
    · simp
    · dsimp only
      rw [finish_iff]
      dsimp only
      rw [g1, g2, Bool.false_or, Bool.false_or, Bool.or_eq_false_iff, Bool.or_eq_false_iff, Bool.or_eq_false_iff,
        Bool.not_eq_false', hmem]
      constructor
      · rintro ⟨⟨⟨h1, h2⟩, -, h7⟩, h3, rfl, e⟩
        have e1 := congrArg Prod.fst e
        have e2 := congrArg Prod.snd e
        dsimp only at e1 e2
        subst e1 e2
        have hs := strtol_iff.1 (show strtol a = ((strtol a).1, false) from Prod.ext rfl h1)
        have hs' := strtol_iff.1 (show strtol b = ((strtol b).1, false) from Prod.ext rfl h7)
        refine ⟨hf, ⟨a, b, rest, _, _, rfl, hs.1, hs.2, rfl, hs'.1, hs'.2, rfl⟩, h2, ?_, h3⟩
        rw [h1, h7, (hmem _).2 h2]
        cases r
        simp_all
      · rintro ⟨-, ⟨a', b', rest', y, z, e, hn, hy, rfl, hb, hz, rfl⟩, hk, rfl, h3⟩
        injection e with e1 e2
        injection e2 with e2 e3
        subst e1 e2
        have hs := strtol_iff.2 ⟨hn, hy.1, hy.2⟩
        have hs' := strtol_iff.2 ⟨hb, hz.1, hz.2⟩
        rw [hs, hs']
        refine ⟨⟨⟨rfl, hk⟩, rfl, rfl⟩, h3, ?_, rfl⟩
        rw [(hmem _).2 hk]
        cases o
        simp_all
  · have g := readOpts_bad known_mtgp hf (o := init 0 0 0) rfl rfl
    constructor
    · intro h
      exfalso
      rcases operands with _ | ⟨a, _ | ⟨b, rest⟩⟩
      · cases h
      · cases h
      · dsimp only at h
        rw [finish_iff] at h
        dsimp only at h
        simp only [g, Bool.true_or] at h
        exact absurd h.1 (by decide)
    · exact fun h => absurd h.1 hf

/-- **C91.**  The same for tinymt32dc: one operand, an id below `2^32` (or no number, which counts as 0). -/
theorem parseTiny_iff {limit : BitVec 32} {canOpen : List Char → Bool} {evs : List Ev} {operands : List (List Char)} {o : Opts}
    {i : BitVec 32} :
    parseTiny limit canOpen evs operands = some (o, i) ↔
      (∀ e ∈ evs, fineTiny limit e) ∧ (∃ b rest, operands = b :: rest ∧ Reads b i.toNat) ∧
        o = readOpts (stepTiny limit) (init 0 10 limit) evs ∧ (o.filename = [] ∨ canOpen o.filename = true) := by
  unfold parseTiny
  by_cases hf : ∀ e ∈ evs, fineTiny limit e
  · obtain ⟨g1, g2⟩ := readOpts_good (known_tiny limit) hf (o := init 0 10 limit) rfl rfl
    generalize readOpts (stepTiny limit) (init 0 10 limit) evs = r at g1 g2
    cases operands with
    | nil => simp
    | cons b rest =>
      dsimp only
      rw [finish_iff]
      dsimp only
      rw [g1, g2, Bool.false_or, Bool.false_or, Bool.or_eq_false_iff]
      constructor
      · rintro ⟨⟨h1, h8⟩, h3, rfl, rfl⟩
        have hs := strtol_iff.1 (show strtol b = ((strtol b).1, false) from Prod.ext rfl h1)
        have h9 := h8
        rw [decide_eq_false_iff_not] at h9
        refine ⟨hf, ⟨b, rest, rfl, ?_⟩, ?_, h3⟩
        · have : ((BitVec.ofInt 32 (strtol b).1).toNat : ℤ) = (strtol b).1 := by
            rw [BitVec.toNat_ofInt]; omega
          rw [this]; exact hs.1
        · rw [h1, h8]
          cases r
          simp_all
      · rintro ⟨-, ⟨b', rest', e, hb⟩, rfl, h3⟩
        injection e with e1 e2
        subst e1
        have hlt := i.isLt
        have hs' := strtol_iff.2 ⟨hb, by omega, by omega⟩
        rw [hs']
        have hd : decide ((i.toNat : ℤ) < 0 ∨ (i.toNat : ℤ) > 0xffffffff) = false := by rw [decide_eq_false_iff_not]; omega
        refine ⟨⟨rfl, hd⟩, h3, ?_, ?_⟩
        · rw [hd]
          cases o
          simp_all
        · rw [BitVec.ofInt_natCast, BitVec.ofNat_toNat, BitVec.setWidth_eq]
  · have g := readOpts_bad (known_tiny limit) hf (o := init 0 10 limit) rfl rfl
    constructor
    · intro h
      exfalso
      cases operands with
      | nil => cases h
      | cons b rest =>
        dsimp only at h
        rw [finish_iff] at h
        dsimp only at h
        simp only [g, Bool.true_or] at h
        exact absurd h.1 (by decide)
    · exact fun h => absurd h.1 hf

end MTT.Options
