import Verif.Samples.OptionsProps

/-!
# C91: the numbers that `strtoull` reads with base 0, and the option `-v`
-/

namespace MTT.Options

open Text

/-- Specification: the value of an octal or hexadecimal digit. -/
def hexVal (c : Char) : ℕ := if c.toNat ≤ 57 then c.toNat - 48 else if 97 ≤ c.toNat then c.toNat - 87 else c.toNat - 55

def IsHex (c : Char) : Prop := ('0' ≤ c ∧ c ≤ '9') ∨ ('a' ≤ c ∧ c ≤ 'f') ∨ ('A' ≤ c ∧ c ≤ 'F')

def IsOct (c : Char) : Prop := '0' ≤ c ∧ c ≤ '7'

instance (c : Char) : Decidable (IsHex c) := by unfold IsHex; infer_instance
instance (c : Char) : Decidable (IsOct c) := by unfold IsOct; infer_instance

theorem digitVal_hex (c : Char) : digitVal 16 c = if IsHex c then some (hexVal c) else none := by
  unfold digitVal IsHex hexVal
  have h : ∀ a b : Char, a ≤ b ↔ a.toNat ≤ b.toNat := fun a b => Iff.rfl
  simp only [h]
  rw [show '0'.toNat = 48 from rfl, show '9'.toNat = 57 from rfl, show 'a'.toNat = 97 from rfl, show 'z'.toNat = 122 from rfl,
    show 'A'.toNat = 65 from rfl, show 'Z'.toNat = 90 from rfl, show 'f'.toNat = 102 from rfl, show 'F'.toNat = 70 from rfl]
  by_cases h1 : 48 ≤ c.toNat ∧ c.toNat ≤ 57
  · rw [if_pos h1, if_pos (by omega), if_pos (.inl h1), if_pos h1.2]
  · rw [if_neg h1]
    by_cases h2 : 97 ≤ c.toNat ∧ c.toNat ≤ 122
    · rw [if_pos h2]
      by_cases h3 : c.toNat ≤ 102
      · rw [if_pos (by omega), if_pos (by omega), if_neg (by omega), if_pos h2.1]
      · rw [if_neg (by omega), if_neg (by omega)]
    · rw [if_neg h2]
      by_cases h4 : 65 ≤ c.toNat ∧ c.toNat ≤ 90
      · rw [if_pos h4]
        by_cases h5 : c.toNat ≤ 70
        · rw [if_pos (by omega), if_pos (by omega), if_neg (by omega), if_neg (by omega)]
        · rw [if_neg (by omega), if_neg (by omega)]
      · rw [if_neg h4, if_neg (by omega), if_neg (by omega)]

theorem digitVal_oct (c : Char) : digitVal 8 c = if IsOct c then some (hexVal c) else none := by
  unfold digitVal IsOct hexVal
  have h : ∀ a b : Char, a ≤ b ↔ a.toNat ≤ b.toNat := fun a b => Iff.rfl
  simp only [h]
  rw [show '0'.toNat = 48 from rfl, show '9'.toNat = 57 from rfl, show 'a'.toNat = 97 from rfl, show 'z'.toNat = 122 from rfl,
    show 'A'.toNat = 65 from rfl, show 'Z'.toNat = 90 from rfl, show '7'.toNat = 55 from rfl]
  by_cases h1 : 48 ≤ c.toNat ∧ c.toNat ≤ 57
  · rw [if_pos h1]
    by_cases h2 : c.toNat ≤ 55
    · rw [if_pos (by omega), if_pos ⟨h1.1, h2⟩, if_pos (by omega)]
    · rw [if_neg (by omega), if_neg (by omega)]
  · rw [if_neg h1]
    split
    · rw [if_neg (by omega), if_neg (by omega)]
    · split
      · rw [if_neg (by omega), if_neg (by omega)]
      · rw [if_neg (by omega), if_neg (by omega)]

theorem readDigits_of {b : ℕ} {P : Char → Prop} [DecidablePred P] (hb : ∀ c, digitVal b c = if P c then some (hexVal c) else none)
    (ds rest : List Char) (hd : ∀ c ∈ ds, P c) (hr : ∀ c ∈ rest.head?, ¬ P c) (acc : ℕ) :
    (readDigits b (ds ++ rest) acc).1 = acc * b ^ ds.length + Nat.ofDigits b ((ds.map hexVal).reverse) := by
  induction ds generalizing acc with
  | nil =>
    cases rest with
    | nil => simp [readDigits]
    | cons c cs =>
      rw [List.nil_append, readDigits, hb, if_neg (hr c rfl)]
      simp
  | cons d ds ih =>
    rw [List.cons_append, readDigits, hb, if_pos (hd d (by simp))]
    dsimp only
    rw [ih (fun c hc => hd c (by simp [hc])), List.map_cons, List.reverse_cons, Nat.ofDigits_append, List.length_cons]
    simp only [List.length_reverse, List.length_map, Nat.ofDigits_singleton]
    ring

/-- The result of `strtoull` from the sign and the number. -/
def valueOf (sg : List Char) (v : ℕ) : BitVec 64 × Bool :=
  if v < 2 ^ 64 then (BitVec.ofInt 64 ((if sg = ['-'] then -1 else 1) * v), false) else (BitVec.allOnes 64, true)

theorem valueOf_eq (sg : List Char) (v : ℕ) :
    (if v < 2 ^ 64 then (if decide (sg = ['-']) = true then -BitVec.ofNat 64 v else BitVec.ofNat 64 v, false)
      else (BitVec.allOnes 64, true)) = valueOf sg v := by
  unfold valueOf
  by_cases hs : sg = ['-']
  · rw [if_pos (show decide (sg = ['-']) = true by simpa using hs), if_pos hs, neg_one_mul, BitVec.ofInt_neg, BitVec.ofInt_natCast]
  · rw [if_neg (show ¬ decide (sg = ['-']) = true by simpa using hs), if_neg hs, one_mul, BitVec.ofInt_natCast]

/-- **C91.**  A seed with the prefix `0x` is hexadecimal, in both cases of the letters. -/
theorem strtoull_hex {sp sg ds rest : List Char} {x : Char} (h1 : ∀ c ∈ sp, isSpace c = true)
    (h2 : sg = [] ∨ sg = ['+'] ∨ sg = ['-']) (hx : x = 'x' ∨ x = 'X') (h3 : ds ≠ []) (h4 : ∀ c ∈ ds, IsHex c)
    (h5 : ∀ c ∈ rest.head?, ¬ IsHex c) :
    strtoull (sp ++ (sg ++ ('0' :: x :: (ds ++ rest)))) = valueOf sg (Nat.ofDigits 16 ((ds.map hexVal).reverse)) := by
  obtain ⟨d, ds', rfl⟩ : ∃ d ds', ds = d :: ds' := List.exists_cons_of_ne_nil h3
  have hst : startsDigit 16 (d :: ds' ++ rest) = true := by
    rw [List.cons_append]; unfold startsDigit; dsimp only; rw [digitVal_hex, if_pos (h4 d (by simp))]; rfl
  unfold strtoull
  rw [signed_spec h1 h2 (t := '0' :: x :: (d :: ds' ++ rest)) (fun c hc => by
    rw [List.head?_cons, Option.mem_some_iff] at hc
    subst hc; exact digit_plain ⟨by decide, by decide⟩)]
  have hb : autoBase ('0' :: x :: (d :: ds' ++ rest)) = (16, d :: ds' ++ rest) := by
    show (if (x = 'x' ∨ x = 'X') ∧ startsDigit 16 (d :: ds' ++ rest) = true then _ else _) = _
    rw [if_pos ⟨hx, hst⟩]
  dsimp only
  rw [hb]
  dsimp only
  rw [if_pos hst, readDigits_of digitVal_hex _ _ h4 h5, Nat.zero_mul, Nat.zero_add]
  exact valueOf_eq sg _

/-- **C91.**  A seed that begins with 0, without that prefix, is octal: `-s 010` is the seed 8 and `-s 09` the seed 0. -/
theorem strtoull_octal {sp sg ds rest : List Char} (h1 : ∀ c ∈ sp, isSpace c = true)
    (h2 : sg = [] ∨ sg = ['+'] ∨ sg = ['-']) (h4 : ∀ c ∈ ds, IsOct c) (h5 : ∀ c ∈ rest.head?, ¬ IsOct c)
    (h6 : ds = [] → rest.head? ≠ some 'x' ∧ rest.head? ≠ some 'X') :
    strtoull (sp ++ (sg ++ ('0' :: (ds ++ rest)))) = valueOf sg (Nat.ofDigits 8 ((ds.map hexVal).reverse)) := by
  have h0 : IsOct '0' := by decide
  unfold strtoull
  rw [signed_spec h1 h2 (t := '0' :: (ds ++ rest)) (fun c hc => by
    rw [List.head?_cons, Option.mem_some_iff] at hc
    subst hc; exact digit_plain ⟨by decide, by decide⟩)]
  have hb : autoBase ('0' :: (ds ++ rest)) = (8, '0' :: (ds ++ rest)) := by
    cases hds : ds ++ rest with
    | nil => rfl
    | cons y ys =>
      have hy : ¬ (y = 'x' ∨ y = 'X') := by
        cases ds with
        | nil =>
          rw [List.nil_append] at hds
          have := h6 rfl
          rw [hds] at this
          rintro (rfl | rfl)
          · exact this.1 rfl
          · exact this.2 rfl
        | cons z zs =>
          rw [List.cons_append] at hds
          injection hds with e _
          have hz := h4 z (by simp)
          rw [e] at hz
          rintro (rfl | rfl) <;> exact absurd hz (by decide)
      show (if (y = 'x' ∨ y = 'X') ∧ startsDigit 16 ys = true then _ else _) = _
      rw [if_neg (fun h => hy h.1)]
  dsimp only
  rw [hb]
  dsimp only
  rw [if_pos (by unfold startsDigit; dsimp only; rw [digitVal_oct, if_pos h0]; rfl), ← List.cons_append,
    readDigits_of digitVal_oct ('0' :: ds) rest (fun c hc => by
      rcases List.mem_cons.1 hc with rfl | hc
      · exact h0
      · exact h4 c hc) h5, Nat.zero_mul, Nat.zero_add, List.map_cons, List.reverse_cons, Nat.ofDigits_append,
    show hexVal '0' = 0 from rfl]
  simp only [Nat.ofDigits_singleton, Nat.mul_zero, Nat.add_zero]
  exact valueOf_eq sg _

/-- **C91.**  A text without a digit behind the sign is the seed 0, without an error. -/
theorem strtoull_none {sp sg rest : List Char} (h1 : ∀ c ∈ sp, isSpace c = true) (h2 : sg = [] ∨ sg = ['+'] ∨ sg = ['-'])
    (h3 : ∀ c ∈ rest.head?, isSpace c = false ∧ c ≠ '-' ∧ c ≠ '+') (h5 : ∀ c ∈ rest.head?, ¬ ('0' ≤ c ∧ c ≤ '9')) :
    strtoull (sp ++ (sg ++ rest)) = (0, false) := by
  unfold strtoull
  rw [signed_spec h1 h2 h3]
  cases rest with
  | nil => rfl
  | cons c cs =>
    have hc := h5 c rfl
    have hb : autoBase (c :: cs) = (10, c :: cs) := by
      unfold autoBase
      split
      · rename_i h; injection h with h; exact absurd (by rw [h]; decide) hc
      · rename_i h; injection h with h; exact absurd (by rw [h]; decide) hc
      · rfl
    dsimp only
    rw [hb]
    dsimp only
    rw [if_neg (by unfold startsDigit; dsimp only; rw [digitVal_ten, if_neg hc]; decide)]

example : strtoull "0xfF,".toList = valueOf [] 255 ∧ strtoull "-017".toList = valueOf ['-'] 15 ∧
    strtoull "09".toList = (0, false) ∧ strtoull "abc".toList = (0, false) := by decide

/-! ### `-v` -/

def verboseVal : Ev → Option Bool
  | .verbose => some true
  | _ => none

theorem lastOf_verbose (evs : List Ev) : lastOf verboseVal evs false = evs.any fun e => (verboseVal e).isSome := by
  have key : ∀ d, lastOf verboseVal evs d = (d || evs.any fun e => (verboseVal e).isSome) := by
    induction evs with
    | nil => intro d; simp [lastOf]
    | cons e evs ih =>
      intro d
      rw [lastOf_cons, ih, List.any_cons]
      cases e <;> simp [verboseVal]
  rw [key, Bool.false_or]

/-- **C91.**  The messages of `-v` are written exactly if the option is given. -/
theorem field_verbose (seed : BitVec 64) (max start limit : BitVec 32) (evs : List Ev) :
    ((∀ e ∈ evs, fineSeed e) → ((readOpts stepSeed (init seed max start) evs).verbose = true ↔ Ev.verbose ∈ evs)) ∧
    ((∀ e ∈ evs, fineFixed e) → ((readOpts stepFixed (init seed max start) evs).verbose = true ↔ Ev.verbose ∈ evs)) ∧
    ((∀ e ∈ evs, fineMt2 e) → ((readOpts stepMt2 (init seed max start) evs).verbose = true ↔ Ev.verbose ∈ evs)) ∧
    ((∀ e ∈ evs, fineMtgp e) → ((readOpts stepMtgp (init seed max start) evs).verbose = true ↔ Ev.verbose ∈ evs)) ∧
    ((∀ e ∈ evs, fineTiny limit e) →
      ((readOpts (stepTiny limit) (init seed max start) evs).verbose = true ↔ Ev.verbose ∈ evs)) := by
  have hl : lastOf verboseVal evs false = true ↔ Ev.verbose ∈ evs := by
    rw [lastOf_verbose, List.any_eq_true]
    constructor
    · rintro ⟨e, he, hv⟩
      cases e <;> first | exact he | cases hv
    · exact fun h => ⟨_, h, rfl⟩
  rw [← hl]
  refine ⟨fun h => ?_, fun h => ?_, fun h => ?_, fun h => ?_, fun h => ?_⟩
  · rw [readOpts_field known_seed (·.verbose) verboseVal (by rintro o (_ | a | a | a | a | _ | a | a | _) _ <;> rfl) h rfl rfl]; exact Iff.rfl
  · rw [readOpts_field known_fixed (·.verbose) verboseVal (by rintro o (_ | a | a | a | (_ | a) | _ | a | a | _) _ <;> rfl) h rfl rfl]; exact Iff.rfl
  · rw [readOpts_field known_mt2 (·.verbose) verboseVal (by rintro o (_ | a | a | a | a | _ | a | a | _) _ <;> rfl) h rfl rfl]; exact Iff.rfl
  · rw [readOpts_field known_mtgp (·.verbose) verboseVal (by rintro o (_ | a | a | a | a | _ | a | a | _) _ <;> rfl) h rfl rfl]; exact Iff.rfl
  · rw [readOpts_field (known_tiny limit) (·.verbose) verboseVal
      (by rintro o (_ | a | a | a | a | _ | a | a | _) _ <;> rfl) h rfl rfl]; exact Iff.rfl

-- The conditions can be met, with and without the option.
example : (∀ e ∈ [Ev.count ['3'], .verbose], fineSeed e) ∧ (∀ e ∈ [Ev.file ['x']], fineSeed e) := by
  constructor
  · intro e he
    rcases List.mem_cons.1 he with rfl | he
    · exact strtol_ok.1 (by decide)
    · rw [List.mem_singleton.1 he]; trivial
  · intro e he
    rw [List.mem_singleton.1 he]; trivial

end MTT.Options
