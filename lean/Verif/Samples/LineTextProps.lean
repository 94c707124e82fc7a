import Verif.Samples.LineText

/-!
# C69: the parameter lines can be read back
-/

namespace MTT.Text

theorem digitVal_char : ∀ d < 16, (d < 10 → digitVal 10 (Nat.digitChar d) = some d) ∧
    digitVal 16 (Nat.digitChar d) = some d := by decide

theorem char_plain : ∀ d < 16, isSpace (Nat.digitChar d) = false ∧ Nat.digitChar d ≠ '-' ∧ Nat.digitChar d ≠ '+' ∧
    Nat.digitChar d ≠ 'x' ∧ Nat.digitChar d ≠ 'X' := by decide

/-- The two bases. -/
def Base (b : Nat) : Prop := b = 10 ∨ b = 16

theorem digitVal_base {b : Nat} (hb : Base b) {d : Nat} (hd : d < b) : digitVal b (Nat.digitChar d) = some d := by
  rcases hb with rfl | rfl
  · exact (digitVal_char d (by omega)).1 hd
  · exact (digitVal_char d hd).2

theorem digits_chars {b : Nat} (hb : Base b) (x : Nat) : ∀ c ∈ digits b x, ∃ d < b, c = Nat.digitChar d := by
  have hb2 : 2 ≤ b := by rcases hb with rfl | rfl <;> omega
  induction x using Nat.strongRecOn with
  | _ x ih =>
    intro c hc
    rw [digits] at hc
    split at hc
    · rename_i h
      rw [List.mem_singleton] at hc
      exact ⟨x, by omega, hc⟩
    · rename_i h
      rw [List.mem_append, List.mem_singleton] at hc
      rcases hc with hc | hc
      · exact ih _ (Nat.div_lt_self (by omega) (by omega)) c hc
      · exact ⟨x % b, Nat.mod_lt _ (by omega), hc⟩

theorem digits_ne (b x : Nat) : digits b x ≠ [] := by
  rw [digits]
  split <;> simp

theorem readDigits_digits {b : Nat} (hb : Base b) (x : Nat) (r : List Char) :
    readDigits b (digits b x ++ r) 0 = readDigits b r x := by
  have hb2 : 2 ≤ b := by rcases hb with rfl | rfl <;> omega
  induction x using Nat.strongRecOn generalizing r with
  | _ x ih =>
    rw [digits]
    split
    · rename_i h
      rw [List.singleton_append, readDigits, digitVal_base hb (by omega)]
      dsimp only
      rw [Nat.zero_mul, Nat.zero_add]
    · rename_i h
      rw [List.append_assoc, List.singleton_append, ih _ (Nat.div_lt_self (by omega) (by omega)), readDigits,
        digitVal_base hb (Nat.mod_lt _ (by omega))]
      dsimp only
      rw [Nat.div_add_mod']

theorem readDigits_zeros {b : Nat} (hb : Base b) (k : Nat) (r : List Char) :
    readDigits b (List.replicate k '0' ++ r) 0 = readDigits b r 0 := by
  have hb2 : 2 ≤ b := by rcases hb with rfl | rfl <;> omega
  induction k with
  | zero => rfl
  | succ k ih =>
    rw [List.replicate_succ, List.cons_append, readDigits, show '0' = Nat.digitChar 0 from rfl,
      digitVal_base hb (by omega)]
    dsimp only
    rw [Nat.zero_mul, Nat.zero_add]
    exact ih

/-- What may follow a number: nothing, or a comma. -/
def Ends (r : List Char) : Prop := r = [] ∨ ∃ r', r = ',' :: r'

theorem readDigits_ends {b : Nat} (hb : Base b) {r : List Char} (hr : Ends r) (x : Nat) : readDigits b r x = (x, r) := by
  rcases hr with rfl | ⟨r', rfl⟩
  · rfl
  · rw [readDigits, show digitVal b ',' = none from by rcases hb with rfl | rfl <;> decide]

/-- `strtoul` on digits. -/
theorem strtoul_digits {b : Nat} (hb : Base b) {ds r : List Char} (hne : ds ≠ [])
    (hds : ∀ c ∈ ds, ∃ d < b, c = Nat.digitChar d) (hr : Ends r) {x : Nat} (hx : x < 2 ^ 64)
    (hread : readDigits b (ds ++ r) 0 = readDigits b r x) : strtoul b (ds ++ r) = (BitVec.ofNat 64 x, r) := by
  have hb16 : b ≤ 16 := by rcases hb with rfl | rfl <;> omega
  obtain ⟨c, cs, rfl⟩ := List.exists_cons_of_ne_nil hne
  obtain ⟨d, hd, hc⟩ := hds c List.mem_cons_self
  obtain ⟨p1, p2, p3, p4, p5⟩ := char_plain d (by omega)
  rw [← hc] at p1 p2 p3 p4 p5
  have e1 : ((c :: cs) ++ r).dropWhile isSpace = (c :: cs) ++ r := by
    rw [List.cons_append, List.dropWhile_cons_of_neg (by rw [p1]; simp)]
  have e2 : skipPrefix b ((c :: cs) ++ r) = (c :: cs) ++ r := by
    have hx : ∀ y ys, cs ++ r = y :: ys → y ≠ 'x' ∧ y ≠ 'X' := by
      intro y ys h
      cases cs with
      | nil =>
        rcases hr with rfl | ⟨r', rfl⟩
        · cases h
        · injection h with h1 _
          rw [← h1]; decide
      | cons z zs =>
        injection h with h1 _
        obtain ⟨d', hd', hz⟩ := hds z (by simp)
        obtain ⟨-, -, -, q4, q5⟩ := char_plain d' (by omega)
        rw [← h1, hz]; exact ⟨q4, q5⟩
    rw [List.cons_append]
    cases hcs : cs ++ r with
    | nil =>
      unfold skipPrefix
      split
      · rename_i h; injection h with _ h2; cases h2
      · rfl
    | cons y ys =>
      obtain ⟨y1, y2⟩ := hx y ys hcs
      unfold skipPrefix
      split
      · rename_i h
        injection h with h1 h2
        injection h2 with h3 h4
        rw [if_neg (by rw [← h3]; simp [y1, y2]), h1, h3, h4]
      · rfl
  unfold strtoul
  rw [e1]
  dsimp only
  have h1 : ((c :: cs) ++ r).head? = some c := rfl
  rw [h1]
  have n1 : ¬ (some c = some '-') := by simp [p2]
  have n2 : ¬ (some c = some '-' ∨ some c = some '+') := by simp [p2, p3]
  rw [if_neg n2, e2, if_pos (show startsDigit b ((c :: cs) ++ r) = true from ?_), hread, readDigits_ends hb hr]
  · dsimp only
    rw [if_pos hx, if_neg n1]
  · show (digitVal b c).isSome = true
    rw [hc, digitVal_base hb hd]; rfl

theorem strtoul_dec {x : Nat} (hx : x < 2 ^ 31) {r : List Char} (hr : Ends r) :
    strtoul 10 (dec x ++ r) = (BitVec.ofNat 64 x, r) :=
  strtoul_digits (.inl rfl) (digits_ne _ _) (digits_chars (.inl rfl) x) hr (by omega) (readDigits_digits (.inl rfl) x r)

theorem strtoul_hex {n x : Nat} (hx : x < 2 ^ 64) {r : List Char} (hr : Ends r) :
    strtoul 16 (hexW n x ++ r) = (BitVec.ofNat 64 x, r) := by
  refine strtoul_digits (.inr rfl) ?_ ?_ hr hx ?_
  · unfold hexW
    rw [Ne, List.append_eq_nil_iff, not_and_or]
    exact .inr (digits_ne _ _)
  · intro c hc
    unfold hexW at hc
    rw [List.mem_append] at hc
    rcases hc with hc | hc
    · exact ⟨0, by omega, (List.mem_replicate.1 hc).2⟩
    · exact digits_chars (.inr rfl) x c hc
  · unfold hexW
    rw [List.append_assoc, readDigits_zeros (.inr rfl), readDigits_digits (.inr rfl)]

theorem ends_comma (r : List Char) : Ends (',' :: r) := .inr ⟨r, rfl⟩

theorem next_comma (r : List Char) : next (',' :: r) = some r := rfl

theorem toInt_ofNat {x : Nat} (hx : x < 2 ^ 31) : toInt (BitVec.ofNat 64 x) = x := by
  unfold toInt
  rw [BitVec.toNat_setWidth, BitVec.toNat_ofNat]
  omega

theorem w32 (m : BitVec 32) : (BitVec.ofNat 64 m.toNat).setWidth 32 = m := by
  apply BitVec.eq_of_toNat_eq
  rw [BitVec.toNat_setWidth, BitVec.toNat_ofNat]
  have := m.isLt
  omega

theorem w64 (m : BitVec 64) : BitVec.ofNat 64 m.toNat = m := by simp

theorem lt32 (m : BitVec 32) : m.toNat < 2 ^ 64 := by have := m.isLt; omega

/-- `next` needs a character. -/
theorem next_len {s t : List Char} (h : next s = some t) : s.length = t.length + 1 := by
  cases s with
  | nil => cases h
  | cons c cs => injection h with e; rw [← e]; rfl

theorem readDigits_len (b : Nat) (s : List Char) (x : Nat) : (readDigits b s x).2.length ≤ s.length := by
  induction s generalizing x with
  | nil => exact Nat.le_refl _
  | cons c cs ih =>
    rw [readDigits]
    split
    · exact Nat.le_refl _
    · exact Nat.le_succ_of_le (ih _)

theorem skipPrefix_len (b : Nat) (s : List Char) : (skipPrefix b s).length ≤ s.length := by
  unfold skipPrefix
  split
  · split
    · simp only [List.length_cons]; omega
    · exact Nat.le_refl _
  · exact Nat.le_refl _

theorem strtoul_len (b : Nat) (s : List Char) : (strtoul b s).2.length ≤ s.length := by
  unfold strtoul
  dsimp only
  have h1 : (s.dropWhile isSpace).length ≤ s.length := (List.dropWhile_sublist _).length_le
  have h2 : (if (s.dropWhile isSpace).head? = some '-' ∨ (s.dropWhile isSpace).head? = some '+' then
      (s.dropWhile isSpace).tail else s.dropWhile isSpace).length ≤ s.length := by
    split
    · rw [List.length_tail]; omega
    · exact h1
  generalize (if (s.dropWhile isSpace).head? = some '-' ∨ (s.dropWhile isSpace).head? = some '+' then
    (s.dropWhile isSpace).tail else s.dropWhile isSpace) = t at *
  split
  · have := readDigits_len b (skipPrefix b t) 0
    have h3 := skipPrefix_len b t
    split
    · dsimp only; omega
    · dsimp only; omega
  · exact Nat.le_refl _

/-- One more field. -/
theorem bind_len {α : Type} {s : List Char} {f : List Char → Option α} {a : α} {k : Nat}
    (h : (next s).bind f = some a) (hf : ∀ t, f t = some a → k ≤ t.length) : k + 1 ≤ s.length := by
  cases hs : next s with
  | none => rw [hs] at h; cases h
  | some t =>
    rw [hs] at h
    have := hf t h
    rw [next_len hs]
    omega

end MTT.Text

namespace MTT.SFMT

open Text

/-- **C69 (SFMT).**  The tools read from a printed line, whatever follows it, the parameters that were printed. -/
theorem parse_getString (l : Fields) (hm : l.mexp < 2 ^ 31) (hp : l.param.pos1 < 2 ^ 31) (h1 : l.param.sl1 < 2 ^ 31)
    (h2 : l.param.sl2 < 2 ^ 31) (h3 : l.param.sr1 < 2 ^ 31) (h4 : l.param.sr2 < 2 ^ 31) (rest : List Char) :
    parse (getString l ++ rest) = some l := by
  unfold parse getString
  simp only [List.append_assoc, List.singleton_append, List.cons_append, List.nil_append, strtoul_dec hm (ends_comma _), strtoul_dec hp (ends_comma _),
    strtoul_dec h1 (ends_comma _), strtoul_dec h2 (ends_comma _), strtoul_dec h3 (ends_comma _),
    strtoul_dec h4 (ends_comma _), strtoul_hex (lt32 _) (ends_comma _), next_comma, toInt_ofNat hm, toInt_ofNat hp,
    toInt_ofNat h1, toInt_ofNat h2, toInt_ofNat h3, toInt_ofNat h4, w32, Option.bind_eq_bind, Option.bind_some]

/-- A text of fewer than 13 characters makes the parser read behind the end of the text. -/
theorem parse_short {s : List Char} (h : s.length < 13) : parse s = none := by
  cases hp : parse s with
  | none => rfl
  | some l =>
    exfalso
    unfold parse at hp
    have key : 13 ≤ (strtoul 10 s).2.length := by
      refine bind_len hp fun t h => Nat.le_trans ?_ (strtoul_len 10 t)
      refine bind_len h fun t h => Nat.le_trans ?_ (strtoul_len 10 t)
      refine bind_len h fun t h => Nat.le_trans ?_ (strtoul_len 10 t)
      refine bind_len h fun t h => Nat.le_trans ?_ (strtoul_len 10 t)
      refine bind_len h fun t h => Nat.le_trans ?_ (strtoul_len 10 t)
      refine bind_len h fun t h => Nat.le_trans ?_ (strtoul_len 16 t)
      refine bind_len h fun t h => Nat.le_trans ?_ (strtoul_len 16 t)
      refine bind_len h fun t h => Nat.le_trans ?_ (strtoul_len 16 t)
      refine bind_len h fun t h => Nat.le_trans ?_ (strtoul_len 16 t)
      refine bind_len h fun t h => Nat.le_trans ?_ (strtoul_len 16 t)
      refine bind_len h fun t h => Nat.le_trans ?_ (strtoul_len 16 t)
      refine bind_len h fun t h => Nat.le_trans ?_ (strtoul_len 16 t)
      exact bind_len h fun t _ => Nat.zero_le _
    have := strtoul_len 10 s
    omega

-- The published parameters of SFMT19937 (without parity), as printed.
def line19937 : Fields := ⟨19937, ⟨122, 18, 1, 11, 1, 0xdfffffef, 0xddfecb7f, 0xbffaffff, 0xbffffff6⟩, 1, 0, 0, 0x13c9e684⟩

example : getString line19937 =
    "19937,122,18,1,11,1,dfffffef,ddfecb7f,bffaffff,bffffff6,00000001,00000000,00000000,13c9e684,".toList := by
  decide +kernel

example : parse "607,2,15".toList = none := parse_short (by decide)

end MTT.SFMT

namespace MTT.DSFMT

open Text

/-- **C69 (dSFMT).**  The tools read from a printed line, whatever follows it, the parameters that were printed. -/
theorem parse_getString (l : Fields) (hm : l.mexp < 2 ^ 31) (hp : l.param.pos1 < 2 ^ 31) (h1 : l.param.sl1 < 2 ^ 31)
    (rest : List Char) : parse (getString l ++ rest) = some l := by
  unfold parse getString
  simp only [List.append_assoc, List.singleton_append, List.cons_append, List.nil_append, strtoul_dec hm (ends_comma _), strtoul_dec hp (ends_comma _),
    strtoul_dec h1 (ends_comma _), strtoul_hex (BitVec.isLt _) (ends_comma _), next_comma, toInt_ofNat hm, toInt_ofNat hp,
    toInt_ofNat h1, w64, Option.bind_eq_bind, Option.bind_some]

/-- The two tools that complete a line read the part that they need. -/
theorem parse_prefix (l : Fields) (hm : l.mexp < 2 ^ 31) (hp : l.param.pos1 < 2 ^ 31) (h1 : l.param.sl1 < 2 ^ 31)
    (f1 f2 p1 p2 : BitVec 64) (rest : List Char) :
    parseFix p1 p2 (getString l ++ rest) = some { l with parity1 := p1, parity2 := p2 } ∧
    parseMsk f1 f2 p1 p2 (getString l ++ rest) =
      some { l with fix1 := f1, fix2 := f2, parity1 := p1, parity2 := p2 } := by
  unfold parseFix parseMsk getString
  simp only [List.append_assoc, List.singleton_append, List.cons_append, List.nil_append, strtoul_dec hm (ends_comma _), strtoul_dec hp (ends_comma _),
    strtoul_dec h1 (ends_comma _), strtoul_hex (BitVec.isLt _) (ends_comma _), next_comma, toInt_ofNat hm, toInt_ofNat hp,
    toInt_ofNat h1, w64, Option.bind_eq_bind, Option.bind_some, and_self]

end MTT.DSFMT

namespace MTT.RMT

open Text

/-- **C69 (RMT).**  The tools read from a printed line, followed by nothing or a comma, the parameters that were printed. -/
theorem parse_getString (l : Fields) (hm : l.mexp < 2 ^ 31) (hp : l.pos < 2 ^ 31) {rest : List Char} (hr : Ends rest) :
    parse (getString l ++ rest) = some l := by
  unfold parse getString
  simp only [List.append_assoc, List.singleton_append, List.cons_append, List.nil_append, strtoul_dec hm (ends_comma _), strtoul_dec hp (ends_comma _),
    strtoul_hex (BitVec.isLt _) (ends_comma _), strtoul_hex (BitVec.isLt _) hr, next_comma, toInt_ofNat hm, toInt_ofNat hp,
    w64, Option.bind_eq_bind, Option.bind_some]

end MTT.RMT
