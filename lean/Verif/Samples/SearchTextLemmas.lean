import Verif.Samples.SearchText
import Verif.Samples.LineLayout
import Verif.Samples.OptionsMore

/-!
# Lemmas about the texts of the search programs
-/

namespace MTT.Text

/-- A text without commas and line feeds. -/
def Plain (t : List Char) : Prop := ∀ c ∈ t, c ≠ ',' ∧ c ≠ '\n'

theorem digit_plain : ∀ d < 16, Nat.digitChar d ≠ ',' ∧ Nat.digitChar d ≠ '\n' ∧ Nat.digitChar d ≠ '-' := by decide

theorem digits_plain {b : Nat} (hb : Base b) (x : Nat) : Plain (digits b x) := by
  intro c hc
  obtain ⟨d, hd, rfl⟩ := digits_chars hb x c hc
  have := digit_plain d (by rcases hb with rfl | rfl <;> omega)
  exact ⟨this.1, this.2.1⟩

theorem dec_plain (x : Nat) : Plain (dec x) := digits_plain (.inl rfl) x

theorem decInt_plain (x : Int) : Plain (decInt x) := by
  unfold decInt
  split
  · intro c hc
    rcases List.mem_cons.1 hc with rfl | hc
    · decide
    · exact dec_plain _ c hc
  · exact dec_plain _

theorem hexW_plain (n x : Nat) : Plain (hexW n x) := by
  unfold hexW
  intro c hc
  rcases List.mem_append.1 hc with hc | hc
  · rw [(List.mem_replicate.1 hc).2]; decide
  · exact digits_plain (.inr rfl) x c hc

theorem plain_append {s t : List Char} (hs : Plain s) (ht : Plain t) : Plain (s ++ t) := fun c hc =>
  (List.mem_append.1 hc).elim (hs c) (ht c)

theorem read_digits {b : Nat} (hb : Base b) (x : Nat) : readDigits b (digits b x) 0 = (x, []) := by
  have := readDigits_digits hb x []
  rwa [List.append_nil] at this

theorem dec_inj {x y : Nat} (h : dec x = dec y) : x = y := by
  have h1 := read_digits (.inl rfl) x
  have h2 := read_digits (.inl rfl) y
  unfold dec at h
  rw [h, h2] at h1
  exact (congrArg Prod.fst h1).symm

theorem hexW_inj {n x y : Nat} (h : hexW n x = hexW n y) : x = y := by
  have key : ∀ x, readDigits 16 (hexW n x) 0 = (x, []) := fun x => by
    unfold hexW
    rw [readDigits_zeros (.inr rfl), read_digits (.inr rfl)]
  have h1 := key x
  rw [h, key y] at h1
  exact (congrArg Prod.fst h1).symm

/-- The first cell of a text is determined. -/
theorem cell {a a' b b' : List Char} (ha : Plain a) (ha' : Plain a') (h : a ++ ',' :: b = a' ++ ',' :: b') : a = a' ∧ b = b' := by
  induction a generalizing a' with
  | nil =>
    cases a' with
    | nil => exact ⟨rfl, (List.cons.inj h).2⟩
    | cons c cs => exact absurd (List.cons.inj h).1.symm (ha' c List.mem_cons_self).1
  | cons c cs ih =>
    cases a' with
    | nil => exact absurd (List.cons.inj h).1 (ha c List.mem_cons_self).1
    | cons d ds =>
      obtain ⟨h1, h2⟩ := List.cons.inj h
      obtain ⟨e1, e2⟩ := ih (fun x hx => ha x (List.mem_cons_of_mem _ hx)) (fun x hx => ha' x (List.mem_cons_of_mem _ hx)) h2
      exact ⟨by rw [h1, e1], e2⟩

/-- The first line of a text is determined. -/
theorem line {a a' b b' : List Char} (ha : '\n' ∉ a) (ha' : '\n' ∉ a') (h : a ++ '\n' :: b = a' ++ '\n' :: b') : a = a' ∧ b = b' := by
  induction a generalizing a' with
  | nil =>
    cases a' with
    | nil => exact ⟨rfl, (List.cons.inj h).2⟩
    | cons c cs => exact absurd ((List.cons.inj h).1 ▸ List.mem_cons_self) ha'
  | cons c cs ih =>
    cases a' with
    | nil => exact absurd ((List.cons.inj h).1 ▸ List.mem_cons_self) ha
    | cons d ds =>
      obtain ⟨h1, h2⟩ := List.cons.inj h
      obtain ⟨e1, e2⟩ := ih (fun hx => ha (List.mem_cons_of_mem _ hx)) (fun hx => ha' (List.mem_cons_of_mem _ hx)) h2
      exact ⟨by rw [h1, e1], e2⟩

theorem count_plain {t : List Char} (h : Plain t) : t.count ',' = 0 := List.count_eq_zero.2 fun hc => (h _ hc).1 rfl

theorem lf_plain {t : List Char} (h : Plain t) : '\n' ∉ t := fun hc => (h _ hc).2 rfl

/-- The seed of a run can be given back to the program as it was printed. -/
theorem strtoull_dec (v : BitVec 64) : Options.strtoull (dec v.toNat) = (v, false) := by
  have hlt := v.isLt
  have hne := digits_ne 10 v.toNat
  have hread := read_digits (.inl rfl) v.toNat
  have hch := digits_chars (.inl rfl) v.toNat
  have h0 : ∀ x, (digits 10 x).head? = some '0' → x = 0 := by
    intro x
    induction x using Nat.strongRecOn with
    | _ x ih =>
      intro h
      rw [digits] at h
      split at h
      · rename_i hx
        have h16 : ∀ d < 10, Nat.digitChar d = '0' → d = 0 := by decide
        exact h16 x (by omega) (by simpa using h)
      · rename_i hx
        have : (digits 10 (x / 10)).head? = some '0' := by
          rw [List.head?_append_of_ne_nil _ (digits_ne _ _)] at h
          exact h
        have := ih _ (Nat.div_lt_self (by omega) (by omega)) this
        omega
  show Options.strtoull (digits 10 v.toNat) = _
  cases hd : digits 10 v.toNat with
  | nil => exact absurd hd hne
  | cons c cs =>
    rw [hd] at hread hch
    obtain ⟨d, hd10, hc⟩ := hch c List.mem_cons_self
    obtain ⟨p1, p2, p3, -, -⟩ := char_plain d (by omega)
    rw [← hc] at p1 p2 p3
    have e1 : (c :: cs).dropWhile isSpace = c :: cs := List.dropWhile_cons_of_neg (by rw [p1]; simp)
    have e2 : Options.signed (c :: cs) = (false, c :: cs) := by
      unfold Options.signed
      rw [e1]
      dsimp only
      rw [show (c :: cs).head? = some c from rfl, if_neg (by simp [p2, p3])]
      simp [p2]
    by_cases hz : c = '0'
    · have hv : v.toNat = 0 := h0 _ (by rw [hd, hz]; rfl)
      have hcs : c :: cs = ['0'] := by
        rw [← hd, hv]
        unfold digits
        rw [dif_pos (.inl (by omega))]
        rfl
      rw [hcs]
      have hv0 : v = 0 := BitVec.eq_of_toNat_eq hv
      rw [hv0]
      decide
    · have e3 : Options.autoBase (c :: cs) = (10, c :: cs) := by
        unfold Options.autoBase
        split
        · rename_i h; injection h with h; exact absurd h hz
        · rename_i h; injection h with h; exact absurd h hz
        · rfl
      unfold Options.strtoull
      rw [e2]
      dsimp only
      rw [e3]
      dsimp only
      rw [if_pos (by
        show (digitVal 10 c).isSome = true
        rw [hc, digitVal_base (.inl rfl) hd10]; rfl), hread]
      dsimp only
      rw [if_pos hlt]
      simp

example : dec (18446744073709551615#64).toNat = "18446744073709551615".toList := by decide +kernel

end MTT.Text

namespace MTT.SearchText

open Text Options

/-- The text of the lines determines the lines. -/
theorem body_inj {α : Type} {line : α → List Char} (hlf : ∀ l, '\n' ∉ line l) (hinj : ∀ l l', line l = line l' → l = l') :
    ∀ {L L' : List α}, body line L = body line L' → L = L'
  | [], [], _ => rfl
  | [], l :: L, h => by
    unfold body at h
    simp at h
  | l :: L, [], h => by
    unfold body at h
    simp at h
  | l :: L, l' :: L', h => by
    unfold body at h
    rw [List.flatMap_cons, List.flatMap_cons, List.append_assoc, List.append_assoc, List.singleton_append, List.singleton_append] at h
    obtain ⟨h1, h2⟩ := Text.line (hlf l) (hlf l') h
    rw [hinj _ _ h1, body_inj hlf hinj h2]

/-- Each line ends with a line feed, and there are no others. -/
theorem body_count {α : Type} {line : α → List Char} (hlf : ∀ l, '\n' ∉ line l) (L : List α) : (body line L).count '\n' = L.length := by
  induction L with
  | nil => rfl
  | cons l L ih =>
    unfold body at ih ⊢
    rw [List.flatMap_cons, List.count_append, List.count_append, List.count_eq_zero.2 (hlf l), ih]
    simp
    omega

/-- The seed before the loop matters only until an option sets it. -/
theorem readOpts_seed {step : Opts → Ev → Opts} (hs : ∀ o x e, ∃ y, step { o with seed := x } e = { step o e with seed := y })
    (evs : List Ev) : ∀ o x, ∃ y, readOpts step { o with seed := x } evs = { readOpts step o evs with seed := y } := by
  induction evs with
  | nil => exact fun o x => ⟨x, rfl⟩
  | cons e evs ih =>
    intro o x
    unfold readOpts at ih ⊢
    rw [List.foldl_cons, List.foldl_cons]
    by_cases he : o.error = true
    · rw [if_pos he, if_pos he]
      exact ih o x
    · rw [if_neg he, if_neg he]
      obtain ⟨y, hy⟩ := hs o x e
      rw [hy]
      exact ih (step o e) y

theorem stepSeed_seed (o : Opts) (x : BitVec 64) (e : Ev) : ∃ y, stepSeed { o with seed := x } e = { stepSeed o e with seed := y } := by
  cases e <;> exact ⟨_, rfl⟩

theorem stepFixed_seed (o : Opts) (x : BitVec 64) (e : Ev) :
    ∃ y, stepFixed { o with seed := x } e = { stepFixed o e with seed := y } := by
  rcases e with _ | a | a | a | (_ | a) | _ | a | a | _ <;> exact ⟨_, rfl⟩

/-- Giving the seed of a run with `-s` changes nothing. -/
theorem readOpts_again {step : Opts → Ev → Opts} {fine : Ev → Prop} (K : Known step fine)
    (hs : ∀ o x e, ∃ y, step { o with seed := x } e = { step o e with seed := y }) (he : ∀ o a, step o (.seed a) = stepSeed o (.seed a))
    {evs : List Ev} (hf : ∀ e ∈ evs, fine e) (clock clock' : BitVec 64) :
    readOpts step (init clock' 0 0) (evs ++ [.seed (dec (readOpts step (init clock 0 0) evs).seed.toNat)]) =
      readOpts step (init clock 0 0) evs := by
  obtain ⟨y, hy⟩ := readOpts_seed hs evs (init clock 0 0) clock'
  have hi : { init clock 0 0 with seed := clock' } = init clock' 0 0 := rfl
  rw [hi] at hy
  obtain ⟨g1, g2⟩ := readOpts_good K hf (o := init clock 0 0) rfl rfl
  generalize readOpts step (init clock 0 0) evs = o at hy g1 g2
  have : readOpts step (init clock' 0 0) (evs ++ [.seed (dec o.seed.toNat)]) =
      readOpts step (readOpts step (init clock' 0 0) evs) [.seed (dec o.seed.toNat)] := by
    unfold readOpts
    rw [List.foldl_append]
  rw [this, hy, readOpts_cons (by exact g1)]
  show step _ _ = _
  rw [he]
  unfold stepSeed
  dsimp only
  rw [strtoull_dec]
  unfold number
  cases o
  dsimp only at g1 g2
  subst g1 g2
  rfl

end MTT.SearchText
