import Verif.Samples.OldCommand
import Verif.Samples.OldFormatProps
import Verif.Samples.GetoptLemmas

/-!
# C106: the command line of make_old_format
-/

namespace MTT.Getopt

/-- The elements of the command line in front of the operands, if all of it has been read: the options and `--`. -/
def optElements (args : List (List Char)) : List (List Char) :=
  (front args).filter isOpt ++ if ['-', '-'] ∈ args then [['-', '-']] else []

theorem optElements_dd (r) : optElements (['-', '-'] :: r) = [['-', '-']] := by simp [optElements, front]

theorem optElements_opt {a : List Char} (r) (h : a ≠ ['-', '-']) (ho : isOpt a = true) : optElements (a :: r) = a :: optElements r := by
  simp [optElements, front, h, ho, Ne.symm h]

theorem optElements_arg {a : List Char} (r) (h : a ≠ ['-', '-']) (ho : isOpt a = false) : optElements (a :: r) = optElements r := by
  simp [optElements, front, h, ho, Ne.symm h]

/-- A turn of the loop behind the call of `getopt`. -/
def after (n : ℕ) (p : Option Char × PSt) (error : Bool) : Option PSt :=
  if error then some p.2
  else match p.1 with
    | none => some p.2
    | some 'd' => ploop n p.2 false
    | some _ => ploop n p.2 true

theorem ploop_succ (n : ℕ) (s : PSt) (e : Bool) : ploop (n + 1) s e = after n (pgetopt ['h', 'd'] s) e := rfl

theorem after_cluster {done nons : List (List Char)} {a : List Char} {r : List (List Char)} {out : List (List Char)} {k : ℕ}
    (hr : ∀ n ≥ k, ∀ since, ∃ s, ploop n ⟨done, nons, since ++ [a], [], r⟩ false = some s ∧ s.argv = done ++ since ++ a :: out) :
    ∀ (more : List Char) (c : Char), c = 'd' → (∀ x ∈ more, x = 'd') → ∀ n ≥ more.length + k, ∀ since,
    ∃ s, after n (pread ['h', 'd'] done nons since c more a r) false = some s ∧ s.argv = done ++ since ++ a :: out
  | [], c, hc, _, n, hn, since => by
    subst hc
    obtain ⟨s, h1, h2⟩ := hr n (by simpa using hn) since
    exact ⟨s, by simpa [after, pread] using h1, h2⟩
  | d :: more, c, hc, hm, n, hn, since => by
    subst hc
    obtain ⟨n, rfl⟩ : ∃ m, n = m + 1 := ⟨n - 1, by simp at hn; omega⟩
    obtain ⟨s, h1, h2⟩ := after_cluster hr more d (hm d (by simp)) (fun x hx => hm x (by simp [hx])) n
      (by simp at hn ⊢; omega) since
    refine ⟨s, ?_, h2⟩
    rw [← h1]
    simp [after, pread, ploop_succ, pgetopt]

theorem after_scan : ∀ (rest done nons : List (List Char)), (∀ c ∈ optLetters rest, c = 'd') → ∀ n ≥ (optLetters rest).length,
    ∃ s, after n (pscan ['h', 'd'] done nons rest) false = some s ∧ s.argv = done ++ optElements rest ++ nons ++ operands rest
  | [], done, nons, _, n, _ => ⟨⟨done, nons, [], [], []⟩, rfl, by simp [PSt.argv, optElements, front, operands_nil]⟩
  | a :: r, done, nons, hl, n, hn => by
    by_cases h : a = ['-', '-']
    · subst h
      exact ⟨⟨done ++ [['-', '-']], nons ++ r, [], [], []⟩, rfl, by
        rw [operands_dd, optElements_dd]; simp [PSt.argv]⟩
    · cases ho : isOpt a
      · rw [operands_arg r h ho, optElements_arg r h ho]
        rw [optLetters_arg r h ho] at hl hn
        obtain ⟨s, h1, h2⟩ := after_scan r done (nons ++ [a]) hl n hn
        refine ⟨s, ?_, by rw [h2]; simp⟩
        rw [← h1, pscan, if_neg h]
        intro c more e
        subst e
        rw [isOpt_of c more h] at ho; cases ho
      · rw [operands_opt r h ho, optElements_opt r h ho]
        rw [optLetters_opt r h ho] at hl hn
        obtain ⟨c, more, rfl⟩ : ∃ c more, a = '-' :: c :: more := by
          unfold isOpt at ho
          split at ho
          · exact ⟨_, _, rfl⟩
          · cases ho
        have hs : pscan ['h', 'd'] done nons (('-' :: c :: more) :: r) =
            pread ['h', 'd'] done nons [] c more ('-' :: c :: more) r := by rw [pscan, if_neg h]
        rw [hs]
        simp only [List.tail_cons, List.length_append, List.length_cons, List.cons_append, List.mem_cons, List.mem_append] at hl hn
        have := after_cluster (done := done) (nons := nons) (a := '-' :: c :: more) (r := r)
          (out := optElements r ++ nons ++ operands r) (k := (optLetters r).length + 1) (fun m hm since => by
            obtain ⟨m, rfl⟩ : ∃ k, m = k + 1 := ⟨m - 1, by omega⟩
            obtain ⟨s, h1, h2⟩ := after_scan r (done ++ (since ++ ['-' :: c :: more])) nons (fun x hx => hl x (.inr (.inr hx))) m (by omega)
            exact ⟨s, by rw [ploop_succ]; exact h1, by rw [h2]; simp⟩)
          more c (hl c (.inl rfl)) (fun x hx => hl x (.inr (.inl hx))) n (by omega) []
        obtain ⟨s, h1, h2⟩ := this
        exact ⟨s, h1, by rw [h2]; simp⟩

theorem optLetters_length : ∀ args, (optLetters args).length ≤ (args.map List.length).sum
  | [] => by simp [optLetters, front]
  | a :: r => by
    have := optLetters_length r
    by_cases h : a = ['-', '-']
    · subst h; rw [optLetters_dd]; simp
    · cases ho : isOpt a
      · rw [optLetters_arg r h ho]; simp; omega
      · rw [optLetters_opt r h ho]; simp; omega

/-- **C106.**  If no letter but `d` occurs, the options and `--` stand in front of the operands behind the loop. -/
theorem argvAfter_fine {args : List (List Char)} (h : ∀ c ∈ optLetters args, c = 'd') :
    argvAfter args = some (optElements args ++ operands args) := by
  obtain ⟨s, h1, h2⟩ := after_scan args [] [] h ((args.map List.length).sum + 1) (by have := optLetters_length args; omega)
  unfold argvAfter
  rw [ploop_succ]
  show Option.map _ (after _ (pscan _ ([] ++ []) [] args) _) = _
  rw [List.nil_append, h1, Option.map_some, h2]
  simp

end MTT.Getopt

namespace MTT.DSFMT

open Search W128 Getopt Text

variable {mps : MPS} {w : W128}

theorem strtoul_ds (k : ℕ) : strtoul 10 (List.replicate k 'd') = (0, List.replicate k 'd') := by
  cases k with
  | zero => rfl
  | succ k =>
    rw [List.replicate_succ]
    unfold strtoul
    simp only [List.dropWhile_cons_of_neg (show ¬ isSpace 'd' = true by decide), List.head?_cons]
    rfl

theorem readDigits_ds : ∀ k acc, (readDigits 16 (List.replicate k 'd') acc).2 = []
  | 0, _ => rfl
  | k + 1, acc => by
    rw [List.replicate_succ]
    show (readDigits 16 (List.replicate k 'd') _).2 = []
    exact readDigits_ds k _

theorem strtoul_ds16 (k : ℕ) : (strtoul 16 (List.replicate k 'd')).2 = [] := by
  cases k with
  | zero => rfl
  | succ k =>
    have := readDigits_ds (k + 1) 0
    rw [List.replicate_succ] at this ⊢
    unfold strtoul
    simp only [List.dropWhile_cons_of_neg (show ¬ isSpace 'd' = true by decide), List.head?_cons]
    have hsk : skipPrefix 16 ('d' :: List.replicate k 'd') = 'd' :: List.replicate k 'd' := by
      unfold skipPrefix
      split
      · rename_i h; injection h with h; exact absurd h (by decide)
      · rfl
    rw [if_neg (show ¬ (some 'd' = some '-' ∨ some 'd' = some '+') by decide), hsk, if_pos (by rfl)]
    revert this
    rcases readDigits 16 ('d' :: List.replicate k 'd') 0 with ⟨v, r⟩
    intro this
    dsimp only at this ⊢
    split <;> exact this

theorem parse_ds (k : ℕ) : parse ('-' :: List.replicate k 'd') = none := by
  have h1 : strtoul 10 ('-' :: List.replicate k 'd') = (0, '-' :: List.replicate k 'd') := by
    unfold strtoul
    simp only [List.dropWhile_cons_of_neg (show ¬ isSpace '-' = true by decide), List.head?_cons, true_or, if_true, List.tail_cons]
    cases k <;> rfl
  unfold parse
  rw [h1]
  simp only [next, Option.bind_eq_bind, Option.bind_some, strtoul_ds]
  rcases k with _ | _ | k
  · rfl
  · rfl
  · have h2 : strtoul 10 ('d' :: List.replicate k 'd') = (0, 'd' :: List.replicate k 'd') := strtoul_ds (k + 1)
    simp only [List.replicate_succ, Option.bind_some, h2, strtoul_ds16 k, Option.bind_none]

/-- **C106.**  Without options and without `--` the first argument is the text of C99. -/
theorem oldCommand_text {a : List Char} {r : List (List Char)} (h : ∀ x ∈ a :: r, isOpt x = false ∧ x ≠ ['-', '-']) :
    oldCommand mps w (a :: r) = oldFormat mps w a := by
  have h1 : ∀ l : List (List Char), (∀ x ∈ l, isOpt x = false ∧ x ≠ ['-', '-']) →
      optLetters l = [] ∧ optElements l = [] ∧ operands l = l := by
    intro l hl
    induction l with
    | nil => exact ⟨rfl, by simp [optElements, front], rfl⟩
    | cons a l ih =>
      obtain ⟨e1, e2, e3⟩ := ih fun x hx => hl x (by simp [hx])
      obtain ⟨ha, hd⟩ := hl a (by simp)
      rw [optLetters_arg l hd ha, optElements_arg l hd ha, operands_arg l hd ha, e1, e2, e3]
      exact ⟨rfl, rfl, rfl⟩
  obtain ⟨e1, e2, e3⟩ := h1 _ h
  unfold oldCommand
  rw [argvAfter_fine (by rw [e1]; simp), e2, e3]
  rfl

/-- **C106.**  The option `-d`, however often and wherever it stands, and `--` make the behaviour undefined: the program takes them for the
parameters. -/
theorem oldCommand_option {args : List (List Char)} (h : ∀ c ∈ optLetters args, c = 'd')
    (ho : (∃ a ∈ front args, isOpt a = true) ∨ ['-', '-'] ∈ args) : oldCommand mps w args = none := by
  unfold oldCommand
  rw [argvAfter_fine h]
  dsimp only
  have hne : optElements args ≠ [] := by
    unfold optElements
    rcases ho with ⟨a, ha, hop⟩ | hd
    · intro he
      have := (List.append_eq_nil_iff.1 he).1
      rw [List.filter_eq_nil_iff] at this
      exact this a ha hop
    · rw [if_pos hd]; simp
  obtain ⟨a, l, hal⟩ := List.exists_cons_of_ne_nil hne
  rw [hal, List.cons_append, List.head?_cons]
  have ham : a ∈ optElements args := by rw [hal]; simp
  have hp : parse a = none := by
    unfold optElements at ham
    rcases List.mem_append.1 ham with ham | ham
    · obtain ⟨hf, hop⟩ := List.mem_filter.1 ham
      have hds : ∀ x ∈ a.tail, x = 'd' := fun x hx => h x (by
        unfold optLetters
        exact List.mem_flatMap.2 ⟨a, List.mem_filter.2 ⟨hf, hop⟩, hx⟩)
      unfold isOpt at hop
      split at hop
      · rename_i c more
        rw [List.tail_cons] at hds
        rw [List.eq_replicate_of_mem hds]
        exact parse_ds _
      · cases hop
    · split at ham
      · rw [List.mem_singleton] at ham
        rw [ham]
        rfl
      · simp at ham
  unfold oldFormat
  dsimp only
  rw [hp]

/-- **C106.**  Without arguments a null pointer is read. -/
theorem oldCommand_nil : oldCommand mps w [] = none := rfl

/-- **C106, against the code.**  The option `-h` gives no help: in front of the line or alone behind it the behaviour is undefined, and together
with `d` behind the line it has no effect. -/
theorem oldCommand_help {a : List Char} (h : isOpt a = false ∧ a ≠ ['-', '-']) :
    oldCommand mps w ["-h".toList, a] = none ∧ oldCommand mps w [a, "-h".toList] = none ∧
    oldCommand mps w [a, "-hd".toList] = oldFormat mps w a := by
  have hs : ∀ done nons r, pscan ['h', 'd'] done nons (a :: r) = pscan ['h', 'd'] done (nons ++ [a]) r := by
    intro done nons r
    rw [pscan, if_neg h.2]
    intro c more e
    rw [e] at h
    rw [isOpt_of c more h.2] at h; cases h.1
  have hp : oldFormat mps w "-h".toList = none := rfl
  have e1 : argvAfter ["-h".toList, a] = some ["-h".toList, a] := by
    unfold argvAfter
    simp only [List.map_cons, List.sum_cons, List.map_nil]
    rw [show "-h".toList.length + (a.length + [].sum) + 2 = a.length + 2 + 1 + 1 by simp; omega, ploop_succ]
    show Option.map _ (ploop (a.length + 2 + 1) ⟨[], [], ["-h".toList], [], [a]⟩ true) = _
    rw [ploop_succ]
    show Option.map _ (after _ (pscan ['h', 'd'] ["-h".toList] [] [a]) true) = _
    rw [hs]
    rfl
  have e2 : argvAfter [a, "-h".toList] = some ["-h".toList, a] := by
    unfold argvAfter
    simp only [List.map_cons, List.sum_cons, List.map_nil]
    rw [show a.length + ("-h".toList.length + [].sum) + 2 = a.length + 2 + 1 + 1 by simp, ploop_succ]
    show Option.map _ (after _ (pscan ['h', 'd'] [] [] [a, "-h".toList]) false) = _
    rw [hs]
    rfl
  have e3 : argvAfter [a, "-hd".toList] = some [a, "-hd".toList] := by
    unfold argvAfter
    simp only [List.map_cons, List.sum_cons, List.map_nil]
    rw [show a.length + ("-hd".toList.length + [].sum) + 2 = a.length + 3 + 1 + 1 by simp, ploop_succ]
    show Option.map _ (after _ (pscan ['h', 'd'] [] [] [a, "-hd".toList]) false) = _
    rw [hs]
    rfl
  refine ⟨?_, ?_, ?_⟩
  · unfold oldCommand; rw [e1]; exact hp
  · unfold oldCommand; rw [e2]; exact hp
  · unfold oldCommand; rw [e3]; rfl

/-- `make_old_format LINE -d` and `make_old_format -- LINE` -/
example (l : List Char) : (∀ c ∈ optLetters ['5' :: l, "-d".toList], c = 'd') ∧ (∃ a ∈ front ['5' :: l, "-d".toList], isOpt a = true) := by
  have : front ['5' :: l, "-d".toList] = ['5' :: l, "-d".toList] := by simp [front]
  unfold optLetters
  rw [this]
  exact ⟨by simp [isOpt], "-d".toList, by simp, by decide⟩

example (l : List Char) : (∀ c ∈ optLetters ["--".toList, l], c = 'd') ∧ ['-', '-'] ∈ ["--".toList, l] := by
  constructor
  · rw [show "--".toList = ['-', '-'] from rfl, optLetters_dd]; simp
  · simp

example (l : List Char) : isOpt ('5' :: l) = false ∧ '5' :: l ≠ ['-', '-'] := ⟨by simp [isOpt], by simp⟩

end MTT.DSFMT
