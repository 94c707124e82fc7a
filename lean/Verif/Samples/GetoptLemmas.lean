import Verif.Samples.Getopt

/-!
# Helper lemmas for the command lines of calc_parity and calc_fixpoint
-/

namespace MTT.Getopt

/-- The element is read letter by letter: it begins with `-`, is longer than that, and is not `--`. -/
def isOpt : List Char → Bool
  | '-' :: c :: more => !(c == '-' && more == [])
  | _ => false

/-- The arguments in front of the first `--`. -/
def front (args : List (List Char)) : List (List Char) := args.takeWhile (fun a => a ≠ ['-', '-'])

/-- The arguments behind the first `--`. -/
def back (args : List (List Char)) : List (List Char) := (args.dropWhile (fun a => a ≠ ['-', '-'])).tail

/-- All the option letters of the command line, in their order. -/
def optLetters (args : List (List Char)) : List Char := ((front args).filter isOpt).flatMap List.tail

/-- The arguments that are not options, in their order. -/
def operands (args : List (List Char)) : List (List Char) := ((front args).filter fun a => !isOpt a) ++ back args

/-! ### The letters with what stands behind them -/

def tagLetters (a : List Char) (r : List (List Char)) : List Char → List (Char × List (List Char))
  | [] => []
  | c :: more => (c, if more = [] then r else a :: r) :: tagLetters a r more

def tagged : List (List Char) → List (Char × List (List Char))
  | [] => []
  | a :: r => if a = ['-', '-'] then [] else if isOpt a then tagLetters a r a.tail ++ tagged r else tagged r

def pending (s : St) : List (Char × List (List Char)) :=
  match s.next, s.rest with
  | [], rest => tagged rest
  | next, a :: r => tagLetters a r next ++ tagged r
  | _, [] => []

def pendOps (s : St) : List (List Char) :=
  s.ops ++ (match s.next with | [] => operands s.rest | _ => operands s.rest.tail)

theorem isOpt_dd : isOpt ['-', '-'] = false := by decide

theorem operands_nil : operands [] = [] := rfl

theorem operands_dd (r) : operands (['-', '-'] :: r) = r := by
  simp [operands, front, back]

theorem operands_opt {a : List Char} (r) (h : a ≠ ['-', '-']) (ho : isOpt a = true) : operands (a :: r) = operands r := by
  simp [operands, front, back, h, ho]

theorem operands_arg {a : List Char} (r) (h : a ≠ ['-', '-']) (ho : isOpt a = false) : operands (a :: r) = a :: operands r := by
  simp [operands, front, back, h, ho]

theorem optLetters_dd (r) : optLetters (['-', '-'] :: r) = [] := by simp [optLetters, front]

theorem optLetters_opt {a : List Char} (r) (h : a ≠ ['-', '-']) (ho : isOpt a = true) :
    optLetters (a :: r) = a.tail ++ optLetters r := by
  simp [optLetters, front, h, ho]

theorem optLetters_arg {a : List Char} (r) (h : a ≠ ['-', '-']) (ho : isOpt a = false) : optLetters (a :: r) = optLetters r := by
  simp [optLetters, front, h, ho]

theorem tagLetters_fst (a r) : ∀ l, (tagLetters a r l).map Prod.fst = l
  | [] => rfl
  | c :: more => by simp [tagLetters, tagLetters_fst a r more]

theorem tagged_fst : ∀ args, (tagged args).map Prod.fst = optLetters args
  | [] => rfl
  | a :: r => by
    by_cases h : a = ['-', '-']
    · subst h; rw [optLetters_dd]; simp [tagged]
    · cases ho : isOpt a
      · rw [optLetters_arg r h ho, ← tagged_fst r]; simp [tagged, h, ho]
      · rw [optLetters_opt r h ho, ← tagged_fst r]; simp [tagged, h, ho, tagLetters_fst]

theorem isOpt_of (c : Char) (more : List Char) (h : ('-' :: c :: more) ≠ ['-', '-']) : isOpt ('-' :: c :: more) = true := by
  simp only [isOpt]
  by_contra hc
  apply h
  simp at hc
  simp [hc.1, hc.2]

theorem scan_spec (letters : List Char) : ∀ (rest ops : List (List Char)),
    (tagged rest = [] → (scan letters ops rest).1 = none ∧ (scan letters ops rest).2.rest = ops ++ operands rest) ∧
    (∀ c R P, tagged rest = (c, R) :: P → (scan letters ops rest).1 = some (if c ∈ letters then c else '?') ∧
      (scan letters ops rest).2.rest = R ∧ pending (scan letters ops rest).2 = P ∧
      pendOps (scan letters ops rest).2 = ops ++ operands rest)
  | [], ops => by
    constructor
    · intro _; simp [scan, operands_nil]
    · intro c R P h; simp [tagged] at h
  | a :: r, ops => by
    by_cases h : a = ['-', '-']
    · subst h
      constructor
      · intro _; simp [scan, operands_dd]
      · intro c R P h; simp [tagged] at h
    · cases ho : isOpt a
      · have hs : scan letters ops (a :: r) = scan letters (ops ++ [a]) r := by
          rw [scan, if_neg h]
          intro c more e
          subst e
          rw [isOpt_of c more h] at ho; cases ho
        have ht : tagged (a :: r) = tagged r := by simp [tagged, h, ho]
        have hop : ops ++ operands (a :: r) = (ops ++ [a]) ++ operands r := by rw [operands_arg r h ho]; simp
        rw [hs, ht, hop]
        exact scan_spec letters r (ops ++ [a])
      · obtain ⟨c, more, rfl⟩ : ∃ c more, a = '-' :: c :: more := by
          unfold isOpt at ho
          split at ho
          · exact ⟨_, _, rfl⟩
          · cases ho
        have hs : scan letters ops (('-' :: c :: more) :: r) = readLetter letters ops c more ('-' :: c :: more) r := by
          rw [scan, if_neg h]
        have ht : tagged (('-' :: c :: more) :: r) =
            (c, if more = [] then r else ('-' :: c :: more) :: r) :: (tagLetters ('-' :: c :: more) r more ++ tagged r) := by
          simp [tagged, h, ho, tagLetters]
        rw [hs, ht, operands_opt r h ho]
        constructor
        · intro h; cases h
        · intro c' R P he
          injection he with h1 h2
          injection h1 with h1 h3
          subst h1 h2 h3
          cases more with
          | nil => simp [readLetter, pending, pendOps, tagLetters]
          | cons d m => simp [readLetter, pending, pendOps]

theorem getopt_spec (letters : List Char) (s : St) (hs : s.next ≠ [] → s.rest ≠ []) :
    (pending s = [] → (getopt letters s).1 = none ∧ (getopt letters s).2.rest = pendOps s) ∧
    (∀ c R P, pending s = (c, R) :: P → (getopt letters s).1 = some (if c ∈ letters then c else '?') ∧
      (getopt letters s).2.rest = R ∧ pending (getopt letters s).2 = P ∧ pendOps (getopt letters s).2 = pendOps s) := by
  obtain ⟨ops, next, rest⟩ := s
  cases next with
  | nil => exact scan_spec letters rest ops
  | cons c more =>
    cases rest with
    | nil => exact absurd rfl (hs (by simp))
    | cons a r =>
      constructor
      · intro h; simp [pending, tagLetters] at h
      · intro c' R P he
        simp only [pending, tagLetters, List.cons_append] at he
        injection he with h1 h2
        injection h1 with h1 h3
        subst h1 h2 h3
        cases more with
        | nil => simp [getopt, readLetter, pending, pendOps, tagLetters]
        | cons d m => simp [getopt, readLetter, pending, pendOps]

theorem readLetter_ok (letters ops c more a r) :
    (readLetter letters ops c more a r).2.next ≠ [] → (readLetter letters ops c more a r).2.rest ≠ [] := by
  unfold readLetter
  by_cases h : more = [] <;> simp [h]

theorem scan_ok (letters : List Char) : ∀ (rest ops : List (List Char)),
    (scan letters ops rest).2.next ≠ [] → (scan letters ops rest).2.rest ≠ []
  | [], ops => by simp [scan]
  | a :: r, ops => by
    unfold scan
    split
    · simp
    · split
      · exact readLetter_ok _ _ _ _ _ _
      · exact scan_ok letters r _

theorem getopt_ok (letters : List Char) (s : St) (hs : s.next ≠ [] → s.rest ≠ []) :
    (getopt letters s).2.next ≠ [] → (getopt letters s).2.rest ≠ [] := by
  obtain ⟨ops, next, rest⟩ := s
  cases next with
  | nil => exact scan_ok letters rest ops
  | cons c more =>
    cases rest with
    | nil => exact absurd rfl (hs (by simp))
    | cons a r => exact readLetter_ok _ _ _ _ _ _

/-! ### The loop -/

theorem mem_vc (R : List (List Char)) (P : List (Char × List (List Char))) :
    decide ('v' ∈ List.map Prod.fst (('c', R) :: P)) = decide ('v' ∈ List.map Prod.fst P) := by
  apply decide_eq_decide.mpr
  rw [List.map_cons, List.mem_cons]
  exact or_iff_right (by decide : ¬ ('v' : Char) = 'c')

theorem mem_cv (R : List (List Char)) (P : List (Char × List (List Char))) :
    decide ('c' ∈ List.map Prod.fst (('v', R) :: P)) = decide ('c' ∈ List.map Prod.fst P) := by
  apply decide_eq_decide.mpr
  rw [List.map_cons, List.mem_cons]
  exact or_iff_right (by decide : ¬ ('c' : Char) = 'v')

theorem mem_head (c : Char) (R : List (List Char)) (P : List (Char × List (List Char))) :
    decide (c ∈ List.map Prod.fst ((c, R) :: P)) = true := by
  rw [List.map_cons]; simp

theorem optLoop_fine (letters : List Char) : ∀ (L : List (Char × List (List Char))) (n : ℕ) (s : St) (chk vb : Bool),
    (s.next ≠ [] → s.rest ≠ []) → pending s = L → (∀ c ∈ L.map Prod.fst, c ∈ letters ∧ (c = 'c' ∨ c = 'v')) → L.length < n →
    ∃ s', s'.rest = pendOps s ∧
      optLoop letters n s chk vb false = some (s', chk || decide ('c' ∈ L.map Prod.fst), vb || decide ('v' ∈ L.map Prod.fst))
  | [], n, s, chk, vb, hs, hp, _, hn => by
    obtain ⟨m, rfl⟩ : ∃ m, n = m + 1 := ⟨n - 1, by simp at hn; omega⟩
    obtain ⟨h1, h2⟩ := (getopt_spec letters s hs).1 hp
    refine ⟨(getopt letters s).2, h2, ?_⟩
    rw [optLoop]
    generalize getopt letters s = g at h1
    obtain ⟨g1, g2⟩ := g
    simp only at h1
    subst h1
    simp
  | (c, R) :: P, n, s, chk, vb, hs, hp, hf, hn => by
    obtain ⟨m, rfl⟩ : ∃ m, n = m + 1 := ⟨n - 1, by simp at hn; omega⟩
    obtain ⟨h1, h2, h3, h4⟩ := (getopt_spec letters s hs).2 c R P hp
    have hok := getopt_ok letters s hs
    have hc := hf c (by simp)
    rw [optLoop]
    generalize getopt letters s = g at h1 h2 h3 h4 hok
    obtain ⟨g1, g2⟩ := g
    simp only at h1 h2 h3 h4 hok
    rw [if_pos hc.1] at h1
    subst h1
    have hf' : ∀ c ∈ P.map Prod.fst, c ∈ letters ∧ (c = 'c' ∨ c = 'v') := fun d hd => hf d (by simp only [List.map_cons]; exact List.mem_cons_of_mem _ hd)
    have hn' : P.length < m := by simp at hn; omega
    rcases hc.2 with rfl | rfl
    · obtain ⟨s', e1, e2⟩ := optLoop_fine letters P m g2 true vb hok h3 hf' hn'
      refine ⟨s', e1.trans h4, ?_⟩
      simp only [Bool.false_eq_true, if_false]
      rw [e2, mem_head, mem_vc]; simp
    · obtain ⟨s', e1, e2⟩ := optLoop_fine letters P m g2 chk true hok h3 hf' hn'
      refine ⟨s', e1.trans h4, ?_⟩
      simp only [Bool.false_eq_true, if_false]
      rw [e2, mem_head, mem_cv]; simp

/-- After a letter that is neither `c` nor `v`: one more call of `getopt`. -/
theorem optLoop_bad (letters : List Char) : ∀ (L : List (Char × List (List Char))) (b : Char) (R : List (List Char))
    (T : List (Char × List (List Char))) (n : ℕ) (s : St) (chk vb : Bool),
    (s.next ≠ [] → s.rest ≠ []) → pending s = L ++ (b, R) :: T → (∀ c ∈ L.map Prod.fst, c ∈ letters ∧ (c = 'c' ∨ c = 'v')) →
    ¬ (b ∈ letters ∧ (b = 'c' ∨ b = 'v')) → L.length + 1 < n →
    ∃ s', s'.rest = (match T with | [] => pendOps s | (_, R') :: _ => R') ∧
      optLoop letters n s chk vb false = some (s', chk || decide ('c' ∈ L.map Prod.fst), vb || decide ('v' ∈ L.map Prod.fst))
  | [], b, R, T, n, s, chk, vb, hs, hp, _, hb, hn => by
    obtain ⟨m, rfl⟩ : ∃ m, n = m + 2 := ⟨n - 2, by simp at hn; omega⟩
    obtain ⟨h1, h2, h3, h4⟩ := (getopt_spec letters s hs).2 b R T hp
    have hok := getopt_ok letters s hs
    rw [optLoop]
    generalize getopt letters s = g at h1 h2 h3 h4 hok
    obtain ⟨g1, g2⟩ := g
    simp only at h1 h2 h3 h4 hok
    refine ⟨(getopt letters g2).2, ?_, ?_⟩
    · cases T with
      | nil => exact ((getopt_spec letters g2 hok).1 h3).2.trans h4
      | cons t T => exact ((getopt_spec letters g2 hok).2 t.1 t.2 T h3).2.1
    · subst h1
      have hl : optLoop letters (m + 1) g2 chk vb true = some ((getopt letters g2).2, chk, vb) := by
        rw [optLoop]; simp
      simp only [Bool.false_eq_true, if_false, List.map_nil, List.not_mem_nil, decide_false, Bool.or_false]
      split
      · rename_i h; cases h
      · rename_i h
        exfalso
        injection h with h
        by_cases hm : b ∈ letters
        · rw [if_pos hm] at h; exact hb ⟨hm, Or.inl h⟩
        · rw [if_neg hm] at h; exact absurd h (by decide)
      · rename_i h
        exfalso
        injection h with h
        by_cases hm : b ∈ letters
        · rw [if_pos hm] at h; exact hb ⟨hm, Or.inr h⟩
        · rw [if_neg hm] at h; exact absurd h (by decide)
      · exact hl
  | (c, R0) :: P, b, R, T, n, s, chk, vb, hs, hp, hf, hb, hn => by
    obtain ⟨m, rfl⟩ : ∃ m, n = m + 1 := ⟨n - 1, by simp at hn; omega⟩
    obtain ⟨h1, h2, h3, h4⟩ := (getopt_spec letters s hs).2 c R0 (P ++ (b, R) :: T) hp
    have hok := getopt_ok letters s hs
    have hc := hf c (by simp)
    rw [optLoop]
    generalize getopt letters s = g at h1 h2 h3 h4 hok
    obtain ⟨g1, g2⟩ := g
    simp only at h1 h2 h3 h4 hok
    rw [if_pos hc.1] at h1
    subst h1
    have hf' : ∀ c ∈ P.map Prod.fst, c ∈ letters ∧ (c = 'c' ∨ c = 'v') := fun d hd => hf d (by simp only [List.map_cons]; exact List.mem_cons_of_mem _ hd)
    have hn' : P.length + 1 < m := by simp at hn; omega
    rcases hc.2 with rfl | rfl
    · obtain ⟨s', e1, e2⟩ := optLoop_bad letters P b R T m g2 true vb hok h3 hf' hb hn'
      rw [h4] at e1
      refine ⟨s', e1, ?_⟩
      simp only [Bool.false_eq_true, if_false]
      rw [e2, mem_head, mem_vc]; simp
    · obtain ⟨s', e1, e2⟩ := optLoop_bad letters P b R T m g2 chk true hok h3 hf' hb hn'
      rw [h4] at e1
      refine ⟨s', e1, ?_⟩
      simp only [Bool.false_eq_true, if_false]
      rw [e2, mem_head, mem_cv]; simp

theorem tagged_length : ∀ args : List (List Char), (tagged args).length ≤ (args.map List.length).sum := by
  intro args
  have : (tagged args).length = (optLetters args).length := by rw [← tagged_fst]; simp
  rw [this]; clear this
  induction args with
  | nil => simp [optLetters, front]
  | cons a r ih =>
    by_cases h : a = ['-', '-']
    · subst h; rw [optLetters_dd]; simp
    · cases ho : isOpt a
      · rw [optLetters_arg r h ho]; simp; omega
      · rw [optLetters_opt r h ho]; simp; omega

theorem tagLetters_append (a r) (x : Char) (more : List Char) : ∀ u, tagLetters a r (u ++ x :: more) =
    (tagLetters a r (u ++ x :: more)).take u.length ++ (x, if more = [] then r else a :: r) :: tagLetters a r more
  | [] => by simp [tagLetters]
  | c :: u => by simp [tagLetters]; exact tagLetters_append a r x more u

theorem tagged_append (q : List (List Char)) : ∀ p : List (List Char), ['-', '-'] ∉ p →
    ∃ M, tagged (p ++ q) = M ++ tagged q ∧ M.map Prod.fst = optLetters p
  | [], _ => ⟨[], rfl, rfl⟩
  | a :: p, h => by
    simp only [List.mem_cons, not_or] at h
    obtain ⟨M, e1, e2⟩ := tagged_append q p h.2
    have hd : a ≠ ['-', '-'] := fun e => h.1 e.symm
    cases ho : isOpt a
    · refine ⟨M, ?_, ?_⟩
      · simp [tagged, hd, ho, e1]
      · rw [e2, optLetters_arg p hd ho]
    · refine ⟨tagLetters a (p ++ q) a.tail ++ M, ?_, ?_⟩
      · simp [tagged, hd, ho, e1]
      · rw [List.map_append, tagLetters_fst, e2, optLetters_opt p hd ho]

end MTT.Getopt
