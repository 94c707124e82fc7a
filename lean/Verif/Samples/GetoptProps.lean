import Verif.Samples.GetoptLemmas
import Verif.Samples.ParityTestProps
import Verif.Samples.FixTestProps
import Verif.Samples.LineTextProps

/-!
# C104: the command lines of calc_parity and calc_fixpoint
-/

namespace MTT.Getopt

/-- The letters `c` and `v` (and no other) are obeyed by the program with the option string `letters`. -/
def Obeyed (letters : List Char) (c : Char) : Prop := c ∈ letters ∧ (c = 'c' ∨ c = 'v')

instance (letters : List Char) (c : Char) : Decidable (Obeyed letters c) := by unfold Obeyed; infer_instance

/-- **C104.**  If all option letters are obeyed, the options may stand anywhere before `--`, together or apart and repeated; the text is the
first argument that is not an option; without such an argument the null pointer is read. -/
theorem option_fine {letters : List Char} {args : List (List Char)} (h : ∀ c ∈ optLetters args, Obeyed letters c) :
    option letters args =
      (operands args).head?.map fun a => (decide ('c' ∈ optLetters args), decide ('v' ∈ optLetters args), a) := by
  have hl := tagged_length args
  have hf : ∀ c ∈ (tagged args).map Prod.fst, c ∈ letters ∧ (c = 'c' ∨ c = 'v') := by rw [tagged_fst]; exact h
  obtain ⟨s', e1, e2⟩ := optLoop_fine letters (tagged args) ((args.map List.length).sum + 2) ⟨[], [], args⟩ false false
    (by simp) rfl hf (by omega)
  unfold option
  rw [e2, ← tagged_fst]
  dsimp only
  rw [e1]
  simp [pendOps]

theorem split_map {α β : Type} (f : α → β) : ∀ (l : List α) (x : List β) (b : β) (y : List β), l.map f = x ++ b :: y →
    ∃ l1 a l2, l = l1 ++ a :: l2 ∧ l1.map f = x ∧ f a = b ∧ l2.map f = y := by
  intro l x b y h
  obtain ⟨l1, l2, rfl, h1, h2⟩ := List.map_eq_append_iff.1 h
  obtain ⟨a, l3, rfl, h3, h4⟩ := List.map_eq_cons_iff.1 h2
  exact ⟨l1, a, l3, rfl, h1, h3, h4⟩

/-- **C104.**  A letter that is not obeyed (such as `h`) and is the last one changes nothing: there is neither a help text nor an error. -/
theorem option_bad_last {letters : List Char} {args : List (List Char)} {good : List Char} {b : Char}
    (hl : optLetters args = good ++ [b]) (hg : ∀ c ∈ good, Obeyed letters c) (hb : ¬ Obeyed letters b) :
    option letters args = (operands args).head?.map fun a => (decide ('c' ∈ good), decide ('v' ∈ good), a) := by
  have hn := tagged_length args
  rw [← tagged_fst] at hl
  obtain ⟨L, ⟨b', R⟩, T, e, e1, e2, e3⟩ := split_map _ _ _ _ _ hl
  simp only [List.map_eq_nil_iff] at e2 e3
  subst e1 e2 e3
  have hlen : (tagged args).length = L.length + 1 := by rw [e]; simp
  obtain ⟨s', e4, e5⟩ := optLoop_bad letters L b' R [] ((args.map List.length).sum + 2) ⟨[], [], args⟩ false false
    (by simp) e hg hb (by omega)
  unfold option
  rw [e5]
  dsimp only at e4 ⊢
  rw [e4]
  simp [pendOps]

/-- **C104.**  A letter that is not obeyed swallows the letter `x` after it, whatever it is, and ends the options; the text is then what
stands behind the element of `x`, or this element itself if `x` is not its last letter. -/
theorem option_bad_next {letters : List Char} {p q : List (List Char)} {u more good : List Char} {b x : Char}
    (hp : ['-', '-'] ∉ p) (ha : ('-' :: (u ++ x :: more)) ≠ ['-', '-']) (hl : optLetters p ++ u = good ++ [b])
    (hg : ∀ c ∈ good, Obeyed letters c) (hb : ¬ Obeyed letters b) :
    option letters (p ++ ('-' :: (u ++ x :: more)) :: q) =
      (if more = [] then q.head? else some ('-' :: (u ++ x :: more))).map fun a =>
        (decide ('c' ∈ good), decide ('v' ∈ good), a) := by
  set a : List Char := '-' :: (u ++ x :: more) with hadef
  have hn := tagged_length (p ++ a :: q)
  obtain ⟨M, m1, m2⟩ := tagged_append (a :: q) p hp
  have hopt : isOpt a = true := by
    rw [hadef]
    cases u with
    | nil => exact isOpt_of x more ha
    | cons d u => exact isOpt_of d (u ++ x :: more) ha
  have ht : tagged (a :: q) = (tagLetters a q (u ++ x :: more)).take u.length ++
      (x, if more = [] then q else a :: q) :: (tagLetters a q more ++ tagged q) := by
    rw [tagged, if_neg ha, if_pos hopt, hadef, List.tail_cons, ← hadef]
    conv_lhs => rw [tagLetters_append]
    simp
  rw [ht, ← List.append_assoc] at m1
  have hfst : (M ++ (tagLetters a q (u ++ x :: more)).take u.length).map Prod.fst = good ++ [b] := by
    rw [List.map_append, List.map_take, tagLetters_fst, m2, List.take_left, hl]
  obtain ⟨L, ⟨b', R⟩, T, e, e1, e2, e3⟩ := split_map _ _ _ _ _ hfst
  simp only [List.map_eq_nil_iff] at e2 e3
  subst e1 e2 e3
  rw [e, List.append_assoc, List.singleton_append] at m1
  have hlen : L.length + 2 ≤ (tagged (p ++ a :: q)).length := by rw [m1]; simp
  obtain ⟨s', e4, e5⟩ := optLoop_bad letters L b' R _ (((p ++ a :: q).map List.length).sum + 2) ⟨[], [], p ++ a :: q⟩ false false
    (by simp) m1 hg hb (by omega)
  unfold option
  rw [e5]
  dsimp only at e4 ⊢
  rw [e4]
  by_cases hm : more = [] <;> simp [hm]

-- The letters and the operands of some command lines.
example : optLetters ["-c".toList, "607,2".toList, "-vc".toList, "--".toList, "-h".toList] = ['c', 'v', 'c'] ∧
    operands ["-c".toList, "607,2".toList, "-vc".toList, "--".toList, "-h".toList] = ["607,2".toList, "-h".toList] ∧
    optLetters ["-".toList, "".toList, "--x".toList] = ['-', 'x'] ∧ operands ["-".toList, "".toList, "--x".toList] = [['-'], []] := by
  decide

-- The options may follow the text.
example : option "hcv".toList ["607,2".toList, "-c".toList] = some (true, false, "607,2".toList) := by
  rw [option_fine (by decide)]; decide

-- No text, no help: the null pointer is read.
example : option "hcv".toList ["-c".toList] = none ∧ option "hcv".toList [] = none ∧ option "hcv".toList ["-h".toList] = none := by
  refine ⟨?_, ?_, ?_⟩
  · rw [option_fine (by decide)]; decide
  · rw [option_fine (by decide)]; decide
  · rw [option_bad_last (good := []) (b := 'h') (by decide) (by decide) (by decide)]; decide

-- `-h` in front of `-c`: `-c` has no effect.
example : option "hcv".toList ["-h".toList, "-c".toList, "607,2".toList] = some (false, false, "607,2".toList) := by
  exact option_bad_next (letters := "hcv".toList) (p := ["-h".toList]) (u := []) (x := 'c') (more := []) (q := ["607,2".toList])
    (good := []) (b := 'h') (by decide) (by decide) (by decide) (by decide) (by decide)

-- The same behind the text: the null pointer.
example : option "hcv".toList ["607,2".toList, "-h".toList, "-c".toList] = none :=
  option_bad_next (letters := "hcv".toList) (p := ["607,2".toList, "-h".toList]) (u := []) (x := 'c') (more := []) (q := [])
    (good := []) (b := 'h') (by decide) (by decide) (by decide) (by decide) (by decide)

-- In one element: the element itself is taken for the text.
example : option "hcv".toList ["-hcv".toList, "607,2".toList] = some (false, false, "-hcv".toList) :=
  option_bad_next (letters := "hcv".toList) (p := []) (u := ['h']) (x := 'c') (more := ['v']) (q := ["607,2".toList])
    (good := []) (b := 'h') (by decide) (by decide) (by decide) (by decide) (by decide)

-- `calc_fixpoint` does not know `-v`.
example : option "hc".toList ["-cv".toList, "521,3".toList] = some (true, false, "521,3".toList) := by
  rw [option_bad_last (good := ['c']) (b := 'v') (by decide) (by decide) (by decide)]; decide

end MTT.Getopt

namespace MTT.SFMT

open Polynomial PIS Search W128 Text Parity Getopt ParityTest

variable {mexp : ℕ} {mps : MPS} {kernel : KernelFn}

/-- **C104.**  `calc_parity` of sfmtdc, with a line of sfmtdc as its first operand and the options `-c` and `-v` at will: the line with a
good parity is printed, and the self-test follows exactly if there is a `c`; the steps of the self-test are shown only if there is a `v`. -/
theorem parityCommand_line (hm : MinPolySeqSpec mps) (hK : KernelSpec kernel) (hmexp : mexp ∈ allowedMexp) {fuel : ℕ}
    (hfuel : (mexp / 128 + 1) * 128 < fuel) (sh : W128) {l : Line} (hl : GoodLine mexp l) {args : List (List Char)}
    (hfine : ∀ c ∈ optLetters args, c = 'c' ∨ c = 'v') (hop : (operands args).head? = some l.text) :
    ∃ l', l'.param = l.param ∧ GoodFields mexp l' ∧
      ('c' ∉ optLetters args → parityCommand mps kernel fuel sh (mk32 1 0 0 0) args = some (getString l' ++ ['\n'], 0)) ∧
      ('c' ∈ optLetters args → ∃ t r, ('v' ∉ optLetters args → t = []) ∧
        Verdict (fun k => HasLarge mexp (seed (mk64 (BitVec.ofNat 64 k) 0) l.gen)) r ∧ r ≠ "test failed at count 0\n".toList ∧
        parityCommand mps kernel fuel sh (mk32 1 0 0 0) args =
          some (headText true mexp ((mexp / 128 + 1) * 128) ++ getString l' ++ ['\n'] ++ t ++ r, 0)) := by
  have hf : ∀ c ∈ optLetters args, Obeyed ['h', 'c', 'v'] c := by
    intro c hc
    refine ⟨?_, hfine c hc⟩
    rcases hfine c hc with rfl | rfl <;> decide
  have hcmd : parityCommand mps kernel fuel sh (mk32 1 0 0 0) args = calcParityMain mps kernel fuel sh (mk32 1 0 0 0)
      (decide ('c' ∈ optLetters args)) (decide ('v' ∈ optLetters args)) l.text := by
    unfold parityCommand
    rw [option_fine hf, hop]
    rfl
  rw [hcmd]
  obtain ⟨h1, h2, h3, h4, h5⟩ := allowed mexp hmexp
  by_cases hc : 'c' ∈ optLetters args
  · obtain ⟨l', t, r, e1, e2, e3, e4, e5, e6⟩ := calcParityMain_line hm hK hmexp hfuel sh (decide ('v' ∈ optLetters args)) hl
    refine ⟨l', e1, e2, fun h => absurd hc h, fun _ => ⟨t, r, fun h => e3 (decide_eq_false h), e4, e5, ?_⟩⟩
    rw [decide_eq_true hc]
    exact e6
  · have hone := hl.one
    obtain ⟨hme, hp, -⟩ := hl.toGoodFields
    subst hme
    unfold Line.text
    rw [List.append_assoc, List.append_assoc, List.append_assoc, List.append_assoc]
    rcases calcParityMain_correct hm hK (Mexp.table_prime _ h4 h5) h1 h2 h3 hfuel sh (mk32 1 0 0 0)
      (decide ('c' ∈ optLetters args)) (decide ('v' ∈ optLetters args)) hp
      (decInt l.delta32 ++ ([','] ++ (decInt l.delta64 ++ ([','] ++ decInt l.delta128)))) with
      ⟨e, -⟩ | ⟨-, l', e1, e2, e3, -⟩
    · exact absurd hone e
    · exact ⟨l', e1, e2, fun _ => e3 (decide_eq_false hc), fun h => absurd h hc⟩

/-- **C104.**  Without a text the behaviour is undefined; `-h` alone is no exception. -/
theorem parityCommand_no_text (fuel : ℕ) (sh w : W128) {args : List (List Char)}
    (h : (∀ c ∈ optLetters args, c = 'c' ∨ c = 'v') ∨ optLetters args = ['h']) (hop : operands args = []) :
    parityCommand mps kernel fuel sh w args = none := by
  unfold parityCommand
  rcases h with h | h
  · rw [option_fine (fun c hc => by
      have hcc := h c hc
      refine ⟨?_, hcc⟩
      rcases hcc with rfl | rfl <;> decide), hop]
    rfl
  · rw [option_bad_last (good := []) h (by simp) (by decide), hop]
    rfl

/-- **C104.**  A text with `-h` and any further option letter `x` behind it: the behaviour is undefined. -/
theorem parityCommand_help_after (fuel : ℕ) (sh w : W128) {line : List Char} (h1 : isOpt line = false)
    (h2 : line ≠ ['-', '-']) {x : Char} (hx : x ≠ '-') :
    parityCommand mps kernel fuel sh w [line, ['-', 'h'], ['-', x]] = none := by
  unfold parityCommand
  have hh : optLetters [line, ['-', 'h']] ++ [] = [] ++ ['h'] := by rw [optLetters_arg _ h2 h1]; decide
  have := option_bad_next (letters := ['h', 'c', 'v']) (p := [line, ['-', 'h']]) (u := []) (x := x) (more := []) (q := [])
    (good := []) (b := 'h') (by
      simp only [List.mem_cons, List.not_mem_nil, or_false, not_or]
      exact ⟨fun e => h2 e.symm, by decide⟩) (by simpa using hx) hh (by simp) (by decide)
  rw [show option ['h', 'c', 'v'] [line, ['-', 'h'], ['-', x]] = none from this]

/-- **C104.**  `-hcv` in front of any text: the option itself is taken for the text, and the behaviour is undefined. -/
theorem parityCommand_help_first (fuel : ℕ) (sh w : W128) (line : List Char) :
    parityCommand mps kernel fuel sh w [['-', 'h', 'c', 'v'], line] = none := by
  unfold parityCommand
  have := option_bad_next (letters := ['h', 'c', 'v']) (p := []) (u := ['h']) (x := 'c') (more := ['v']) (q := [line])
    (good := []) (b := 'h') (by decide) (by decide) (by decide) (by decide) (by decide)
  rw [show option ['h', 'c', 'v'] [['-', 'h', 'c', 'v'], line] = some (false, false, ['-', 'h', 'c', 'v']) from this]
  dsimp only
  unfold calcParityMain
  rw [parse_short (by decide)]

-- The hypotheses of `parityCommand_line` about the command line, and of the others.
example (l : Line) (h1 : isOpt l.text = false) (h2 : l.text ≠ ['-', '-']) :
    (∀ c ∈ optLetters [l.text, "-cv".toList], c = 'c' ∨ c = 'v') ∧ (operands [l.text, "-cv".toList]).head? = some l.text := by
  rw [optLetters_arg _ h2 h1, operands_arg _ h2 h1]
  exact ⟨by decide, rfl⟩

example : isOpt "607,2,15,3,13,3,fdff37ff,ef7f3f7d,ff777b7d,7ff7fb2f,00000001,00000000,00000000,5986f054,".toList = false ∧
    operands ["-c".toList, "-v".toList] = [] ∧ optLetters ["-c".toList, "-v".toList] = ['c', 'v'] := by decide

end MTT.SFMT

namespace MTT.DSFMT

open Polynomial PIS Search W128 Parity Anni SIMD Text Getopt ParityTest

variable {n mexp : ℕ} {mps : MPS} {kernel : KernelFn} {xgcd : XgcdFn}

/-- **C104.**  `calc_parity` of dSFMTdc, with a line of dSFMTdc as its first operand and the options `-c` and `-v` at will. -/
theorem parityCommand_line (hm : MinPolySeqSpec mps) (hK : KernelSpec kernel) (hmexp : mexp ∈ allowedMexp)
    (hn : (mexp - 128) / 104 + 1 = n) {fuel : ℕ} (hfuel : n * 104 + 128 < fuel) (sh : W128) (p1 p2 : BitVec 64) {l : Line}
    (hl : GoodLine n mexp l) {args : List (List Char)} (hfine : ∀ c ∈ optLetters args, c = 'c' ∨ c = 'v')
    (hop : (operands args).head? = some l.text) :
    ∃ l', l'.param = l.param ∧ l'.fix1 = l.fix1 ∧ l'.fix2 = l.fix2 ∧ GoodFields n mexp l' ∧
      ('c' ∉ optLetters args → parityCommand mps kernel fuel sh p1 p2 (mk32 1 0 0 0) args = some (getString l' ++ ['\n'], 0)) ∧
      ('c' ∈ optLetters args → ∃ t r, ('v' ∉ optLetters args → t = []) ∧
        Verdict (fun k => HasLarge n mexp (seed (mk64 (BitVec.ofNat 64 k) 0) l.gen)) r ∧ r ≠ "test failed at count 0\n".toList ∧
        parityCommand mps kernel fuel sh p1 p2 (mk32 1 0 0 0) args =
          some (headText true mexp (n * 104 + 128) ++ getString l' ++ ['\n'] ++ t ++ r, 0)) := by
  have hf : ∀ c ∈ optLetters args, Obeyed ['h', 'c', 'v'] c := by
    intro c hc
    refine ⟨?_, hfine c hc⟩
    rcases hfine c hc with rfl | rfl <;> decide
  have hcmd : parityCommand mps kernel fuel sh p1 p2 (mk32 1 0 0 0) args = calcParityMain mps kernel fuel sh p1 p2 (mk32 1 0 0 0)
      (decide ('c' ∈ optLetters args)) (decide ('v' ∈ optLetters args)) l.text := by
    unfold parityCommand
    rw [option_fine hf, hop]
    rfl
  rw [hcmd]
  obtain ⟨a1, a3, a4, a5⟩ := allowed mexp hmexp
  by_cases hc : 'c' ∈ optLetters args
  · obtain ⟨l', t, r, e1, e2, e3, e4, e5, e6, e7, e8⟩ := calcParityMain_line hm hK hmexp hn hfuel sh p1 p2
      (decide ('v' ∈ optLetters args)) hl
    refine ⟨l', e1, e2, e3, e4, fun h => absurd hc h, fun _ => ⟨t, r, fun h => e5 (decide_eq_false h), e6, e7, ?_⟩⟩
    rw [decide_eq_true hc]
    exact e8
  · have hone := hl.one
    obtain ⟨hme, hp, hfx, -⟩ := hl.toGoodFields
    subst hme
    unfold Line.text
    rcases calcParityMain_correct hm hK (Mexp.table_prime _ a4 a5) a1 a3 hn hfuel sh hp hfx p1 p2 (mk32 1 0 0 0)
      (decide ('c' ∈ optLetters args)) (decide ('v' ∈ optLetters args)) (decInt l.delta52) with
      ⟨e, -⟩ | ⟨-, l', e1, e2, e3, e4, e5, -⟩
    · exact absurd hone e
    · exact ⟨l', e1, e2, e3, e4, fun _ => e5 (decide_eq_false hc), fun h => absurd h hc⟩

/-- **C104.**  Without a text the behaviour is undefined; `-h` alone is no exception. -/
theorem parityCommand_no_text (fuel : ℕ) (sh : W128) (p1 p2 : BitVec 64) (w : W128) {args : List (List Char)}
    (h : (∀ c ∈ optLetters args, c = 'c' ∨ c = 'v') ∨ optLetters args = ['h']) (hop : operands args = []) :
    parityCommand mps kernel fuel sh p1 p2 w args = none := by
  unfold parityCommand
  rcases h with h | h
  · rw [option_fine (fun c hc => by
      have hcc := h c hc
      refine ⟨?_, hcc⟩
      rcases hcc with rfl | rfl <;> decide), hop]
    rfl
  · rw [option_bad_last (good := []) h (by simp) (by decide), hop]
    rfl

/-- **C104.**  A text with `-h` and any further option letter `x` behind it: the behaviour is undefined. -/
theorem parityCommand_help_after (fuel : ℕ) (sh : W128) (p1 p2 : BitVec 64) (w : W128) {line : List Char} (h1 : isOpt line = false)
    (h2 : line ≠ ['-', '-']) {x : Char} (hx : x ≠ '-') :
    parityCommand mps kernel fuel sh p1 p2 w [line, ['-', 'h'], ['-', x]] = none := by
  unfold parityCommand
  have hh : optLetters [line, ['-', 'h']] ++ [] = [] ++ ['h'] := by rw [optLetters_arg _ h2 h1]; decide
  have := option_bad_next (letters := ['h', 'c', 'v']) (p := [line, ['-', 'h']]) (u := []) (x := x) (more := []) (q := [])
    (good := []) (b := 'h') (by
      simp only [List.mem_cons, List.not_mem_nil, or_false, not_or]
      exact ⟨fun e => h2 e.symm, by decide⟩) (by simpa using hx) hh (by simp) (by decide)
  rw [show option ['h', 'c', 'v'] [line, ['-', 'h'], ['-', x]] = none from this]

/-- **C104.**  `-hcv` in front of any text: the option itself is taken for the text, and the behaviour is undefined. -/
theorem parityCommand_help_first (fuel : ℕ) (sh : W128) (p1 p2 : BitVec 64) (w : W128) (line : List Char) :
    parityCommand mps kernel fuel sh p1 p2 w [['-', 'h', 'c', 'v'], line] = none := by
  unfold parityCommand
  have := option_bad_next (letters := ['h', 'c', 'v']) (p := []) (u := ['h']) (x := 'c') (more := ['v']) (q := [line])
    (good := []) (b := 'h') (by decide) (by decide) (by decide) (by decide) (by decide)
  rw [show option ['h', 'c', 'v'] [['-', 'h', 'c', 'v'], line] = some (false, false, ['-', 'h', 'c', 'v']) from this]
  dsimp only
  unfold calcParityMain
  rw [show parseFix p1 p2 ['-', 'h', 'c', 'v'] = none from rfl]

/-- **C104.**  `calc_fixpoint`, with a line of dSFMTdc as its first operand and the option `-c` at will. -/
theorem fixCommand_line (hm : MinPolySeqSpec mps) (hX : XgcdSpec xgcd) (hmexp : mexp ∈ allowedMexp)
    (hn : (mexp - 128) / 104 + 1 = n) (f1 f2 p1 p2 : BitVec 64) {l : Line} (hl : GoodLine n mexp l) {args : List (List Char)}
    (hfine : ∀ c ∈ optLetters args, c = 'c') (hop : (operands args).head? = some l.text) :
    ∃ l' : Fields, l'.mexp = mexp ∧ l'.param = l.param ∧ GoodFix n mexp l' ∧
      ('c' ∉ optLetters args → fixCommand mps xgcd f1 f2 p1 p2 (mk32 1 0 0 0) args = some (getString l' ++ ['\n'])) ∧
      ('c' ∈ optLetters args → ∃ a b, fixCommand mps xgcd f1 f2 p1 p2 (mk32 1 0 0 0) args = some (a ++ b) ∧
        (b = "chk_fix1 error\n".toList ∨ ∃ c, b = getString l' ++ ['\n'] ++ c)) := by
  have hf : ∀ c ∈ optLetters args, Obeyed ['h', 'c'] c := by
    intro c hc
    refine ⟨?_, .inl (hfine c hc)⟩
    rw [hfine c hc]; decide
  have hcmd : fixCommand mps xgcd f1 f2 p1 p2 (mk32 1 0 0 0) args = calcFixMain mps xgcd f1 f2 p1 p2 (mk32 1 0 0 0)
      (decide ('c' ∈ optLetters args)) l.text := by
    unfold fixCommand
    rw [option_fine hf, hop]
    rfl
  rw [hcmd]
  obtain ⟨l', e1, e2, e3, e4, e5⟩ := calcFixMain_line hm hX hmexp hn f1 f2 p1 p2 hl
  refine ⟨l', e1, e2, e3, fun h => ?_, fun h => ?_⟩
  · rw [decide_eq_false h]; exact e4
  · rw [decide_eq_true h]; exact e5

/-- **C104.**  Without a text the behaviour is undefined; `-h` alone is no exception. -/
theorem fixCommand_no_text (f1 f2 p1 p2 : BitVec 64) (w : W128) {args : List (List Char)}
    (h : (∀ c ∈ optLetters args, c = 'c') ∨ optLetters args = ['h']) (hop : operands args = []) :
    fixCommand mps xgcd f1 f2 p1 p2 w args = none := by
  unfold fixCommand
  rcases h with h | h
  · rw [option_fine (fun c hc => by
      have hcc := h c hc
      refine ⟨?_, .inl hcc⟩
      rw [hcc]; decide), hop]
    rfl
  · rw [option_bad_last (good := []) h (by simp) (by decide), hop]
    rfl

/-- **C104.**  A text with `-h` and any further option letter `x` behind it: the behaviour is undefined. -/
theorem fixCommand_help_after (f1 f2 p1 p2 : BitVec 64) (w : W128) {line : List Char} (h1 : isOpt line = false)
    (h2 : line ≠ ['-', '-']) {x : Char} (hx : x ≠ '-') :
    fixCommand mps xgcd f1 f2 p1 p2 w [line, ['-', 'h'], ['-', x]] = none := by
  unfold fixCommand
  have hh : optLetters [line, ['-', 'h']] ++ [] = [] ++ ['h'] := by rw [optLetters_arg _ h2 h1]; decide
  have := option_bad_next (letters := ['h', 'c']) (p := [line, ['-', 'h']]) (u := []) (x := x) (more := []) (q := [])
    (good := []) (b := 'h') (by
      simp only [List.mem_cons, List.not_mem_nil, or_false, not_or]
      exact ⟨fun e => h2 e.symm, by decide⟩) (by simpa using hx) hh (by simp) (by decide)
  rw [show option ['h', 'c'] [line, ['-', 'h'], ['-', x]] = none from this]

end MTT.DSFMT
