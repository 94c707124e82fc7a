import Verif.Samples.OldFormat

/-!
# The command line of make_old_format

make_old_format reads `argv[1]` when the loop around `getopt` has ended.  What stands there depends on the moment at which GNU `getopt` exchanges
arguments, so this model of `getopt` keeps the whole array.
-/

namespace MTT.Getopt

/-- The array `argv[1], argv[2], …` is `done ++ nons ++ since ++ rest`.  `done` are options that stand in front already, `nons` elements that are
no options and have been passed over (`__first_nonopt` to `__last_nonopt`), `since` the options read behind them and not yet exchanged with them,
`rest` is `argv[optind], …`; it begins with the element that is being read if `next` (the variable `__nextchar`) is not empty. -/
structure PSt where
  done : List (List Char)
  nons : List (List Char)
  since : List (List Char)
  next : List Char
  rest : List (List Char)

def PSt.argv (s : PSt) : List (List Char) := s.done ++ s.nons ++ s.since ++ s.rest

/-- One letter `c` of the element `a` is read; `optind` moves on at the last letter. -/
def pread (letters : List Char) (done nons since : List (List Char)) (c : Char) (more a : List Char) (r : List (List Char)) :
    Option Char × PSt :=
  (some (if c ∈ letters then c else '?'), if more = [] then ⟨done, nons, since ++ [a], [], r⟩ else ⟨done, nons, since, more, a :: r⟩)

/-- A new element is looked at; elements that are no options are passed over, `--` is exchanged with them and ends the options. -/
def pscan (letters : List Char) : List (List Char) → List (List Char) → List (List Char) → Option Char × PSt
  | done, nons, [] => (none, ⟨done, nons, [], [], []⟩)
  | done, nons, a :: r =>
    if a = ['-', '-'] then (none, ⟨done ++ [a], nons ++ r, [], [], []⟩)
    else match a with
      | '-' :: c :: more => pread letters done nons [] c more a r
      | _ => pscan letters done (nons ++ [a]) r

/-- A call of `getopt(argc, argv, letters)` of the C library of GNU (options without arguments, POSIXLY_CORRECT not set).  The options of `since`
are exchanged with `nons` when a new element is to be looked at, not earlier. -/
def pgetopt (letters : List Char) (s : PSt) : Option Char × PSt :=
  match s.next, s.rest with
  | [], rest => pscan letters (s.done ++ s.since) s.nons rest
  | c :: more, a :: r => pread letters s.done s.nons s.since c more a r
  | _ :: _, [] => (none, s)

/-- The loop of `option`, make_old_format.cpp:22-38.  The first argument bounds the number of turns. -/
def ploop : ℕ → PSt → Bool → Option PSt
  | 0, _, _ => none
  | n + 1, s, error =>
    match pgetopt ['h', 'd'] s with
    | (c, s) =>
      if error then some s
      else match c with
        | none => some s
        | some 'd' => ploop n s false
        | some _ => ploop n s true

/-- `argv[1], argv[2], …` behind the loop; `args` are the arguments without the name of the program. -/
def argvAfter (args : List (List Char)) : Option (List (List Char)) :=
  (ploop ((args.map List.length).sum + 2) ⟨[], [], [], [], args⟩ false).map PSt.argv

end MTT.Getopt

namespace MTT.DSFMT

open Search W128

/-- make_old_format.cpp:18-87, from the arguments: the text, and whether it ends with an exception; `none`: undefined behaviour.  The variable
`error` is not looked at behind the loop. -/
noncomputable def oldCommand (mps : MPS) (w : W128) (args : List (List Char)) : Option (List Char × Bool) :=
  match Getopt.argvAfter args with
  | none => none
  | some argv =>
    match argv.head? with
    | none => none
    | some a => oldFormat mps w a

end MTT.DSFMT
