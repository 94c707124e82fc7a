import Verif.Samples.FixTest
import Verif.Samples.ParityTest

/-!
# The command lines of calc_parity and calc_fixpoint

`getopt` of the C library for options without arguments, and the functions `option` of calc_parity.cpp (sfmtdc), calc_parity_main.cpp and
calc_fixpoint_main.cpp (dSFMTdc).
-/

namespace MTT.Getopt

/-- The state of `getopt` between two calls.  The arguments are permuted by GNU `getopt` so that the options come first; `ops` are those that
are not options and have been passed over, `next` is what is left of the element that is being read (the static variable `nextchar`), `rest`
is `argv[optind], argv[optind + 1], …`; it begins with the element that is being read if `next` is not empty. -/
structure St where
  ops : List (List Char)
  next : List Char
  rest : List (List Char)

/-- One letter is read; `a` is the element it belongs to and `r` what follows this element.  A letter that is not in `letters` gives `?`.
(The message on the standard error output is not modelled.) -/
def readLetter (letters : List Char) (ops : List (List Char)) (c : Char) (more a : List Char) (r : List (List Char)) : Option Char × St :=
  (some (if c ∈ letters then c else '?'), if more = [] then ⟨ops, [], r⟩ else ⟨ops, more, a :: r⟩)

/-- A new element is looked at: elements that are not options are passed over, `--` ends the options; at the end `optind` is the place of the
first element that is not an option, and the result is -1 (`none`). -/
def scan (letters : List Char) : List (List Char) → List (List Char) → Option Char × St
  | ops, [] => (none, ⟨[], [], ops⟩)
  | ops, a :: r =>
    if a = ['-', '-'] then (none, ⟨[], [], ops ++ r⟩)
    else match a with
      | '-' :: c :: more => readLetter letters ops c more a r
      | _ => scan letters (ops ++ [a]) r

/-- A call of `getopt(argc, argv, letters)`, as the C library of GNU implements it (options without arguments only; the environment variable
POSIXLY_CORRECT is not set). -/
def getopt (letters : List Char) (s : St) : Option Char × St :=
  match s.next, s.rest with
  | [], rest => scan letters s.ops rest
  | c :: more, a :: r => readLetter letters s.ops c more a r
  | _ :: _, [] => (none, s)

/-- The loop of `option`, calc_parity.cpp:153-175 (sfmtdc), calc_parity_main.cpp:141-161 and calc_fixpoint_main.cpp:129-146 (dSFMTdc; there is no
letter `v` in the last one).  The test of `error` comes after the call of `getopt`.  The first argument bounds the number of turns. -/
def optLoop (letters : List Char) : ℕ → St → Bool → Bool → Bool → Option (St × Bool × Bool)
  | 0, _, _, _, _ => none
  | n + 1, s, check, verbose, error =>
    match getopt letters s with
    | (c, s) =>
      if error then some (s, check, verbose)
      else match c with
        | none => some (s, check, verbose)
        | some 'c' => optLoop letters n s true verbose error
        | some 'v' => optLoop letters n s check true error
        | some _ => optLoop letters n s check verbose true

/-- `option` up to `char * para = argv[optind]`: the variables `check` and `verbose` and the text; `none`: the null pointer behind the last
argument is handed to `strtoul`.  `error` is not looked at any more.  `args` are the arguments without the name of the program. -/
def option (letters : List Char) (args : List (List Char)) : Option (Bool × Bool × List Char) :=
  match optLoop letters ((args.map List.length).sum + 2) ⟨[], [], args⟩ false false false with
  | none => none
  | some (s, check, verbose) => s.rest.head?.map fun a => (check, verbose, a)

end MTT.Getopt

namespace MTT.SFMT

open Search W128 Parity Getopt

/-- calc_parity.cpp:147-241: from the arguments to the text and the value returned; `none`: undefined behaviour. -/
noncomputable def parityCommand (mps : MPS) (kernel : KernelFn) (fuel : ℕ) (sh w : W128) (args : List (List Char)) : Option (List Char × ℤ) :=
  match option ['h', 'c', 'v'] args with
  | none => none
  | some (check, verbose, arg) => calcParityMain mps kernel fuel sh w check verbose arg

end MTT.SFMT

namespace MTT.DSFMT

open Search W128 Parity Getopt

/-- calc_parity_main.cpp:135-215: from the arguments to the text and the value returned; `none`: undefined behaviour. -/
noncomputable def parityCommand (mps : MPS) (kernel : KernelFn) (fuel : ℕ) (sh : W128) (p1 p2 : BitVec 64) (w : W128)
    (args : List (List Char)) : Option (List Char × ℤ) :=
  match option ['h', 'c', 'v'] args with
  | none => none
  | some (check, verbose, arg) => calcParityMain mps kernel fuel sh p1 p2 w check verbose arg

/-- calc_fixpoint_main.cpp:124-237: from the arguments to the text; `none`: undefined behaviour or an exception. -/
noncomputable def fixCommand (mps : MPS) (xgcd : XgcdFn) (f1 f2 p1 p2 : BitVec 64) (w : W128) (args : List (List Char)) :
    Option (List Char) :=
  match option ['h', 'c'] args with
  | none => none
  | some (check, _, arg) => calcFixMain mps xgcd f1 f2 p1 p2 w check arg

end MTT.DSFMT
