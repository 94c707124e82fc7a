import Verif.Samples.Getopt
import Verif.Samples.Programs
import Verif.Samples.EquidistMain

/-!
# The search programs and calc_equidist from their arguments

`getopt_long` of the C library of GNU (the environment variable POSIXLY_CORRECT is not set), the tables of options, and the loops of `parse_opt`.
-/

namespace MTT.GetoptLong

open Getopt (St)

/-- `no_argument`, `required_argument`, `optional_argument`; in the option string nothing, `:`, `::`. -/
inductive Arg
  | no
  | required
  | optional
  deriving DecidableEq

/-- An element of `longopts` (the member `flag` is `NULL` everywhere). -/
structure Long where
  name : List Char
  arg : Arg
  val : Char
  deriving DecidableEq

/-- The option string and `longopts`. -/
structure Table where
  short : List (Char × Arg)
  long : List Long

/-- What a call returns: the letter (`?` for an error) and `optarg`. -/
abbrev Item := Char × Option (List Char)

/-- The letter `c` is read; `more` is the rest of its element `a`, and `r` what follows this element. -/
def readShort (T : Table) (ops : List (List Char)) (c : Char) (more a : List Char) (r : List (List Char)) : Item × St :=
  match T.short.lookup c with
  | none => (('?', none), if more = [] then ⟨ops, [], r⟩ else ⟨ops, more, a :: r⟩)
  | some .no => ((c, none), if more = [] then ⟨ops, [], r⟩ else ⟨ops, more, a :: r⟩)
  | some .optional => ((c, if more = [] then none else some more), ⟨ops, [], r⟩)
  | some .required =>
    if more = [] then
      match r with
      | [] => (('?', none), ⟨ops, [], []⟩)
      | v :: r => ((c, some v), ⟨ops, [], r⟩)
    else ((c, some more), ⟨ops, [], r⟩)

/-- The long option with this name, or the one that the name abbreviates; `none`: there is none, or the abbreviation is ambiguous. -/
def findLong (T : Table) (name : List Char) : Option Long :=
  match T.long.find? (fun l => l.name = name) with
  | some l => some l
  | none =>
    match T.long.filter (fun l => name.isPrefixOf l.name) with
    | [] => none
    | l :: ls => if ls.all (fun m => m.arg = l.arg ∧ m.val = l.val) then some l else none

/-- A long option is read; `body` is its text without the `--`. -/
def readLong (T : Table) (ops : List (List Char)) (body : List Char) (r : List (List Char)) : Item × St :=
  match findLong T (body.takeWhile (· ≠ '=')), body.dropWhile (· ≠ '=') with
  | none, _ => (('?', none), ⟨ops, [], r⟩)
  | some l, _ :: v => if l.arg = .no then (('?', none), ⟨ops, [], r⟩) else ((l.val, some v), ⟨ops, [], r⟩)
  | some l, [] =>
    if l.arg = .required then
      match r with
      | [] => (('?', none), ⟨ops, [], []⟩)
      | v :: r => ((l.val, some v), ⟨ops, [], r⟩)
    else ((l.val, none), ⟨ops, [], r⟩)

/-- A new element is looked at. -/
def scan (T : Table) : List (List Char) → List (List Char) → Option Item × St
  | ops, [] => (none, ⟨[], [], ops⟩)
  | ops, a :: r =>
    if a = ['-', '-'] then (none, ⟨[], [], ops ++ r⟩)
    else match a with
      | '-' :: '-' :: body => (readLong T ops body r).map some id
      | '-' :: c :: more => (readShort T ops c more a r).map some id
      | _ => scan T (ops ++ [a]) r

/-- A call of `getopt_long(argc, argv, ...)`. -/
def getoptLong (T : Table) (s : St) : Option Item × St :=
  match s.next, s.rest with
  | [], rest => scan T s.ops rest
  | c :: more, a :: r => (readShort T s.ops c more a r).map some id
  | _ :: _, [] => (none, s)

/-- The loop `for (;;) { c = getopt_long(...); if (error) break; if (c == -1) break; switch (c) ... }`: the options that are obeyed and
`argv + optind` behind the loop.  `err` is the variable `error` after the options obeyed so far.  The first argument bounds the number of
turns. -/
def deliver {ε : Type} (T : Table) (toEv : Item → ε) (err : List ε → Bool) : ℕ → St → List ε → Option (List ε × List (List Char))
  | 0, _, _ => none
  | n + 1, s, acc =>
    match getoptLong T s with
    | (c, s) =>
      if err acc then some (acc, s.rest)
      else match c with
        | none => some (acc, s.rest)
        | some e => deliver T toEv err n s (acc ++ [toEv e])

/-- The loop from the start; `args` are the arguments without the name of the program. -/
def obeyed {ε : Type} (T : Table) (toEv : Item → ε) (err : List ε → Bool) (args : List (List Char)) :
    Option (List ε × List (List Char)) :=
  deliver T toEv err ((args.map List.length).sum + 2) ⟨[], [], args⟩ []

/-! ### The tables -/

/-- sfmtdc.cpp:185-190, 193, sfmtdcfixed.cpp:186-194, rmt64dc.cpp:135-143. -/
def tSeed : Table :=
  ⟨[('v', .no), ('s', .required), ('f', .required), ('c', .required)],
    [⟨"verbose".toList, .no, 'v'⟩, ⟨"file".toList, .required, 'f'⟩, ⟨"count".toList, .required, 'c'⟩,
      ⟨"seed".toList, .required, 's'⟩]⟩

/-- dSFMTdc.cpp:164-173. -/
def tFixed : Table :=
  ⟨[('v', .no), ('s', .required), ('f', .required), ('c', .required), ('x', .optional)],
    [⟨"verbose".toList, .no, 'v'⟩, ⟨"file".toList, .required, 'f'⟩, ⟨"count".toList, .required, 'c'⟩,
      ⟨"seed".toList, .required, 's'⟩, ⟨"fixed".toList, .optional, 'x'⟩]⟩

/-- mt2.cpp:264-271, 279. -/
def tMt2 : Table :=
  ⟨[('v', .no), ('m', .required), ('c', .required), ('s', .required)],
    [⟨"verbose".toList, .no, 'v'⟩, ⟨"seed".toList, .required, 's'⟩, ⟨"max".toList, .required, 'm'⟩,
      ⟨"count".toList, .required, 'c'⟩]⟩

/-- MTGPDC/parse_opt.cpp:31-36, 40. -/
def tMtgp : Table :=
  ⟨[('v', .no), ('s', .required), ('f', .required), ('c', .required)],
    [⟨"seed".toList, .required, 's'⟩, ⟨"verbose".toList, .no, 'v'⟩, ⟨"output-file".toList, .required, 'f'⟩,
      ⟨"count".toList, .required, 'c'⟩]⟩

/-- TinyMTDC/parse_opt.cpp:46-53, 61. -/
def tTiny : Table :=
  ⟨[('v', .no), ('a', .no), ('s', .required), ('m', .required), ('f', .required), ('c', .required)],
    [⟨"verbose".toList, .no, 'v'⟩, ⟨"all".toList, .no, 'a'⟩, ⟨"file".toList, .required, 'f'⟩, ⟨"start".toList, .required, 's'⟩,
      ⟨"max".toList, .required, 'm'⟩, ⟨"count".toList, .required, 'c'⟩]⟩

/-- sfmtdc/calc_equidist.cpp:135-142. -/
def tEquiS : Table :=
  ⟨[('v', .no), ('r', .no), ('s', .required)],
    [⟨"verbose".toList, .no, 'v'⟩, ⟨"seed".toList, .required, 's'⟩, ⟨"reverse".toList, .no, 'r'⟩]⟩

/-- dSFMTdc/calc_equidist.cpp:114-120. -/
def tEquiD : Table :=
  ⟨[('v', .no), ('s', .required)], [⟨"verbose".toList, .no, 'v'⟩, ⟨"seed".toList, .required, 's'⟩]⟩

/-- The cases of the `switch` of the search programs but tinymt32dc. -/
def toEv : Item → Options.Ev
  | ('v', _) => .verbose
  | ('s', some a) => .seed a
  | ('f', some a) => .file a
  | ('c', some a) => .count a
  | ('x', a) => .fixed a
  | ('m', some a) => .max a
  | _ => .bad

/-- The cases of the `switch` of tinymt32dc. -/
def toEvT : Item → Options.Ev
  | ('v', _) => .verbose
  | ('a', _) => .all
  | ('s', some a) => .start a
  | ('f', some a) => .file a
  | ('c', some a) => .count a
  | ('m', some a) => .max a
  | _ => .bad

/-- The cases of the `switch` of calc_equidist. -/
def toEvE : Item → EquidistMain.Ev
  | ('v', _) => .verbose
  | ('r', _) => .reverse
  | ('s', some a) => .seed a
  | _ => .bad

/-- The variable `error` of the search programs after some options. -/
def errAfter (step : Options.Opts → Options.Ev → Options.Opts) (o : Options.Opts) (evs : List Options.Ev) : Bool :=
  (Options.readOpts step o evs).error

/-! ### The programs -/

noncomputable section

open Options Search Parity

variable (mps : MPS) (kernel : KernelFn) (xgcd : DSFMT.XgcdFn) (fuel : ℕ) (clock : BitVec 64) (canOpen : List Char → Bool)
  (args : List (List Char))

/-- sfmtdc.cpp:63-80, 176-273. -/
def sfmtdcArgs (J : SFMT.Junk) : Option (Options.Run SFMT.Outcome) :=
  (obeyed tSeed toEv (errAfter stepSeed (init clock 0 0)) args).map fun d => sfmtdc mps kernel fuel clock canOpen d.1 d.2 J

/-- sfmtdcfixed.cpp:63-80, 177-274. -/
def sfmtdcfixedArgs (J : SFMT.Junk) : Option (Options.Run SFMT.Outcome) :=
  (obeyed tSeed toEv (errAfter stepSeed (init clock 0 0)) args).map fun d => sfmtdcfixed mps kernel fuel clock canOpen d.1 d.2 J

/-- dSFMTdc.cpp:65-92, 153-266. -/
def dsfmtdcArgs (J : DSFMT.Junk) : Option (Options.Run DSFMT.Outcome) :=
  (obeyed tFixed toEv (errAfter stepFixed (init clock 0 0)) args).map fun d => dsfmtdc mps kernel xgcd fuel clock canOpen d.1 d.2 J

/-- rmt64dc.cpp:61-80, 126-223. -/
def rmt64dcArgs (one : ℕ → Option (BitVec 64)) (junk : ℕ → BitVec 64) (veq : ℕ → ℕ) (junkPos : ℕ) (junkA : BitVec 64)
    (junkS : ℕ → BitVec 64) : Option (Options.Run (Option RMT.Ends)) :=
  (obeyed tSeed toEv (errAfter stepSeed (init clock 0 0)) args).map fun d =>
    rmt64dc mps kernel fuel clock canOpen d.1 d.2 one junk veq junkPos junkA junkS

/-- mt2.cpp:260-414. -/
def mt2Args (veq : ℕ → ℕ) (turns junkPos : ℕ) (junkA junkSeed : BitVec 32) (junk : ℕ → BitVec 32) :
    Option (Options.Run (Option (Option (List MTDC.Line)))) :=
  (obeyed tMt2 toEv (errAfter stepMt2 (init (junkSeed.setWidth 64) 0x7fffffff 0)) args).map fun d =>
    mt2 mps fuel canOpen d.1 d.2 veq turns junkPos junkA junkSeed junk

/-- MTGP32dc.cpp:38-53, MTGPDC/parse_opt.cpp:26-139. -/
def mtgp32dcArgs (J : ℕ → MTGP.Junk) (rng : List Char → ℕ → BitVec 32) : Option (Options.Run (Option (Option (List MTGP.Line)))) :=
  (obeyed tMtgp toEv (errAfter stepMtgp (init 0 0 0)) args).map fun d => mtgp32dc mps fuel canOpen d.1 d.2 J rng

/-- tinymt32dc.cpp:48-67, TinyMTDC/parse_opt.cpp:41-134. -/
def tinymt32dcArgs (veq : ℕ → ℕ) : Option (Options.Run (Option (List TinyMT.Line))) :=
  (obeyed tTiny toEvT (errAfter (stepTiny 0x7fffffff) (init 0 10 0x7fffffff)) args).map fun d =>
    tinymt32dc mps fuel canOpen d.1 d.2 veq

/-- sfmtdc/calc_equidist.cpp:27-208. -/
def equidistSArgs (J : SFMT.Junk) (hi : BitVec 64) : Option EquidistMain.Run :=
  (obeyed tEquiS toEvE (fun evs => (EquidistMain.read true (EquidistMain.init clock) evs).error) args).map fun d =>
    SFMT.equidistMain mps J hi clock d.1 d.2.head?

/-- dSFMTdc/calc_equidist.cpp:26-178. -/
def equidistDArgs (veq52 : ℕ → ℤ) (hi : BitVec 64) : Option EquidistMain.Run :=
  (obeyed tEquiD toEvE (fun evs => (EquidistMain.read false (EquidistMain.init clock) evs).error) args).map fun d =>
    DSFMT.equidistMain mps veq52 hi clock d.1 d.2.head?

end

end MTT.GetoptLong
