import Verif.Samples.LineText

/-!
# Model of the option parsers of the search programs

`parse_opt` of sfmtdc.cpp, sfmtdcfixed.cpp, dSFMTdc.cpp, rmt64dc.cpp, mt2.cpp, MTGPDC/parse_opt.cpp, TinyMTDC/parse_opt.cpp.

`getopt_long` is the boundary: what it delivers is a list of events (an option with its argument, or an error) followed by the
list of the operands; an option with `required_argument` has an argument.  `strtol`, `strtoll`, `strtoull` are those of the C
standard for the "C" locale with 64-bit `long` and `long long`; if there is no number they deliver 0 and leave `errno` as it is.
`errno` is a truth value (non-zero); it is 0 when the program starts.  Whether a file can be opened for writing is a parameter.
Messages are not modelled.
-/

namespace MTT.Options

open Text

/-- What `strtol` and its relatives read: the sign and the digits behind white space. -/
def signed (s : List Char) : Bool × List Char :=
  let t := s.dropWhile isSpace
  (t.head? = some '-', if t.head? = some '-' ∨ t.head? = some '+' then t.tail else t)

/-- `strtol(s, NULL, 10)` and `strtoll`: the value and whether `errno` is set to `ERANGE`. -/
def strtol (s : List Char) : Int × Bool :=
  let (neg, t) := signed s
  if startsDigit 10 t then
    let v : Int := if neg then -((readDigits 10 t 0).1 : Int) else (readDigits 10 t 0).1
    if v < -2 ^ 63 then (-2 ^ 63, true) else if 2 ^ 63 ≤ v then (2 ^ 63 - 1, true) else (v, false)
  else (0, false)

/-- The base that base 0 stands for, and the text without the prefix `0x`. -/
def autoBase : List Char → Nat × List Char
  | '0' :: x :: cs => if (x = 'x' ∨ x = 'X') ∧ startsDigit 16 cs then (16, cs) else (8, '0' :: x :: cs)
  | ['0'] => (8, ['0'])
  | s => (10, s)

/-- `strtoull(s, NULL, 0)`. -/
def strtoull (s : List Char) : BitVec 64 × Bool :=
  let (neg, t) := signed s
  let (base, t) := autoBase t
  if startsDigit base t then
    let v := (readDigits base t 0).1
    if v < 2 ^ 64 then (if neg then -BitVec.ofNat 64 v else BitVec.ofNat 64 v, false) else (BitVec.allOnes 64, true)
  else (0, false)

/-- What `getopt_long` delivers. -/
inductive Ev
  | verbose
  | seed (arg : List Char)
  | file (arg : List Char)
  | count (arg : List Char)
  | fixed (arg : Option (List Char))
  | all
  | max (arg : List Char)
  | start (arg : List Char)
  | bad

/-- The options; the members that a program does not have stay as they are.  `seed` is what `-s` stores. -/
structure Opts where
  verbose : Bool
  seed : BitVec 64
  text : List Char
  filename : List Char
  count : Int
  fixed : Bool
  fixedSL1 : BitVec 32
  all : Bool
  max : BitVec 32
  start : BitVec 32
  errno : Bool
  error : Bool

/-- `x = strto...(optarg, ...); if (errno) { error = true; ... }`. -/
def number {α : Type} (set : Opts → α → Opts) (o : Opts) (r : α × Bool) : Opts :=
  { set o r.1 with errno := o.errno || r.2, error := o.error || o.errno || r.2 }

/-- One option of sfmtdc (sfmtdc.cpp:200-228), sfmtdcfixed (sfmtdcfixed.cpp:201-229) and rmt64dc (rmt64dc.cpp:150-178). -/
def stepSeed (o : Opts) : Ev → Opts
  | .verbose => { o with verbose := true }
  | .seed a => number (fun o v => { o with seed := v }) o (strtoull a)
  | .file a => { o with filename := a }
  | .count a => number (fun o v => { o with count := v }) o (strtol a)
  | _ => { o with error := true }

/-- One option of dSFMTdc, dSFMTdc.cpp:179-221. -/
def stepFixed (o : Opts) : Ev → Opts
  | .fixed (some a) => number (fun o v => { o with fixedSL1 := v }) { o with fixed := true } ((strtoull a).map (·.setWidth 32) id)
  | .fixed none => { o with fixed := true, fixedSL1 := 19 }
  | e => stepSeed o e

/-- One option of mt2, mt2.cpp:283-330: `seed` is 32 bits wide, `count` and `max` are cast to `int`. -/
def stepMt2 (o : Opts) : Ev → Opts
  | .verbose => { o with verbose := true }
  | .seed a => number (fun o v => { o with seed := v }) o ((strtoull a).map (fun v => (v.setWidth 32).setWidth 64) id)
  | .max a => number (fun o v => { o with max := v }) o ((strtol a).map (BitVec.ofInt 32) id)
  | .count a => number (fun o v => { o with count := v }) o ((strtol a).map (fun v => (BitVec.ofInt 32 v).toInt) id)
  | _ => { o with error := true }

/-- One option of MTGP32dc, MTGPDC/parse_opt.cpp:47-69: the seed is a text. -/
def stepMtgp (o : Opts) : Ev → Opts
  | .verbose => { o with verbose := true }
  | .seed a => { o with text := a }
  | .file a => { o with filename := a }
  | .count a => number (fun o v => { o with count := v }) o (strtol a)
  | _ => { o with error := true }

/-- One option of tinymt32dc, TinyMTDC/parse_opt.cpp:67-107; `limit` is the argument `start` of `parse_opt`. -/
def stepTiny (limit : BitVec 32) (o : Opts) : Ev → Opts
  | .verbose => { o with verbose := true }
  | .all => { o with all := true }
  | .start a =>
    let o := number (fun o v => { o with start := v }) o ((strtoull a).map (·.setWidth 32) id)
    { o with error := o.error || decide (o.start > limit) }
  | .file a => { o with filename := a }
  | .max a => number (fun o v => { o with max := v }) o ((strtol a).map (BitVec.ofInt 32) id)
  | .count a => number (fun o v => { o with count := v }) o (strtol a)
  | _ => { o with error := true }

/-- The loop `for (;;) { c = getopt_long(...); if (error) break; ... }`. -/
def readOpts (step : Opts → Ev → Opts) (o : Opts) (evs : List Ev) : Opts :=
  evs.foldl (fun o e => if o.error then o else step o e) o

/-- The first operand where the exponent is compared with a table (e.g. sfmtdc.cpp:231-257): the value and whether there is an
error; and `errno`. -/
def readMexp (allowed : List Nat) (o : Opts) (a : List Char) : Int × Opts :=
  let r := strtol a
  let errno := o.errno || r.2
  (r.1, { o with errno := errno, error := o.error || errno || !(allowed.any fun m => (m : Int) == r.1) })

/-- `if (!opt.filename.empty()) { ofstream ofs(...); ... }` (e.g. sfmtdc.cpp:259-267) and the result: `none` if `parse_opt`
returns `false`.  The file that has been opened is empty now. -/
def finish {α : Type} (canOpen : List Char → Bool) (o : Opts) (x : α) : Option (Opts × α) :=
  if (o.error || (!o.filename.isEmpty && !canOpen o.filename)) = true then none else some (o, x)

/-- The options before the loop: sfmtdc.cpp:177-181, dSFMTdc.cpp:154-160, rmt64dc.cpp:127-131, mt2.cpp:273-277 (where `seed` is
not initialised), MTGPDC/parse_opt.cpp:36-37, TinyMTDC/parse_opt.cpp:53-57. -/
def init (seed : BitVec 64) (max start : BitVec 32) : Opts := ⟨false, seed, [], [], 1, false, 19, false, max, start, false, false⟩

/-- `parse_opt` with one operand, the exponent: sfmtdc.cpp:176-273, sfmtdcfixed.cpp:177-274, rmt64dc.cpp:126-223 (with
`stepSeed`), dSFMTdc.cpp:153-266 (with `stepFixed`).  `clock` is the value of `clock()`. -/
def parseMexp (step : Opts → Ev → Opts) (allowed : List Nat) (clock : BitVec 64) (canOpen : List Char → Bool) (evs : List Ev)
    (operands : List (List Char)) : Option (Opts × Int) :=
  let o := readOpts step (init clock 0 0) evs
  match operands with
  | [] => none
  | a :: _ =>
    let r := readMexp allowed o a
    finish canOpen r.2 r.1

/-- `parse_opt` of mt2, mt2.cpp:260-385: exponent and id; `junk` is the uninitialised seed. -/
def parseMt2 (allowed : List Nat) (junk : BitVec 32) (canOpen : List Char → Bool) (evs : List Ev)
    (operands : List (List Char)) : Option (Opts × Int × Int) :=
  let o := readOpts stepMt2 (init (junk.setWidth 64) 0x7fffffff 0) evs
  match operands with
  | a :: b :: _ =>
    let r := readMexp allowed o a
    let i := strtol b
    let errno := r.2.errno || i.2
    finish canOpen { r.2 with errno := errno, error := r.2.error || errno || decide (i.1 < 0 ∨ i.1 > 0xffff) } (r.1, i.1)
  | _ => none

/-- `parse_opt` of MTGP32dc, MTGPDC/parse_opt.cpp:26-139: exponent and id.  (The exponent is cast to `int` before it is compared.)
`errno` is not set to 0 at the beginning.  The default of the seed text is not modelled. -/
def parseMtgp (allowed : List Nat) (canOpen : List Char → Bool) (evs : List Ev) (operands : List (List Char)) :
    Option (Opts × BitVec 32 × BitVec 32) :=
  let o := readOpts stepMtgp (init 0 0 0) evs
  match operands with
  | a :: b :: _ =>
    let r := strtol a
    let mexp := BitVec.ofInt 32 r.1
    let errno := o.errno || r.2
    let o := { o with errno := errno, error := o.error || errno || !(allowed.any fun m => (m : Int) == mexp.toInt) }
    let i := strtol b
    let errno := o.errno || i.2
    finish canOpen { o with errno := errno, error := o.error || errno } (mexp, BitVec.ofInt 32 i.1)
  | _ => none

/-- `parse_opt` of tinymt32dc, TinyMTDC/parse_opt.cpp:41-134: the id. -/
def parseTiny (limit : BitVec 32) (canOpen : List Char → Bool) (evs : List Ev) (operands : List (List Char)) :
    Option (Opts × BitVec 32) :=
  let o := readOpts (stepTiny limit) (init 0 10 limit) evs
  match operands with
  | [] => none
  | b :: _ =>
    let i := strtol b
    let errno := o.errno || i.2
    finish canOpen { o with errno := errno, error := o.error || errno || decide (i.1 < 0 ∨ i.1 > 0xffffffff) } (BitVec.ofInt 32 i.1)

end MTT.Options
