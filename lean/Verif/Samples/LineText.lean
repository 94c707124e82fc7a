import Verif.Samples.SFMT
import Verif.Samples.DSFMT
import Verif.Samples.RMT

/-!
# Parameter lines as text: `getParamString` and the parsers of the tools

`std::stringstream` with `dec`, `hex`, `setw`, `setfill('0')` and `strtoul`, `strtoull` are modelled from the C++ and C
standards for the "C" locale with 64-bit `unsigned long`.  A string is the list of its characters without the terminating
NUL; a pointer into it is the list of the remaining characters.  `none`: a character behind the NUL is read.  The values of
type `int` are natural numbers below `2^31`.
-/

namespace MTT.Text

/-- The digits of a number, most significant first; at least one digit. -/
def digits (base : Nat) (x : Nat) : List Char :=
  if h : x < base ∨ base < 2 then [Nat.digitChar x]
  else digits base (x / base) ++ [Nat.digitChar (x % base)]
termination_by x
decreasing_by exact Nat.div_lt_self (by omega) (by omega)

/-- `ss << dec << x`. -/
def dec (x : Nat) : List Char := digits 10 x

/-- `ss << dec << x` for an `int`. -/
def decInt (x : Int) : List Char := if x < 0 then '-' :: dec x.natAbs else dec x.natAbs

/-- `ss << hex << setw(n) << setfill('0') << x`. -/
def hexW (n : Nat) (x : Nat) : List Char := List.replicate (n - (digits 16 x).length) '0' ++ digits 16 x

/-- `isspace`. -/
def isSpace (c : Char) : Bool := c == ' ' || c == '\t' || c == '\n' || c == '\x0b' || c == '\x0c' || c == '\r'

/-- The value of a digit (letters of both cases), if it is one of this base. -/
def digitVal (base : Nat) (c : Char) : Option Nat :=
  let v := if '0' ≤ c ∧ c ≤ '9' then c.toNat - 48
    else if 'a' ≤ c ∧ c ≤ 'z' then c.toNat - 87
    else if 'A' ≤ c ∧ c ≤ 'Z' then c.toNat - 55
    else base
  if v < base then some v else none

/-- Reading digits: the number so far, whether there was one. -/
def readDigits (base : Nat) : List Char → Nat → Nat × List Char
  | [], acc => (acc, [])
  | c :: cs, acc =>
    match digitVal base c with
    | none => (acc, c :: cs)
    | some d => readDigits base cs (acc * base + d)

/-- Does the text start with a digit. -/
def startsDigit (base : Nat) : List Char → Bool
  | [] => false
  | c :: _ => (digitVal base c).isSome

/-- The optional prefix of base 16; it is one only if a digit follows. -/
def skipPrefix (base : Nat) : List Char → List Char
  | '0' :: x :: cs => if base = 16 ∧ (x = 'x' ∨ x = 'X') ∧ startsDigit 16 cs then cs else '0' :: x :: cs
  | s => s

/-- `strtoul(s, &s, base)` and `strtoull`, C standard 7.22.1.4: the value and where reading stopped. -/
def strtoul (base : Nat) (s : List Char) : BitVec 64 × List Char :=
  let t := s.dropWhile isSpace
  let neg := t.head? = some '-'
  let t := if t.head? = some '-' ∨ t.head? = some '+' then t.tail else t
  let t := skipPrefix base t
  if startsDigit base t then
    let (v, r) := readDigits base t 0
    if v < 2 ^ 64 then (if neg then -BitVec.ofNat 64 v else BitVec.ofNat 64 v, r) else (BitVec.allOnes 64, r)
  else (0, s)

/-- `para++`. -/
def next : List Char → Option (List Char)
  | [] => none
  | _ :: cs => some cs

/-- `static_cast<int>` of a value that fits (others are taken as large numbers, which no tool accepts). -/
def toInt (x : BitVec 64) : Nat := (x.setWidth 32).toNat

/-- How a program ends that prints at most one `α`: `fails` is an error message or the return of -1. -/
inductive Prints (α : Type)
  | printed (l : α)
  | fails
  | threw
  | undef

end MTT.Text

namespace MTT.SFMT

open Text

/-- The fields of `sfmt_param`. -/
structure Fields where
  mexp : Nat
  param : Par
  parity1 : BitVec 32
  parity2 : BitVec 32
  parity3 : BitVec 32
  parity4 : BitVec 32

/-- `get_string`, sfmtsearch.hpp:112-131.  (`ss >> s` reads up to the first white space; there is none.) -/
def getString (l : Fields) : List Char :=
  dec l.mexp ++ [','] ++ dec l.param.pos1 ++ [','] ++ dec l.param.sl1 ++ [','] ++ dec l.param.sl2 ++ [','] ++
    dec l.param.sr1 ++ [','] ++ dec l.param.sr2 ++ [','] ++ hexW 8 l.param.msk1.toNat ++ [','] ++
    hexW 8 l.param.msk2.toNat ++ [','] ++ hexW 8 l.param.msk3.toNat ++ [','] ++ hexW 8 l.param.msk4.toNat ++ [','] ++
    hexW 8 l.parity1.toNat ++ [','] ++ hexW 8 l.parity2.toNat ++ [','] ++ hexW 8 l.parity3.toNat ++ [','] ++
    hexW 8 l.parity4.toNat ++ [',']

/-- The parser of the tools, calc_equidist.cpp:173-201, calc_parity.cpp:174-201, test_period.cpp:20-47 (all in sfmtdc). -/
def parse (s : List Char) : Option Fields := do
  let (mexp, s) := strtoul 10 s
  let (pos1, s) := strtoul 10 (← next s)
  let (sl1, s) := strtoul 10 (← next s)
  let (sl2, s) := strtoul 10 (← next s)
  let (sr1, s) := strtoul 10 (← next s)
  let (sr2, s) := strtoul 10 (← next s)
  let (msk1, s) := strtoul 16 (← next s)
  let (msk2, s) := strtoul 16 (← next s)
  let (msk3, s) := strtoul 16 (← next s)
  let (msk4, s) := strtoul 16 (← next s)
  let (parity1, s) := strtoul 16 (← next s)
  let (parity2, s) := strtoul 16 (← next s)
  let (parity3, s) := strtoul 16 (← next s)
  let (parity4, _) := strtoul 16 (← next s)
  some ⟨toInt mexp, ⟨toInt pos1, toInt sl1, toInt sl2, toInt sr1, toInt sr2, msk1.setWidth 32, msk2.setWidth 32,
    msk3.setWidth 32, msk4.setWidth 32⟩, parity1.setWidth 32, parity2.setWidth 32, parity3.setWidth 32,
    parity4.setWidth 32⟩

end MTT.SFMT

namespace MTT.DSFMT

open Text

/-- The fields of `dSFMT_param`. -/
structure Fields where
  mexp : Nat
  param : Par
  fix1 : BitVec 64
  fix2 : BitVec 64
  parity1 : BitVec 64
  parity2 : BitVec 64

/-- `get_string`, dSFMTsearch.hpp:95-109. -/
def getString (l : Fields) : List Char :=
  dec l.mexp ++ [','] ++ dec l.param.pos1 ++ [','] ++ dec l.param.sl1 ++ [','] ++ hexW 16 l.param.msk1.toNat ++ [','] ++
    hexW 16 l.param.msk2.toNat ++ [','] ++ hexW 16 l.fix1.toNat ++ [','] ++ hexW 16 l.fix2.toNat ++ [','] ++
    hexW 16 l.parity1.toNat ++ [','] ++ hexW 16 l.parity2.toNat ++ [',']

/-- The parser of calc_equidist.cpp:149-166, calc_period.cpp:20-37 and make_old_format.cpp:40-57 (all in dSFMTdc). -/
def parse (s : List Char) : Option Fields := do
  let (mexp, s) := strtoul 10 s
  let (pos1, s) := strtoul 10 (← next s)
  let (sl1, s) := strtoul 10 (← next s)
  let (msk1, s) := strtoul 16 (← next s)
  let (msk2, s) := strtoul 16 (← next s)
  let (fix1, s) := strtoul 16 (← next s)
  let (fix2, s) := strtoul 16 (← next s)
  let (parity1, s) := strtoul 16 (← next s)
  let (parity2, _) := strtoul 16 (← next s)
  some ⟨toInt mexp, ⟨toInt pos1, toInt sl1, msk1, msk2⟩, fix1, fix2, parity1, parity2⟩

/-- The parser of calc_parity_main.cpp:162-175: the fields after `fix2` are not read and not initialised (`p1`, `p2`). -/
def parseFix (p1 p2 : BitVec 64) (s : List Char) : Option Fields := do
  let (mexp, s) := strtoul 10 s
  let (pos1, s) := strtoul 10 (← next s)
  let (sl1, s) := strtoul 10 (← next s)
  let (msk1, s) := strtoul 16 (← next s)
  let (msk2, s) := strtoul 16 (← next s)
  let (fix1, s) := strtoul 16 (← next s)
  let (fix2, _) := strtoul 16 (← next s)
  some ⟨toInt mexp, ⟨toInt pos1, toInt sl1, msk1, msk2⟩, fix1, fix2, p1, p2⟩

/-- The parser of calc_fixpoint_main.cpp:147-156: the fields after `msk2` are not read and not initialised. -/
def parseMsk (f1 f2 p1 p2 : BitVec 64) (s : List Char) : Option Fields := do
  let (mexp, s) := strtoul 10 s
  let (pos1, s) := strtoul 10 (← next s)
  let (sl1, s) := strtoul 10 (← next s)
  let (msk1, s) := strtoul 16 (← next s)
  let (msk2, _) := strtoul 16 (← next s)
  some ⟨toInt mexp, ⟨toInt pos1, toInt sl1, msk1, msk2⟩, f1, f2, p1, p2⟩

end MTT.DSFMT

namespace MTT.RMT

open Text

/-- The fields of a line of rmt64dc. -/
structure Fields where
  mexp : Nat
  pos : Nat
  mata : BitVec 64
  parity : BitVec 64
  maskb : BitVec 64
  maskc : BitVec 64

/-- `getParamString`, rmt64.hpp:198-211, after its masking of `maskb`, `maskc` (`MTT.RMT.getParamString`). -/
def getString (l : Fields) : List Char :=
  dec l.mexp ++ [','] ++ dec l.pos ++ [','] ++ hexW 16 l.mata.toNat ++ [','] ++ hexW 16 l.parity.toNat ++ [','] ++
    hexW 16 l.maskb.toNat ++ [','] ++ hexW 16 l.maskc.toNat

/-- The parser of RMT/calc_equidist.cpp:17-28 and RMT/calc_period.cpp:17-28. -/
def parse (s : List Char) : Option Fields := do
  let (mexp, s) := strtoul 10 s
  let (pos, s) := strtoul 10 (← next s)
  let (mata, s) := strtoul 16 (← next s)
  let (parity, s) := strtoul 16 (← next s)
  let (mskb, s) := strtoul 16 (← next s)
  let (mskc, _) := strtoul 16 (← next s)
  some ⟨toInt mexp, toInt pos, mata, parity, mskb, mskc⟩

end MTT.RMT
