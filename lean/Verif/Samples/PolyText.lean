import Verif.Samples.LineText
import Verif.Period.Model

/-!
# Polynomials as text: `print_binary` and `poly_sha1` of util.hpp, and the member `sha1` of `mtgp_param`

`endl` is the character '\n'.  The loop variables `int i` are natural numbers: the degree is taken to be below `2^31 - 1`.
OpenSSL's SHA-1 is a parameter `sha` from texts to 20 bytes, about which nothing is assumed.
-/

namespace MTT.PolyText

open Polynomial Text

noncomputable section

/-- The loop over the coefficients of `print_binary`, util.hpp:134-143: `k` turns left, the next index `i`. -/
def coeffLoop (p : (ZMod 2)[X]) (breakline : Bool) : ℕ → ℕ → List Char
  | 0, _ => []
  | k + 1, i =>
    (if p.coeff i = 1 then ['1'] else ['0']) ++ (if breakline ∧ i % 32 = 31 then ['\n'] else []) ++
      coeffLoop p breakline k (i + 1)

/-- `print_binary(os, poly, breakline)`, util.hpp:127-145. -/
def printBinary (p : (ZMod 2)[X]) (breakline : Bool) : List Char :=
  if Period.deg p < 0 then "0deg=-1\n".toList
  else coeffLoop p breakline (Period.deg p + 1).toNat 0 ++ "deg=".toList ++ decInt (Period.deg p) ++ ['\n']

/-- The characters given to `SHA1_Update` in the loop of `poly_sha1`, util.hpp:241-247. -/
def shaLoop (p : (ZMod 2)[X]) : ℕ → ℕ → List Char
  | 0, _ => []
  | k + 1, i => (if p.coeff i = 1 then ['1'] else ['0']) ++ shaLoop p k (i + 1)

/-- All characters given to `SHA1_Update`, util.hpp:238-247. -/
def shaText (p : (ZMod 2)[X]) : List Char :=
  (if Period.deg p < 0 then "-1".toList else []) ++ shaLoop p (Period.deg p + 1).toNat 0

/-- A digest `md[SHA_DIGEST_LENGTH]`. -/
abbrev Digest := Fin 20 → BitVec 8

/-- The loop that writes the digest and `ss >> str`, util.hpp:250-255 (there is no white space). -/
def digestText (md : Digest) : List Char := (List.finRange 20).flatMap fun i => hexW 2 (md i).toNat

/-- `poly_sha1(str, poly)`, util.hpp:233-255. -/
def polySha1 (sha : List Char → Digest) (p : (ZMod 2)[X]) : List Char := digestText (sha (shaText p))

end

/-! ## The member `sha1` of `mtgp_param` when `USE_SHA` is defined -/

/-- The array `char sha1[SHA_DIGEST_LENGTH * 2 + 1]`, mtgp_param.h:155; a character is its code. -/
abbrev Sha1 := Fin 41 → BitVec 8

/-- The copy constructor, mtgp_param.h:60-65: elements 0 to 39 are copied (and element 0 again); the last one keeps what is in
the memory `mem` of the new object. -/
def copySha1 (mem that : Sha1) : Sha1 := fun i => if i.val < 40 then that i else mem i

/-- The loop of `set_sha1`, mtgp_param.h:74-76: `k` turns left, the next index `i`. -/
def setLoop (src : List Char) : ℕ → ℕ → Sha1 → Sha1
  | 0, _, a => a
  | k + 1, i, a =>
    if i < src.length then
      setLoop src k (i + 1) (fun j => if j.val = i then BitVec.ofNat 8 (src.getD i ' ').toNat else a j)
    else a

/-- `set_sha1(src)`, mtgp_param.h:71-77. -/
def setSha1 (src : List Char) (a : Sha1) : Sha1 :=
  let a := setLoop src 41 0 a
  fun j => if j.val = 40 then 0 else a j

/-- `ss << sha1`, mtgp_param.h:94: the characters up to the first 0; `none` if there is none in the array (characters behind
it are read).  `k` characters are left, the next one is `i`. -/
def readChars (a : Sha1) : ℕ → ℕ → Option (List Char)
  | 0, _ => none
  | k + 1, i =>
    if h : i < 41 then
      if a ⟨i, h⟩ = 0 then some [] else (readChars a k (i + 1)).map fun t => Char.ofNat (a ⟨i, h⟩).toNat :: t
    else none

/-- The first cell of the line that MTGP32dc.cpp:73-84 prints, between the quotes: `get_param` copies the member (first copy,
MTGP32search.hpp:195-197), `set_sha1(str)` acts on the copy, `set_param(param)` has its argument by value (second copy) and
assigns all 41 elements to the member (MTGP32search.hpp:245-247).  `mem1` and `mem2` are the memory of the two copies before
they are made, `old` is the member before. -/
def shaCell (mem1 mem2 old : Sha1) (str : List Char) : Option (List Char) :=
  readChars (copySha1 mem2 (setSha1 str (copySha1 mem1 old))) 41 0

end MTT.PolyText
