import Verif.Samples.Programs
import Verif.Samples.SFMTTools
import Verif.Samples.DSFMTTools

/-!
# Model of the text that the seven search programs write to `cout`

`Verif/Samples/Programs` delivers the lines of a run as records; here they are written as the programs write them, with the
headers and the other messages.  `endl` is a line feed.  The messages written to `cerr` are not modelled.

With `-v` sfmtdc, sfmtdcfixed and dSFMTdc write the time at the beginning and at the end; the texts `t0`, `t1` of `ctime` are
parameters.  In the other programs the search functions of the library write more with `-v` (`Verif/Search/Verbose`); these
programs are modelled here without `-v`, and with `-v` in `Verif/Samples/TinyMTVerbose`, `MT2Verbose`, `MTGPVerbose` and
`RMTVerbose`.
-/

namespace MTT.SearchText

open Polynomial Text Options

/-- A run that ends: the text and the status. -/
structure Shown where
  text : List Char
  status : Int

/-- sfmtdc.cpp:81-85, sfmtdcfixed.cpp:82-86, dSFMTdc.cpp:84-88. -/
def opening (verbose : Bool) (t0 : List Char) (seed : BitVec 64) : List Char :=
  "seed = ".toList ++ dec seed.toNat ++ ['\n'] ++ if verbose then "search start at ".toList ++ t0 else []

/-- sfmtdc.cpp:159-162, sfmtdcfixed.cpp:160-163, dSFMTdc.cpp:136-139. -/
def closing (verbose : Bool) (t1 : List Char) : List Char :=
  if verbose then "search end at ".toList ++ t1 ++ ['\n'] else []

/-- The lines of a loop. -/
def body {α : Type} (line : α → List Char) (L : List α) : List Char := L.flatMap fun l => line l ++ ['\n']

end MTT.SearchText

namespace MTT.SFMT

open SearchText

/-- `get_header`, sfmtsearch.hpp:103-106. -/
def header : List Char :=
  "mexp, pos1, sl1, sl2, sr1, sr2, msk1, msk2, msk3, msk4, parity1, parity2, parity3, parity4".toList

/-- The text of `search`, sfmtdc.cpp:77-164.  (`return -1` is preceded by lines that the model does not keep; it does not
happen, see C67.) -/
def shown (verbose : Bool) (t0 t1 : List Char) (seed : BitVec 64) : Outcome → Option Shown
  | .done L => some ⟨opening verbose t0 seed ++ "# ".toList ++ header ++ ", delta32, delta64, delta128\n".toList ++
      body Line.text L ++ closing verbose t1, 0⟩
  | .failed L => some ⟨opening verbose t0 seed ++ "# ".toList ++ header ++ ", delta32, delta64, delta128\n".toList ++
      body Line.text L ++ "search failed\n".toList ++ closing verbose t1, 0⟩
  | _ => none

end MTT.SFMT

namespace MTT.DSFMT

open SearchText

/-- `get_header`, dSFMTsearch.hpp:87-89. -/
def header : List Char := "mexp, pos1, sl1, msk1, msk2, fix1, fix2, parity1, parity2".toList

/-- The text of `search`, dSFMTdc.cpp:80-141. -/
def shown (verbose : Bool) (t0 t1 : List Char) (seed : BitVec 64) : Outcome → Option Shown
  | .done L => some ⟨opening verbose t0 seed ++ "# ".toList ++ header ++ ", delta52\n".toList ++ body Line.text L ++
      closing verbose t1, 0⟩
  | .failed L => some ⟨opening verbose t0 seed ++ "# ".toList ++ header ++ ", delta52\n".toList ++ body Line.text L ++
      "search failed\n".toList ++ closing verbose t1, 0⟩
  | _ => none

end MTT.DSFMT

namespace MTT.RMT

open Text SearchText

/-- `getHeaderString`, rmt64.hpp:194-196. -/
def header : List Char := "mexp, pos, mata, parity, maskb, maskc".toList

/-- A line, rmt64dc.cpp:102, without the end of line. -/
def Line.text (l : Line) : List Char := getString l.param ++ [','] ++ decInt l.delta

/-- The text of `search` without `-v`, rmt64dc.cpp:78-114. -/
def shown : Ends → Option Shown
  | .normal L => some ⟨"# ".toList ++ header ++ ", delta\n".toList ++ body Line.text L, 0⟩
  | _ => none

end MTT.RMT

namespace MTT.MTDC

open Text SearchText

/-- `getHeaderString`, mt2.cpp:162-164. -/
def header : List Char := "mexp, id, pos, mata, maskb, maskc".toList

/-- A line: `getParamString`, mt2.cpp:166-175, and delta, mt2.cpp:404-405, without the end of line. -/
def Line.text (l : Line) : List Char :=
  dec l.mexp ++ [','] ++ decInt l.id ++ [','] ++ dec l.pos ++ [','] ++ hexW 8 l.mata.toNat ++ [','] ++
    hexW 8 l.maskb.toNat ++ [','] ++ hexW 8 l.maskc.toNat ++ [','] ++ decInt l.delta

/-- The text of `main` after the options, without `-v`, mt2.cpp:392-413. -/
def shown (L : List Line) : Shown := ⟨header ++ ", delta\n".toList ++ body Line.text L, 0⟩

/-- `output_help`, mt2.cpp:247-258, which writes to `cout`; `pgm` is `argv[0]`. -/
def help (pgm : List Char) : List Char :=
  pgm ++ " mexp id [--count n --max max_delta --seed seed_num --verbose]\n".toList ++
    "mexp             mersenne exponent\n".toList ++ "id               identifier\n".toList ++
    "--count, -c num  output number\n".toList ++ "--max, -m delta  parameters less than delta are not showed\n".toList ++
    "--seed,-s seed   seed of random for parameter generating\n".toList ++ "--verbose,-v     output useless messages\n".toList

end MTT.MTDC

namespace MTT.MTGP

open Text SearchText

/-- `getHeaderString`, mtgp_param.h:84-88. -/
def header : List Char :=
  "sha1, mexp, type, id, pos, sh1, sh2, tbl_0, tbl_1, tbl_2, tbl_3,tmp_0, tmp_1, tmp_2, tmp_3, mask".toList

/-- `getParamString`, mtgp_param.h:90-124, with the weight and delta, MTGP32dc.cpp:84-86, without the end of line, where `sha1` is
the empty string. -/
def Line.text (l : Line) : List Char :=
  ['"', '"', ','] ++ dec l.mexp ++ [','] ++ "uint32_t,".toList ++ dec l.id.toNat ++ [','] ++ dec l.pos ++ [','] ++
    dec l.sh1 ++ [','] ++ dec l.sh2 ++ [','] ++
    ((List.range 4).flatMap fun i => hexW 8 (l.tbl i).toNat ++ [',']) ++
    ((List.range 4).flatMap fun i => hexW 8 (l.tmp i).toNat ++ [',']) ++
    hexW 8 l.mask.toNat ++ [','] ++ dec l.weight ++ [','] ++ decInt l.delta

/-- The lines.  `USE_SHA` is not defined, so `sha1` is an array of one character (mtgp_param.h:157) which no constructor and
no other function that is called sets: `q i` is what the memory holds for line `i`.  If it is not 0, `<< sha1`
(mtgp_param.h:94) reads behind the array. -/
def lines (q : ℕ → BitVec 8) : ℕ → List Line → Option (List Char)
  | _, [] => some []
  | i, l :: L => if q i = 0 then (lines q (i + 1) L).map fun t => l.text ++ ['\n'] ++ t else none

/-- The text of `main` after the options, without `-v`, MTGP32dc.cpp:44-92: the header comes before the first line. -/
def shown (q : ℕ → BitVec 8) (L : List Line) : Option Shown :=
  (lines q 0 L).map fun t => ⟨(if L.isEmpty then [] else '#' :: header ++ ['\n']) ++ t, 0⟩

end MTT.MTGP

namespace MTT.TinyMT

open Polynomial Text SearchText

/-- `getHeaderString`, tinymt32search.hpp:77-79. -/
def header : List Char := "id, mat1, mat2, tmat".toList

open Classical in
/-- One of the two loops of `toString`, tinymt32dc.cpp:123-128 and 132-137: `k` turns left, the words `p` and `mask`, and the
number of the coefficient. -/
noncomputable def bitLoop (poly : (ZMod 2)[X]) : ℕ → ℕ → BitVec 64 → BitVec 64 → BitVec 64
  | 0, _, p, _ => p
  | k + 1, i, p, mask => bitLoop poly k (i + 1) (if poly.coeff i = 1 then p ||| mask else p) (mask <<< 1)

/-- `toString(poly)`, tinymt32dc.cpp:118-143. -/
noncomputable def polyText (poly : (ZMod 2)[X]) : List Char :=
  let p2 := bitLoop poly 64 0 0 1
  let p1 := bitLoop poly 64 64 0 1
  hexW 16 p1.toNat ++ hexW 16 p2.toNat

/-- A line, tinymt32dc.cpp:96-99 and `getParamString`, tinymt32search.hpp:85-92, without the end of line. -/
noncomputable def Line.text (l : Line) : List Char :=
  polyText l.poly ++ [','] ++ dec l.id.toNat ++ [','] ++ hexW 8 l.mat1.toNat ++ [','] ++ hexW 8 l.mat2.toNat ++ [','] ++
    hexW 8 l.tmat.toNat ++ [','] ++ dec l.weight ++ [','] ++ decInt l.delta

/-- The text of `search` without `-v`, tinymt32dc.cpp:67-116: the header comes before the first line.  The end by the exception
`underflow_error`, tinymt32dc.cpp:54-58, has the same text and status. -/
noncomputable def shown (L : List Line) : Shown :=
  ⟨(if L.isEmpty then [] else "# characteristic, ".toList ++ header ++ ", weight, delta\n".toList) ++ body Line.text L, 0⟩

end MTT.TinyMT

namespace MTT.SearchText

open Options

noncomputable section

variable (mps : Search.MPS) (kernel : Parity.KernelFn) (xgcd : DSFMT.XgcdFn) (fuel : ℕ) (clock : BitVec 64)
  (canOpen : List Char → Bool) (evs : List Ev) (operands : List (List Char)) (t0 t1 : List Char)

/-- `main` of sfmtdc: nothing on `cout` and -1 for a command line that is not in order.  (The seed and `-v` are those of
`parse_opt`.) -/
def sfmtdc (J : SFMT.Junk) : Option Shown :=
  match (Options.sfmtdc mps kernel fuel clock canOpen evs operands J).out with
  | none => some ⟨[], -1⟩
  | some r =>
    let o := readOpts stepSeed (init clock 0 0) evs
    SFMT.shown o.verbose t0 t1 o.seed r

/-- `main` of sfmtdcfixed. -/
def sfmtdcfixed (J : SFMT.Junk) : Option Shown :=
  match (Options.sfmtdcfixed mps kernel fuel clock canOpen evs operands J).out with
  | none => some ⟨[], -1⟩
  | some r =>
    let o := readOpts stepSeed (init clock 0 0) evs
    SFMT.shown o.verbose t0 t1 o.seed r

/-- `main` of dSFMTdc. -/
def dsfmtdc (J : DSFMT.Junk) : Option Shown :=
  match (Options.dsfmtdc mps kernel xgcd fuel clock canOpen evs operands J).out with
  | none => some ⟨[], -1⟩
  | some r =>
    let o := readOpts stepFixed (init clock 0 0) evs
    DSFMT.shown o.verbose t0 t1 o.seed r

/-- `main` of rmt64dc without `-v`; the outer `none`: no end. -/
def rmt64dc (one : ℕ → Option (BitVec 64)) (junk : ℕ → BitVec 64) (veq : ℕ → ℕ) (junkPos : ℕ) (junkA : BitVec 64)
    (junkS : ℕ → BitVec 64) : Option (Option Shown) :=
  match (Options.rmt64dc mps kernel fuel clock canOpen evs operands one junk veq junkPos junkA junkS).out with
  | none => some (some ⟨[], -1⟩)
  | some r => r.map RMT.shown

/-- `main` of mt2 without `-v`; the outer `none`: no end. -/
def mt2 (pgm : List Char) (veq : ℕ → ℕ) (turns junkPos : ℕ) (junkA junkSeed : BitVec 32) (junk : ℕ → BitVec 32) :
    Option (Option Shown) :=
  match (Options.mt2 mps fuel canOpen evs operands veq turns junkPos junkA junkSeed junk).out with
  | none => some (some ⟨MTDC.help pgm, -1⟩)
  | some r => r.map fun L => L.map MTDC.shown

/-- `main` of MTGP32dc without `-v`; the outer `none`: no end. -/
def mtgp32dc (J : ℕ → MTGP.Junk) (rng : List Char → ℕ → BitVec 32) (q : ℕ → BitVec 8) : Option (Option Shown) :=
  match (Options.mtgp32dc mps fuel canOpen evs operands J rng).out with
  | none => some (some ⟨[], -1⟩)
  | some r => r.map fun L => L.bind (MTGP.shown q)

/-- `main` of tinymt32dc without `-v`. -/
def tinymt32dc (veq : ℕ → ℕ) : Option Shown :=
  match (Options.tinymt32dc mps fuel canOpen evs operands veq).out with
  | none => some ⟨[], -1⟩
  | some r => r.map TinyMT.shown

end

end MTT.SearchText
