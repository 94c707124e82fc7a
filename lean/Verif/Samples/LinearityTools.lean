import Verif.Lin.Model
import Verif.Samples.SFMTDC
import Verif.Samples.DSFMTDC
import Verif.Samples.MTGP

/-!
# Model of the programs `test_linearity.cpp` of sfmtdc, dSFMTdc and MTGPDC

`w se` is the seed word of turn `se`; the programs set only its lowest quarter to `se`, the rest is uninitialised.
`none` is something undefined.  A program ends with what it printed and its exit status.
-/

namespace MTT.Lin

variable {σ : Type}

/-- The loops over the modes, sfmtdc/test_linearity.cpp:50-63 and dSFMTdc/test_linearity.cpp:40-53: what is printed, and
`success`.  `test` is the call of `TestLinearity`. -/
def lineModes (test : σ → Bool) (setMode : ℤ → ℤ → σ → σ) (sf : σ) : List (ℤ × ℤ) → Bool → List Char × Bool
  | [], success => ([], success)
  | m :: ms, success =>
    if test (setMode m.1 m.2 sf) then
      let r := lineModes test setMode sf ms success
      ('.' :: r.1, r.2)
    else
      let r := lineModes test setMode sf ms false
      ("Linearity Test fail\n".toList ++ r.1, r.2)

/-- The loop over the seeds, sfmtdc/test_linearity.cpp:46-64 and dSFMTdc/test_linearity.cpp:36-54: `k` turns left, next
`se`. -/
def lineSeeds {W : Type} (test : σ → Bool) (setMode : ℤ → ℤ → σ → σ) (seed : W → σ → σ) (w : ℕ → W) (ms : List (ℤ × ℤ)) :
    ℕ → ℕ → σ → Bool → List Char × Bool
  | 0, _, _, success => ([], success)
  | k + 1, se, sf, success =>
    let sf := seed (w se) sf
    let r := lineModes test setMode sf ms success
    let q := lineSeeds test setMode seed w ms k (se + 1) sf r.2
    (r.1 ++ q.1, q.2)

/-- The end of `main`, sfmtdc/test_linearity.cpp:65-69 and dSFMTdc/test_linearity.cpp:55-59: without `return` the exit
status is 0, too. -/
def lineEnd (r : List Char × Bool) : List Char × ℤ :=
  if r.2 then (r.1 ++ "\nLinearity Test OK\n".toList, 0) else (r.1, 0)

end MTT.Lin

namespace MTT.SFMT

open Lin W128

/-- The modes in the order of sfmtdc/test_linearity.cpp:50-51. -/
def lineModeList : List (ℤ × ℤ) :=
  [(0, 4), (0, 3), (0, 2), (0, 1), (1, 4), (1, 3), (1, 2), (1, 1), (2, 4), (2, 3), (2, 2), (2, 1),
    (3, 4), (3, 3), (3, 2), (3, 1)]

/-- `main`, sfmtdc/test_linearity.cpp:7-69; `prog` is `argv[0]`, `args` the other arguments. -/
def testLinearityMain (w : ℕ → W128) (prog : List Char) (args : List (List Char)) : Option (List Char × ℤ) :=
  match args with
  | [] => some (prog ++ "\n mexp,pos1,sl1,sl2,sr1,sr2,msk1,msk2,msk3,msk4,parity1,parity2,parity3,parity4\n".toList, 1)
  | arg :: _ =>
    match parse arg with
    | none => none
    | some params =>
      let n := params.mexp / 128 + 1
      let sf := params.gen
      let r := lineEnd (lineSeeds (testLinearity (ops n) fun s v => seed v s)
        (fun i j sf => setWeightMode j (setStartMode i sf)) seed w lineModeList 19 1 sf true)
      some (getString (fieldsOf sf) ++ '\n' :: r.1, r.2)

end MTT.SFMT

namespace MTT.DSFMT

open Lin W128

/-- The modes in the order of dSFMTdc/test_linearity.cpp:40-41. -/
def lineModeList : List (ℤ × ℤ) := [(0, 2), (0, 1), (1, 2), (1, 1)]

/-- `main`, dSFMTdc/test_linearity.cpp:7-59. -/
def testLinearityMain (w : ℕ → W128) (prog : List Char) (args : List (List Char)) : Option (List Char × ℤ) :=
  match args with
  | [] => some (prog ++ "\n mexp,pos1,sl1,msk1,msk2,fix1,fix2,parity1,parity2\n".toList, 1)
  | arg :: _ =>
    match parse arg with
    | none => none
    | some params =>
      let n := (params.mexp - 128) / 104 + 1
      let sf := params.gen
      let r := lineEnd (lineSeeds (testLinearity (ops n) fun s v => seed v s)
        (fun i j sf => setWeightMode j (setStartMode i sf)) seed w lineModeList 19 1 sf true)
      some (getString (fieldsOf sf) ++ '\n' :: r.1, r.2)

end MTT.DSFMT

namespace MTT.MTGP

/-- The members of `mtgp_param<uint32_t>`, mtgp_param.h:144-157. -/
structure Prm where
  mexp : Nat
  pos : Nat
  sh1 : Nat
  sh2 : Nat
  id : BitVec 32
  mask : BitVec 32
  tbl : Nat → BitVec 32
  p : Nat → BitVec 32
  tmp : Nat → BitVec 32
  tp : Nat → BitVec 32

/-- `set_param`, MTGP32search.hpp:245-247: only the member `param` is assigned. -/
def setParam (q : Prm) (s : St) : St :=
  { s with mexp := q.mexp, pos := q.pos, sh1 := q.sh1, sh2 := q.sh2, id := q.id, mask := q.mask, tbl := q.tbl, p := q.p,
           tmp := q.tmp, tp := q.tp }

/-- The object `param` of MTGPDC/test_linearity.cpp:14-24.  Its constructor, mtgp_param.h:30-39, clears all tables, `main`
sets the four entries of `tbl`. -/
def linePrm (t0 t1 t2 t3 : BitVec 32) : Prm :=
  ⟨11213, 7, 13, 4, 0, 0xffff8000, fun k => if k = 0 then t0 else if k = 1 then t1 else if k = 2 then t2 else if k = 3 then t3
    else 0, fun _ => 0, fun _ => 0, fun _ => 0⟩

/-- MTGPDC/test_linearity.cpp:12-33 with the given entries of `tbl`; `j…` is what is not initialised. -/
def lineTest (t0 t1 t2 t3 : BitVec 32) (jpos jsh1 jsh2 : Nat) (jmask : BitVec 32) (junk : Nat → BitVec 32) : Option ℤ :=
  (ctor 11213 0 jpos jsh1 jsh2 jmask junk).map fun mtgp =>
    if Lin.testLinearity (ops 11213) (fun s v => seed v s) (setParam (linePrm t0 t1 t2 t3) mtgp) then 0 else -1

/-- `main`, MTGPDC/test_linearity.cpp:12-33. -/
def testLinearityMain : Nat → Nat → Nat → BitVec 32 → (Nat → BitVec 32) → Option ℤ :=
  lineTest 0x6b657038 0xbae56977 0xa3200006 0x20ac

end MTT.MTGP
