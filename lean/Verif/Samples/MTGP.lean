import Verif.PIS.Model
import Verif.Util.Model

/-!
# Model of `class mtgp32` (`samples/MTGPDC/MTGP32search.hpp`) and of `mtgp_param<uint32_t>` (`mtgp_param.h`)

Arrays are functions of the index.  The accesses to `state` are reduced modulo `state_size` or run from 0 to
`state_size - 1`; those to the tables are masked with `0xf`; `src_bit` of `setTemperingPattern` is taken to be
0, 1, 2 or 3.  `sh1` and `sh2` are taken to be below 32 (`setUpParam` sets 13 and 4).  `sha1` and the formatting of
the parameters are not modelled.
-/

namespace MTT.MTGP

/-- Object: MTGP32search.hpp:307-313 with the members of `mtgp_param`, mtgp_param.h:144-157.  `mask0` is the
member `mask` of `mtgp32`, which no constructor initialises; `mask` is `param.mask`. -/
structure St where
  mexp : Nat
  pos : Nat
  sh1 : Nat
  sh2 : Nat
  id : BitVec 32
  mask : BitVec 32
  tbl : Nat → BitVec 32
  p : Nat → BitVec 32
  tmp : Nat → BitVec 32
  tp : Nat → BitVec 32
  size : Nat
  idx : Nat
  rev : Bool
  mask0 : BitVec 32
  state : Nat → BitVec 32

/-- `seed`, MTGP32search.hpp:253-261: the loop, `k` turns left, next index `i`. -/
def seedLoop : Nat → Nat → (Nat → BitVec 32) → (Nat → BitVec 32)
  | 0, _, m => m
  | k + 1, i, m =>
    let p := m (i - 1)
    seedLoop k (i + 1) (Function.update m i (1812433253 * (p ^^^ (p >>> 30)) + BitVec.ofNat 32 i))

/-- `seed`, MTGP32search.hpp:253-261. -/
def seed (v : BitVec 32) (s : St) : St :=
  { s with state := seedLoop (s.size - 1) 1 (Function.update s.state 0 v), idx := s.size - 1 }

/-- Constructor, MTGP32search.hpp:57-69 and mtgp_param.h:30-39; `junk…` is what is not initialised.  `none`:
the shift by 32 is undefined, which happens if `mexp` is a multiple of 32. -/
def ctor (mexp : Nat) (id : BitVec 32) (jpos jsh1 jsh2 : Nat) (jmask : BitVec 32) (junk : Nat → BitVec 32) :
    Option St :=
  let size := mexp / 32 + 1
  let k := 32 * size - mexp
  if k < 32 then
    some (seed 0 ⟨mexp, jpos, jsh1, jsh2, id, (~~~ (0 : BitVec 32)) <<< k, fun _ => 0, fun _ => 0, fun _ => 0,
      fun _ => 0, size, 0, false, jmask, junk⟩)
  else none

/-- `clone`, MTGP32search.hpp:75-92: everything but the member `mask` is copied. -/
def clone (jmask : BitVec 32) (s : St) : St := { s with mask0 := jmask }

/-- `rec`, MTGP32search.hpp:362-367. -/
def recur (s : St) (p1 p2 p3 : BitVec 32) : BitVec 32 :=
  let p1 := (p1 &&& s.mask) ^^^ p2
  let p1 := p1 ^^^ (p1 <<< s.sh1)
  let p3 := p1 ^^^ (p3 >>> s.sh2)
  p3 ^^^ s.p (p3 &&& 0x0f).toNat

/-- `next_state`, MTGP32search.hpp:321-326. -/
def nextState (s : St) : St :=
  let idx := (s.idx + 1) % s.size
  { s with
    idx := idx
    state := Function.update s.state idx
      (recur s (s.state idx) (s.state ((idx + 1) % s.size)) (s.state ((idx + s.pos) % s.size))) }

/-- `temper`, MTGP32search.hpp:329-335 (`pos` positive: the index is not negative). -/
def temper (s : St) : BitVec 32 :=
  let v := s.state s.idx
  let t := s.state ((s.idx + s.pos - 1) % s.size)
  let t := t ^^^ (t >>> 16)
  let t := t ^^^ (t >>> 8)
  v ^^^ s.tp (t &&& 0x0f).toNat

/-- `generate()`, MTGP32search.hpp:102-105. -/
def generate (s : St) : St × BitVec 32 := (nextState s, temper (nextState s))

/-- `generate(int bit_len)`, MTGP32search.hpp:114-124 (`bit_len` from 1 to 32). -/
def generateV (v : Nat) (s : St) : St × BitVec 32 :=
  let r := generate s
  let u := if s.rev then Util.reverseBit32 r.2 else r.2
  (r.1, u &&& ((~~~ (0 : BitVec 32)) <<< (32 - v)))

/-- The member `fill_table`, MTGP32search.hpp:343-353: like the function of util.hpp, but it clears each entry
first. -/
def fillTable (dist src : Nat → BitVec 32) (size : Nat) : Nat → BitVec 32 :=
  (List.range (size - 1)).foldl
    (fun d i => Function.update d (i + 1) (Util.fillLoop src (i + 1) 31 1 0 0)) (Function.update dist 0 0)

/-- The upper end of the range of `pos`, MTGP32search.hpp:167-173. -/
def posEnd (size : Nat) : Option Int :=
  if size > 100 then (Util.floor2p size size).map fun f => (size : Int) - f - 1
  else some ((size / 2 : Nat) - 1)

/-- One entry of `tbl`, MTGP32search.hpp:178-183. -/
def entry (i : Nat) (u : BitVec 32) : BitVec 32 :=
  if u &&& 0x0f = (1 : BitVec 32) <<< i then u ^^^ ((1 : BitVec 32) <<< i) else u

/-- `setUpParam`, MTGP32search.hpp:166-190; `u0`, …, `u4` are the numbers delivered by the parameter source.
`none`: `get_range` ends the process (or is undefined). -/
def setUpParam (u0 u1 u2 u3 u4 : BitVec 32) (s : St) : Option St :=
  match posEnd s.size with
  | none => none
  | some e =>
    match Util.getRange u0.toNat 3 e with
    | .value pos =>
      let t2 := (entry 2 u3 &&& (0xfff0000f : BitVec 32)) ^^^ ((s.id <<< 4) &&& (0x000ffff0 : BitVec 32))
      let t3 := (entry 3 u4 &&& (0x0000ffff : BitVec 32)) ^^^ (s.id &&& (0xffff0000 : BitVec 32))
      let tbl := fun k => if k = 0 then entry 0 u1 else if k = 1 then entry 1 u2 else if k = 2 then t2
        else if k = 3 then t3 else s.tbl k
      let p0 := fun k => if k < 16 then 0 else s.p k
      some { s with pos := pos.toNat, sh1 := 13, sh2 := 4, tbl := tbl, p := fillTable p0 tbl 16 }
    | _ => none

/-- `setTemperingPattern`, MTGP32search.hpp:205-208. -/
def setTemperingPattern (mask pattern : BitVec 32) (src : Nat) (s : St) : St :=
  { s with tmp := Function.update s.tmp src ((s.tmp src &&& ~~~ mask) ||| (pattern &&& mask)) }

/-- `setUpTempering`, MTGP32search.hpp:241-244. -/
def setUpTempering (s : St) : St :=
  { s with tp := fillTable (fun k => if k < 16 then 0 else s.tp k) s.tmp 16 }

/-- `add`, MTGP32search.hpp:216-239 (the argument has the same class; no `DEBUG`). -/
def add (s t : St) : St :=
  { s with state := (List.range s.size).foldl (fun a i => Function.update a ((s.idx + i) % s.size)
      (a ((s.idx + i) % s.size) ^^^ t.state ((t.idx + i) % s.size))) s.state }

/-- `setZero`, MTGP32search.hpp:266-270. -/
def setZero (s : St) : St :=
  { s with state := (List.range s.size).foldl (fun a i => Function.update a i 0) s.state }

/-- `isZero`, MTGP32search.hpp:277-287. -/
def isZero (s : St) : Bool :=
  if s.state s.idx &&& s.mask0 ≠ 0 then false
  else (List.range (s.size - 1)).all fun i => s.state ((s.idx + (i + 1)) % s.size) == 0

/-- `setReverseOutput`, `resetReverseOutput`, MTGP32search.hpp:292-302. -/
def setReverse (s : St) : St := { s with rev := true }
def resetReverse (s : St) : St := { s with rev := false }

/-- The interface of the class; `bitSize` is MTGP32search.hpp:98-100. -/
def ops (mexp : Nat) : GenOps St 32 where
  generate := generate
  generateV := generateV
  add := add
  setZero := setZero
  isZero := isZero
  bitSize := mexp

end MTT.MTGP
