import Verif.Samples.SFMTTools
import Verif.Samples.DSFMTTools
import Verif.Lin.Model

/-!
# Model of the self-test `-c` of the programs `calc_parity`

`samples/sfmtdc/calc_parity.cpp` and `samples/dSFMTdc/calc_parity_main.cpp` with the options `-c` and `-v`.  The function
`test_parity0` is the same text in both programs up to two messages and the form of one test; it is modelled once, for a class
with the operations that it uses.  `w` is the seed word of `main`, which sets only its lower half.  `none` is something undefined
or an exception.
-/

namespace MTT.ParityTest

open Polynomial PIS Search W128 Text

/-- What `test_parity0` uses of a class: the generator operations, the exponent, `seed`, `periodCertification` (for dSFMT with the
argument `true`), `d_p`, the text that the dSFMT program adds to two messages, and the test of the second certification
(`!r` in calc_parity.cpp:76, `r != 1` in calc_parity_main.cpp:68). -/
structure PT (σ : Type) where
  ops : GenOps σ 128
  mexp : ℕ
  seed : W128 → σ → σ
  cert : σ → σ × ℕ
  dump : σ → List Char
  mark : List Char
  bad : ℕ → Bool

/-- How a turn of the loop ends: the next turn follows; `break` with or without `point = i`; `return`. -/
inductive Turn (σ : Type)
  | go (s : σ)
  | brk (setPoint : Bool)
  | ret

/-- `if (verbose) printf(...)`. -/
def say (verbose : Bool) (t : List Char) : List Char := if verbose then t else []

noncomputable section

variable {σ : Type}

/-- A turn from the second certification of the state without large component on, calc_parity.cpp:99-137,
calc_parity_main.cpp:91-125. -/
def turn3 (mps : MPS) (C : PT σ) (v : Bool) (t : List Char) (sf : σ) : Option (List Char × Turn σ) :=
  let r := C.cert sf
  if r.2 = 1 then some (t ++ say v "period certification OK [ERROR]\n".toList ++ C.dump r.1, .brk false)
  else
    let t := t ++ say v "period certification NG -> OK\n".toList
    let r := C.cert r.1
    if r.2 = 0 then some (t ++ "period certification didn't chanege status!!\n".toList, .brk true)
    else
      match Search.minpoly mps C.ops 0 0 r.1 with
      | none => none
      | some (sf, mpoly) =>
        let t := t ++ say (v || decide (Period.deg mpoly < C.mexp)) ("mpoly = ".toList ++ decInt (Period.deg mpoly) ++ ['\n'])
        if Period.deg mpoly < C.mexp then some (t, .brk true)
        else
          let r := C.cert sf
          if r.2 = 1 then some (t ++ say v "period certification OK\n".toList, .go r.1)
          else
            let t := t ++ say v "period certification NG -> OK\n".toList
            let r := C.cert r.1
            if r.2 = 0 then some (t ++ "error!!\n".toList, .ret) else some (t, .go r.1)

/-- A turn from the second seed on, calc_parity.cpp:83-97, calc_parity_main.cpp:75-89. -/
def turn2 (mps : MPS) (C : PT σ) (v : Bool) (f : (ZMod 2)[X]) (i : ℕ) (t : List Char) (sf : σ) :
    Option (List Char × Turn σ) :=
  let sf := Lin.annihilate C.ops f (C.seed (mk64 (BitVec.ofNat 64 (i + 3)) 0) sf)
  let t := t ++ say v "==zero\n".toList
  match Search.minpoly mps C.ops 0 0 sf with
  | none => none
  | some (sf, mpoly) =>
    let t := t ++ say (v || decide (C.mexp ≤ Period.deg mpoly)) ("mpoly = ".toList ++ decInt (Period.deg mpoly) ++ ['\n'])
    if C.mexp ≤ Period.deg mpoly then some (t ++ "make zero state failed\n".toList, .brk false)
    else turn3 mps C v t sf

/-- A turn of the loop, calc_parity.cpp:45-139, calc_parity_main.cpp:37-127: the text and the end. -/
def turn (mps : MPS) (C : PT σ) (v : Bool) (f : (ZMod 2)[X]) (i : ℕ) (sf : σ) : Option (List Char × Turn σ) :=
  let t := say v ("------\n==shoki (".toList ++ dec i ++ ")\n".toList)
  match Search.minpoly mps C.ops 0 0 (C.seed (mk64 (BitVec.ofNat 64 (i + 1)) 0) sf) with
  | none => none
  | some (sf, mpoly) =>
    let rem := mpoly % f
    if Period.deg rem ≠ -1 then
      some (t ++ say v ("minpoly = ".toList ++ decInt (Period.deg mpoly) ++ "\nrem != 0 deg rempoly = ".toList ++
        decInt (Period.deg rem) ++ "\ndeg q = ".toList ++ decInt (Period.deg (mpoly / f)) ++ ['\n']), .brk true)
    else if Period.deg mpoly < C.mexp then
      some (t ++ say v ("mpoly = ".toList ++ decInt (Period.deg mpoly) ++ ['\n']), .brk true)
    else
      let r := C.cert sf
      if r.2 = 1 then turn2 mps C v f i (t ++ say v "period certification OK\n".toList) r.1
      else
        let t := t ++ say v ("period certification NG -> OK".toList ++ C.mark ++ ['\n'])
        let r := C.cert r.1
        if C.bad r.2 then
          some (t ++ "period critification didn't change status".toList ++ C.mark ++ "!!\n".toList, .brk true)
        else turn2 mps C v f i t r.1

/-- The loop, `k` turns left: the text, and `result` and `point` at the end (`none`: `return` inside the loop). -/
def loop (mps : MPS) (C : PT σ) (v : Bool) (f : (ZMod 2)[X]) :
    ℕ → ℕ → ℕ → ℕ → σ → Option (List Char × Option (ℕ × ℕ))
  | 0, _, result, point, _ => some ([], some (result, point))
  | k + 1, i, result, point, sf =>
    match turn mps C v f i sf with
    | none => none
    | some (t, .go sf) => (loop mps C v f k (i + 1) (result + 1) point sf).map fun r => (t ++ r.1, r.2)
    | some (t, .brk b) => some (t, some (0, if b then i else point))
    | some (t, .ret) => some (t, none)

/-- `test_parity0`, calc_parity.cpp:30-145, calc_parity_main.cpp:22-133, on the object after `setParityValue`. -/
def testParity0 (mps : MPS) (C : PT σ) (v : Bool) (f : (ZMod 2)[X]) (sf : σ) : Option (List Char) :=
  match loop mps C v f 100 0 0 0 sf with
  | none => none
  | some (t, none) => some (say v "start parity zero\n".toList ++ t)
  | some (t, some (result, point)) =>
    some (say v "start parity zero\n".toList ++ t ++
      if result ≠ 0 then "test successed ".toList ++ dec result ++ " / 100\n".toList
      else "test failed at count ".toList ++ dec point ++ ['\n'])

end

end MTT.ParityTest

namespace MTT.SFMT

open Polynomial PIS Search W128 Parity Anni SIMD Text ParityTest

/-- `d_p`, sfmtsearch.hpp:626-634. -/
def dumpText (s : St) : List Char :=
  "index = ".toList ++ dec s.index ++ ['\n'] ++ (List.range s.size).flatMap fun i =>
    (List.range 4).flatMap (fun j => hexW 8 (u (s.state i) j).toNat) ++ ['\n']

/-- The class in `test_parity0`. -/
def ptest (n mexp : ℕ) : PT St where
  ops := ops n
  mexp := mexp
  seed := seed
  cert := periodCertification
  dump := dumpText
  mark := []
  bad r := r == 0

/-- `main`, calc_parity.cpp:205-241: the text and the value returned (`return false` is 0). -/
noncomputable def calcParityMain (mps : MPS) (kernel : KernelFn) (fuel : ℕ) (sh w : W128) (check verbose : Bool)
    (arg : List Char) : Option (List Char × ℤ) :=
  match parse arg with
  | none => none
  | some l =>
    let n := l.mexp / 128 + 1
    let t := if check then "mexp = ".toList ++ dec l.mexp ++ ", maxdegree = ".toList ++ dec (n * 128) ++ ['\n'] else []
    match Search.minpoly mps (ops n) 0 0 (seed w l.gen) with
    | none => none
    | some (sf, poly) =>
      match Period.hasFactorOfDegree (poly.natDegree + 1) poly sf.mexp with
      | none => none
      | some (false, irreducible) =>
        some (t ++ "error does not have factor of degree ".toList ++ dec sf.mexp ++ "\ndegree = ".toList ++
          decInt (Period.deg irreducible) ++ ['\n'], 0)
      | some (true, irreducible) =>
        match searchParity (rops n l.mexp) words128 fuel kernel sh sf irreducible with
        | .error _ => none
        | .ok (_, sf) =>
          let t := t ++ getString (fieldsOf sf) ++ ['\n']
          if check then
            (testParity0 mps (ptest n l.mexp) verbose irreducible (setParityValue (getParityValue sf) l.gen)).map
              fun r => (t ++ r, 0)
          else some (t, 0)

end MTT.SFMT

namespace MTT.DSFMT

open Polynomial PIS Search W128 Parity Anni SIMD Text ParityTest

/-- `d_p`, dSFMTsearch.hpp:554-568. -/
def dumpText (s : St) : List Char :=
  "index = ".toList ++ dec s.index ++ ['\n'] ++ ((List.range s.size).flatMap fun i =>
    (List.range 2).flatMap (fun j => hexW 16 (u64 (s.state i) j).toNat ++ [' ']) ++ ['\n']) ++
  (List.range 2).flatMap (fun j => hexW 16 (u64 s.lung j).toNat ++ [' ']) ++ ['\n']

/-- The class in `test_parity0`. -/
def ptest (n mexp : ℕ) : PT St where
  ops := ops n
  mexp := mexp
  seed := seed
  cert := periodCertification true
  dump := dumpText
  mark := " 1".toList
  bad r := r != 1

/-- `main`, calc_parity_main.cpp:179-215: the text and the value returned. -/
noncomputable def calcParityMain (mps : MPS) (kernel : KernelFn) (fuel : ℕ) (sh : W128) (p1 p2 : BitVec 64) (w : W128)
    (check verbose : Bool) (arg : List Char) : Option (List Char × ℤ) :=
  match parseFix p1 p2 arg with
  | none => none
  | some l =>
    let n := (l.mexp - 128) / 104 + 1
    let t := if check then "mexp = ".toList ++ dec l.mexp ++ ", maxdegree = ".toList ++ dec (n * 104 + 128) ++ ['\n'] else []
    match Search.minpoly mps (ops n) 0 0 (seed w l.gen) with
    | none => none
    | some (sf, poly) =>
      match Period.hasFactorOfDegree (poly.natDegree + 1) poly sf.mexp with
      | none => none
      | some (false, irreducible) =>
        some (t ++ "error does not have factor of degree ".toList ++ dec sf.mexp ++ "\ndegree = ".toList ++
          decInt (Period.deg irreducible) ++ ['\n'], -1)
      | some (true, irreducible) =>
        match searchParity (rops n l.mexp) words128 fuel kernel sh sf irreducible with
        | .error _ => none
        | .ok (_, sf) =>
          let t := t ++ getString (fieldsOf sf) ++ ['\n']
          if check then
            (testParity0 mps (ptest n l.mexp) verbose irreducible (setParityValue (getParityValue sf) l.gen)).map
              fun r => (t ++ r, 0)
          else some (t, 0)

end MTT.DSFMT
