import Verif.Samples.SFMTTools
import Verif.Samples.DSFMTTools
import Verif.Samples.RMTTools
import Verif.Samples.Options

/-!
# Model of the programs `calc_equidist` of sfmtdc, dSFMTdc and RMT from the command line to the text

`getopt_long` and `strtoull` are those of `Verif/Samples/Options`.  The text is the one written to `cout`; the messages written
to `cerr` are not modelled.  The tables of `-v` are written by `cout << dec`, without a width.
-/

namespace MTT.EquidistMain

open Text Options

/-- What `getopt_long` delivers to the programs. -/
inductive Ev
  | verbose
  | reverse
  | seed (arg : List Char)
  | bad

/-- The members `verbose`, `reverse`, `seed` of `options` and the local variables `errno`, `error`. -/
structure Opt where
  verbose : Bool
  reverse : Bool
  seed : BitVec 64
  errno : Bool
  error : Bool

/-- Before the loop, sfmtdc/calc_equidist.cpp:129-140 and dSFMTdc/calc_equidist.cpp:109-118 (where `reverse` is not
initialised and not used); `clock` is what `clock()` returns. -/
def init (clock : BitVec 64) : Opt := ⟨false, false, clock, false, false⟩

/-- One option: sfmtdc/calc_equidist.cpp:149-168 (`hasR`) and dSFMTdc/calc_equidist.cpp:127-143, where `-r` is not known. -/
def step (hasR : Bool) (o : Opt) : Ev → Opt
  | .seed a =>
    let r := strtoull a
    { o with seed := r.1, errno := o.errno || r.2, error := o.error || o.errno || r.2 }
  | .verbose => { o with verbose := true }
  | .reverse => if hasR then { o with reverse := true } else { o with error := true }
  | .bad => { o with error := true }

/-- The loop, sfmtdc/calc_equidist.cpp:141-169 and dSFMTdc/calc_equidist.cpp:119-144. -/
def read (hasR : Bool) (o : Opt) (evs : List Ev) : Opt := evs.foldl (fun o e => if o.error then o else step hasR o e) o

/-- How a program ends. -/
inductive Run
  | undef
  | threw
  | ends (status : Int) (out : List Char)

/-- One turn of the loops that print the tables, sfmtdc/calc_equidist.cpp:77-79, 84-86, 91-93, dSFMTdc/calc_equidist.cpp:71-73,
RMT/calc_equidist.cpp:64-66. -/
def row (mexp : Nat) (veq : Nat → Int) (j : Nat) : List Char :=
  "k(".toList ++ dec (j + 1) ++ ") = ".toList ++ decInt (veq j) ++ "\td(".toList ++ dec (j + 1) ++ ") = ".toList ++
    decInt (((mexp / (j + 1) : Nat) : Int) - veq j) ++ ['\n']

/-- One of these loops. -/
def rows (mexp : Nat) (veq : Nat → Int) (L : Nat) : List Char := (List.range L).flatMap (row mexp veq)

end MTT.EquidistMain

namespace MTT.SFMT

open Polynomial PIS Search W128 Parity Anni SIMD Text EquidistMain

/-- The tables of `-v`, sfmtdc/calc_equidist.cpp:73-95. -/
def tables (mexp : ℕ) (lsbStr : List Char) (veq32 veq64 : ℕ → ℤ) (veq : ℕ → ℕ) : List Char :=
  "32bit dimension of equidistribution at v-bit accuracy k(v)".toList ++ lsbStr ++ ['\n'] ++ rows mexp veq32 32 ++
  "64bit dimension of equidistribution at v-bit accuracy k(v)".toList ++ lsbStr ++ ['\n'] ++ rows mexp veq64 64 ++
  "128bit dimension of equidistribution at v-bit accuracy k(v)".toList ++ lsbStr ++ ['\n'] ++ rows mexp (fun j => veq j) 128

noncomputable section

/-- `main` with `parse_opt`, sfmtdc/calc_equidist.cpp:27-97, 128-208.  `hi` is the uninitialised upper half of the seed word;
`arg` is the first operand, which is parsed also if there is an error. -/
def equidistMain (mps : MPS) (J : Junk) (hi clock : BitVec 64) (evs : List Ev) (arg : Option (List Char)) : Run :=
  let opt := read true (init clock) evs
  match arg with
  | none => .ends (-1) []
  | some a =>
    match parse a with
    | none => .undef
    | some l =>
      if opt.error then .ends (-1) []
      else
        let n := l.mexp / 128 + 1
        match anniS mps (rops n l.mexp) (seed (mk64 opt.seed hi) l.gen) with
        | none => .undef
        | some (_, false) => .ends (-1) []
        | some (sf, true) =>
          let sf := if opt.reverse then { sf with rev := true } else sf
          let t := if opt.reverse then "Equidistribution from LSB\n".toList else []
          let lsbStr := if opt.reverse then " from LSB".toList else []
          match getAllEquidist (ops n) calc1posWrap sf 128 l.mexp (128 * (129 * l.mexp) + 129) J.veq with
          | .error _ => .threw
          | .ok r128 =>
            let sf := { sf with rev := false }
            match calcSIMD (simdOps n) (simdAlg info32 opt.reverse) calc1posWrap (128 * (129 * l.mexp) + 129) l.mexp 32 sf
              J.veq32 with
            | .error _ => .threw
            | .ok r32 =>
              match calcSIMD (simdOps n) (simdAlg info64 opt.reverse) calc1posWrap (128 * (129 * l.mexp) + 129) l.mexp 64 sf
                J.veq64 with
              | .error _ => .threw
              | .ok r64 =>
                .ends 0 (t ++ getString (fieldsOf sf) ++ decInt r32.2 ++ [','] ++ decInt r64.2 ++ [','] ++ decInt r128.sum ++
                  ['\n'] ++ if opt.verbose then tables l.mexp lsbStr r32.1 r64.1 r128.veq else [])

end

end MTT.SFMT

namespace MTT.DSFMT

open Polynomial PIS Search W128 Parity Anni SIMD Text EquidistMain

/-- `main` with `parse_opt`, dSFMTdc/calc_equidist.cpp:26-77, 108-178. -/
noncomputable def equidistMain (mps : MPS) (veq52 : ℕ → ℤ) (hi clock : BitVec 64) (evs : List Ev) (arg : Option (List Char)) :
    Run :=
  let opt := read false (init clock) evs
  match arg with
  | none => .ends (-1) []
  | some a =>
    match parse a with
    | none => .undef
    | some l =>
      if opt.error then .ends (-1) []
      else
        let n := (l.mexp - 128) / 104 + 1
        match anniD mps (rops n l.mexp) (seed (mk64 opt.seed hi) l.gen) with
        | none => .undef
        | some (_, false) => .ends (-1) []
        | some (sf, true) =>
          match calcSIMD (simdOps n) (dsfmtAlg dinfo) calc1posWrap (128 * (129 * l.mexp) + 129) l.mexp 52 sf veq52 with
          | .error _ => .threw
          | .ok r52 =>
            .ends 0 (getString (fieldsOf sf) ++ decInt r52.2 ++ ['\n'] ++ if opt.verbose then
              "52bit dimension of equidistribution at v-bit accuracy k(v)\n".toList ++ rows l.mexp r52.1 52 else [])

end MTT.DSFMT

namespace MTT.RMT

open Polynomial PIS Search Text EquidistMain

open Classical in
/-- `main`, RMT/calc_equidist.cpp:11-71; `pgm` is `argv[0]`, `arg` is `argv[1]` if there is one. -/
noncomputable def equidistMain (mps : MPS) (junk : Nat → BitVec 64) (veq0 : Nat → Nat) (pgm : List Char)
    (arg : Option (List Char)) : Run :=
  match arg with
  | none => .ends 1 (pgm ++ "\n mexp,pos,mata,mskb,mskc,parity\n".toList)
  | some a =>
    match parse a with
    | none => .undef
    | some l =>
      let G := ops (l.mexp / 64 + 1)
      match minpoly mps G 0 0 (l.gen junk) with
      | none => .undef
      | some (rmt, poly) =>
        match Period.hasFactorOfDegree (poly.natDegree + 1) poly l.mexp with
        | none => .undef
        | some (false, irreducible) =>
          .ends (-1) ("error does not have factor of degree ".toList ++ dec l.mexp ++ "\ndegree = ".toList ++
            decInt (Period.deg irreducible) ++ ['\n'])
        | some (true, irreducible) =>
          match calcCharPoly mps G rmt poly with
          | none => .undef
          | some (rmt, poly) =>
            let quotient := poly / irreducible
            let rmt := if quotient ≠ 0 then Lin.annihilate G quotient rmt else rmt
            match minpoly mps G 0 0 rmt with
            | none => .undef
            | some (rmt, _) =>
              match getAllEquidist G Util.calc1posWrap64 rmt 64 l.mexp (64 * (65 * l.mexp) + 65) veq0 with
              | .error _ => .threw
              | .ok r =>
                .ends 0 (getString (fieldsOf rmt) ++ [','] ++ decInt r.sum ++ "\nveq\n".toList ++
                  rows l.mexp (fun j => r.veq j) 64)

end MTT.RMT
