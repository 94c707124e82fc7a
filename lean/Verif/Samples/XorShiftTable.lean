import Verif.Samples.XorShiftFixed

/-!
# Model of what xorshift-2.cpp, xorshift-5.cpp and xorshift128_main.c print

The streams are modelled by the text that is written to the standard output.  `cout << setw(n)` pads with blanks on the left;
`setw` holds for the next insertion only, `dec` is the default.
-/

namespace MTT.XorShift

open PIS

/-- `cout << setw(n) << s` for the text `s` of a number. -/
def setw (n : ℕ) (s : String) : String := String.ofList (List.replicate (n - s.length) ' ') ++ s

/-- One turn of the loop of xorshift-2.cpp:69-73 and xorshift-5.cpp:71-75, which is also that of slide/xorshift-22.cpp:7-11:
the line for `veq[i]`, with `bitSize` as the number of bits of the state. -/
def tableLine (bitSize : ℕ) (veq : ℕ → ℕ) (i : ℕ) : String :=
  "k(" ++ setw 2 (toString (i + 1)) ++ "):" ++ setw 3 (toString (veq i)) ++ "  d(" ++ setw 2 (toString (i + 1)) ++ "):" ++
    setw 3 (toString (((bitSize / (i + 1) : ℕ) : ℤ) - (veq i : ℤ))) ++ "\n"

/-- The lines of the loop from `i` on, `n` of them. -/
def tableLines (bitSize : ℕ) (veq : ℕ → ℕ) : ℕ → ℕ → String
  | _, 0 => ""
  | i, n + 1 => tableLine bitSize veq i ++ tableLines bitSize veq (i + 1) n

/-- `main` of xorshift-2.cpp:63-76 (with `ops1`), of xorshift-5.cpp:65-78 (with `ops5`) and of slide/xorshift-22.cpp (with the class of
slide/xorshift-21.cpp and slide/xorshift-211.cpp, which is that of xorshift-2.cpp): the standard output and the exit status.
`junk` is what the object holds before its constructor runs, `veq0` the content of the uninitialised array.  `none`: an
exception, undefined behaviour or no end. -/
def tableMain (G : GenOps St 32) (junk : St) (veq0 : ℕ → ℕ) (fuel : ℕ) : Option (String × ℕ) :=
  match getAllEquidist G Util.calc1posWrap32 (seed 1 junk) 32 G.bitSize fuel veq0 with
  | .error _ => none
  | .ok r => some (tableLines G.bitSize r.veq 0 32 ++ "delta:" ++ toString r.sum ++ "\n", 0)

/-- `printf("%8x ", x)`. -/
def hex8 (x : BitVec 32) : String := setw 8 (String.ofList (Nat.toDigits 16 x.toNat)) ++ " "

/-- The loop of xorshift128_main.c:6-11 from `i` on, `n` turns. -/
def loop128 : ℕ → ℕ → X128 → String
  | _, 0, _ => ""
  | i, n + 1, s => hex8 (generate128 s).2 ++ (if i % 4 = 3 then "\n" else "") ++ loop128 (i + 1) n (generate128 s).1

/-- `main` of xorshift128_main.c:3-12: the standard output.  `junk` is the content of the uninitialised array of
`xorshift128_init`. -/
def main128 (junk : Fin 4 → BitVec 32) : String := loop128 0 40 (init junk 1)

end MTT.XorShift
