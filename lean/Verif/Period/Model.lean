import Mathlib.Algebra.Polynomial.FieldDivision
import Mathlib.Algebra.Field.ZMod
import Mathlib.Algebra.EuclideanDomain.Basic

/-!
# Model of `lib/period.cpp`, `lib/AlgorithmPrimitivity.cpp`

NTL's `GF2X` is `(ZMod 2)[X]`.  The NTL functions used are specified by their documented result:
`IterIrredTest` decides irreducibility, `PowerXMod(x,e,f)` is `X^e mod f`, `GCD` is the gcd, `/=` and `%=`
are Euclidean division and remainder, `deg` is the degree with `deg(0) = -1`.
-/

namespace MTT.Period

open Polynomial

noncomputable section

open Classical in
/-- NTL `deg`. -/
def deg (p : (ZMod 2)[X]) : ℤ := if p = 0 then -1 else p.natDegree

open Classical in
/-- `isIrreducible`, period.cpp:28-32. -/
def isIrreducible (p : (ZMod 2)[X]) : Bool := decide (Irreducible p)

/-- `mersenne_exponent` without the terminating `-1`, period.cpp:15-20. -/
def mersenneExponent : List ℕ :=
  [2, 3, 5, 7, 13, 17, 19, 31, 61, 89, 107, 127, 521, 607, 1279,
   2203, 2281, 3217, 4253, 4423, 9689, 9941, 11213, 19937, 21701,
   23209, 44497, 86243, 110503, 132049, 216091, 756839, 859433,
   1257787, 1398269, 2976221, 3021377, 6972593, 13466917,
   20996011, 25964951]

/-- `isMexp`, period.cpp:40-48.  The loop runs over the entries before `-1`; the comparison is between
`(int32_t)degree` and the entry. -/
def isMexp (degree : BitVec 32) : Bool :=
  mersenneExponent.any fun e => degree.toInt == (e : ℤ)

/-- `isPrime(poly)`, period.cpp:61-72. -/
def isPrime1 (poly : (ZMod 2)[X]) : Bool :=
  if !isIrreducible poly then false
  else
    let degree := BitVec.ofInt 32 (deg poly)
    if isMexp degree then true else false

open Classical in
/-- The loop of `isPrime(poly, degree, Vec<ZZ>)`, period.cpp:101-110. `none`: division by zero. -/
def isPrimeLoop (poly : (ZMod 2)[X]) (period : ℕ) : List ℕ → Option Bool
  | [] => some true
  | p :: ps =>
    if p = 0 then none
    else if X ^ (period / p) % poly = 1 then some false
    else isPrimeLoop poly period ps

/-- `isPrime(poly, degree, Vec<ZZ>)`, period.cpp:87-112.  Factors are non-negative. -/
def isPrimeVec (poly : (ZMod 2)[X]) (degree : ℕ) (factors : List ℕ) : Option Bool :=
  if deg poly ≠ degree then some false
  else if !isIrreducible poly then some false
  else isPrimeLoop poly (2 ^ degree - 1) factors

/-- Reading a decimal number, period.cpp:145-150 (`ISTREAM` undefined): `w = w * 10 + (*p) - '0'` until a
non-digit or the end of the string. -/
def parseLoop (w : ℤ) : List Char → ℤ
  | [] => w
  | c :: cs => if c.isDigit then parseLoop (w * 10 + c.toNat - 48) cs else w

/-- One string of the table (a default constructed `ZZ` is 0). -/
def parseZZ (s : List Char) : ℤ := parseLoop 0 s

/-- Both loops over the table of strings, period.cpp:130-153: entries before the first `NULL`.
Outer `none`: no `NULL` in the array, the loops run past its end. -/
def readTable : List (Option (List Char)) → Option (List ℤ)
  | [] => none
  | none :: _ => some []
  | some s :: rest => (readTable rest).map (parseZZ s :: ·)

/-- `isPrime(poly, degree, const char*[])`, period.cpp:127-156. -/
def isPrimeStr (poly : (ZMod 2)[X]) (degree : ℕ) (table : List (Option (List Char))) : Option Bool :=
  (readTable table).bind fun zs => isPrimeVec poly degree (zs.map Int.toNat)

/-- `AlgorithmPrimitivity::operator()`, AlgorithmPrimitivity.cpp:32-49; `none` for `primes` stands for the
object built by the default constructor (`mersenne = true`). -/
def primitivityOp (primes : Option (List ℕ)) (maxDegree : ℕ) (poly : (ZMod 2)[X]) : Option Bool :=
  if (maxDegree : ℤ) ≠ deg poly then some false
  else if !isIrreducible poly then some false
  else match primes with
    | none => some true
    | some ps => isPrimeVec poly maxDegree ps

/-- State of the inner loop of `hasFactorOfDegree`. -/
inductive Inner
  | outOfFuel
  | small (poly : (ZMod 2)[X])     -- `return false` inside the loop
  | done (poly : (ZMod 2)[X])

open Classical in
/-- The inner loop `for(;;)` of `hasFactorOfDegree`, period.cpp:182-191. -/
def innerLoop (t : (ZMod 2)[X]) (degree : ℕ) : ℕ → (ZMod 2)[X] → Inner
  | 0, _ => .outOfFuel
  | fuel + 1, poly =>
    let alpha := EuclideanDomain.gcd poly t
    if alpha = 1 then .done poly
    else
      let poly := poly / alpha
      if deg poly < degree then .small poly
      else innerLoop t degree fuel poly

open Classical in
/-- The outer loop and the end of `hasFactorOfDegree`, period.cpp:181-201.  Result: the returned value and
the contents of `poly`; `none` if the fuel runs out. -/
def outerLoop (degree : ℕ) : ℕ → (ZMod 2)[X] → (ZMod 2)[X] → (ZMod 2)[X] → Option (Bool × (ZMod 2)[X])
  | 0, _, _, _ => none
  | fuel + 1, poly, t2m, t =>
    if deg poly > degree then
      match innerLoop t degree (poly.natDegree + 1) poly with
      | .outOfFuel => none
      | .small poly => some (false, poly)
      | .done poly =>
        let t2m := (t2m * t2m) % poly
        outerLoop degree fuel poly t2m (t2m + X)
    else if deg poly ≠ degree then some (false, poly)
    else some (isIrreducible poly, poly)

open Classical in
/-- `hasFactorOfDegree`, period.cpp:166-202. -/
def hasFactorOfDegree (fuel : ℕ) (poly : (ZMod 2)[X]) (degree : ℕ) : Option (Bool × (ZMod 2)[X]) :=
  let t2m : (ZMod 2)[X] := X ^ 2
  if deg poly < degree then some (false, poly)
  else outerLoop degree fuel poly t2m (X + t2m)

end

end MTT.Period
