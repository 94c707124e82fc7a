import Verif.Tests.PeriodTest
import Verif.PIS.Model
import Verif.Util.Model

/-!
# Model of `test/test_equidist.cpp`
-/

namespace MTT.Tests

open TinyRef PIS

/-- `main` of test_equidist.cpp:14-27 for the seed `seed` (in the program 1234): the text written and the value returned.  `veq0` is the
content of the array `veq`, which is not initialised; `fuel` bounds the loops of the calculation; `none`: undefined behaviour or bound
exceeded. -/
def equidistTest (seed : BitVec 32) (fuel : ℕ) (veq0 : ℕ → ℕ) : Option (String × Int) :=
  match getAllEquidist t32Ops Util.calc1posWrap32 (tiny32 seed) 32 t32Ops.bitSize fuel veq0 with
  | .error _ => none
  | .ok r => if r.sum ≠ 0 then some ("testing equidistribution ...NG\n", -1) else some ("testing equidistribution ...ok\n", 0)

end MTT.Tests
