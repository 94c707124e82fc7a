import Verif.Mexp.P216091a
import Verif.Mexp.P216091d

/-!
# The exponent 216091
-/

set_option Elab.async false

namespace MTT.Mexp.E216091

/-- `2^216091 - 1` is a prime. -/
theorem prime : (2 ^ 216091 - 1).Prime :=
  Good.prime (good216089 (good165000 (good110000 good55000))) (by decide +kernel) (by decide +kernel) (by decide +kernel)

end MTT.Mexp.E216091
