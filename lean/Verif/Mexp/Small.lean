import Verif.Mexp.Engine

/-!
# Lucas–Lehmer tests that succeed (generated)
-/

set_option Elab.async false

namespace MTT.Mexp

theorem prime3 : (2 ^ 3 - 1).Prime := prime_of_residue (by decide +kernel) (by decide +kernel)
theorem prime5 : (2 ^ 5 - 1).Prime := prime_of_residue (by decide +kernel) (by decide +kernel)
theorem prime7 : (2 ^ 7 - 1).Prime := prime_of_residue (by decide +kernel) (by decide +kernel)
theorem prime13 : (2 ^ 13 - 1).Prime := prime_of_residue (by decide +kernel) (by decide +kernel)
theorem prime17 : (2 ^ 17 - 1).Prime := prime_of_residue (by decide +kernel) (by decide +kernel)
theorem prime19 : (2 ^ 19 - 1).Prime := prime_of_residue (by decide +kernel) (by decide +kernel)
theorem prime31 : (2 ^ 31 - 1).Prime := prime_of_residue (by decide +kernel) (by decide +kernel)
theorem prime61 : (2 ^ 61 - 1).Prime := prime_of_residue (by decide +kernel) (by decide +kernel)
theorem prime89 : (2 ^ 89 - 1).Prime := prime_of_residue (by decide +kernel) (by decide +kernel)
theorem prime107 : (2 ^ 107 - 1).Prime := prime_of_residue (by decide +kernel) (by decide +kernel)
theorem prime127 : (2 ^ 127 - 1).Prime := prime_of_residue (by decide +kernel) (by decide +kernel)
theorem prime521 : (2 ^ 521 - 1).Prime := prime_of_residue (by decide +kernel) (by decide +kernel)
theorem prime607 : (2 ^ 607 - 1).Prime := prime_of_residue (by decide +kernel) (by decide +kernel)
theorem prime1279 : (2 ^ 1279 - 1).Prime := prime_of_residue (by decide +kernel) (by decide +kernel)
theorem prime2203 : (2 ^ 2203 - 1).Prime := prime_of_residue (by decide +kernel) (by decide +kernel)
theorem prime2281 : (2 ^ 2281 - 1).Prime := prime_of_residue (by decide +kernel) (by decide +kernel)
theorem prime3217 : (2 ^ 3217 - 1).Prime := prime_of_residue (by decide +kernel) (by decide +kernel)
theorem prime4253 : (2 ^ 4253 - 1).Prime := prime_of_residue (by decide +kernel) (by decide +kernel)
theorem prime4423 : (2 ^ 4423 - 1).Prime := prime_of_residue (by decide +kernel) (by decide +kernel)
theorem prime9689 : (2 ^ 9689 - 1).Prime := prime_of_residue (by decide +kernel) (by decide +kernel)
theorem prime9941 : (2 ^ 9941 - 1).Prime := prime_of_residue (by decide +kernel) (by decide +kernel)
theorem prime11213 : (2 ^ 11213 - 1).Prime := prime_of_residue (by decide +kernel) (by decide +kernel)
theorem prime19937 : (2 ^ 19937 - 1).Prime := prime_of_residue (by decide +kernel) (by decide +kernel)
theorem prime21701 : (2 ^ 21701 - 1).Prime := prime_of_residue (by decide +kernel) (by decide +kernel)
theorem prime23209 : (2 ^ 23209 - 1).Prime := prime_of_residue (by decide +kernel) (by decide +kernel)

end MTT.Mexp
