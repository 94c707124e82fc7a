import Verif.GF2.MT32

/-!
# Squarings 10001 to 15000 modulo the characteristic polynomial of MT19937
-/

set_option Elab.async false

namespace MTT.GF2.MT32

theorem e11000 : chk 1000 c10000 c11000 = true := by decide +kernel

theorem e12000 : chk 1000 c11000 c12000 = true := by decide +kernel

theorem e13000 : chk 1000 c12000 c13000 = true := by decide +kernel

theorem e14000 : chk 1000 c13000 c14000 = true := by decide +kernel

theorem e15000 : chk 1000 c14000 c15000 = true := by decide +kernel

end MTT.GF2.MT32
