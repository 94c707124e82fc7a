import Verif.GF2.MT32

/-!
# Squarings 5001 to 10000 modulo the characteristic polynomial of MT19937
-/

set_option Elab.async false

namespace MTT.GF2.MT32

theorem e6000 : chk 1000 c5000 c6000 = true := by decide +kernel

theorem e7000 : chk 1000 c6000 c7000 = true := by decide +kernel

theorem e8000 : chk 1000 c7000 c8000 = true := by decide +kernel

theorem e9000 : chk 1000 c8000 c9000 = true := by decide +kernel

theorem e10000 : chk 1000 c9000 c10000 = true := by decide +kernel

end MTT.GF2.MT32
