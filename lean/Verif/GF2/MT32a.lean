import Verif.GF2.MT32

/-!
# Squarings 1 to 5000 modulo the characteristic polynomial of MT19937
-/

set_option Elab.async false

namespace MTT.GF2.MT32

theorem e1000 : chk 1000 c0 c1000 = true := by decide +kernel

theorem e2000 : chk 1000 c1000 c2000 = true := by decide +kernel

theorem e3000 : chk 1000 c2000 c3000 = true := by decide +kernel

theorem e4000 : chk 1000 c3000 c4000 = true := by decide +kernel

theorem e5000 : chk 1000 c4000 c5000 = true := by decide +kernel

end MTT.GF2.MT32
