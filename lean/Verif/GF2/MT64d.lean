import Verif.GF2.MT64

/-!
# Squarings 15001 to 19937 modulo the characteristic polynomial of MT19937-64
-/

set_option Elab.async false

namespace MTT.GF2.MT64

theorem e16000 : chk 1000 c15000 c16000 = true := by decide +kernel

theorem e17000 : chk 1000 c16000 c17000 = true := by decide +kernel

theorem e18000 : chk 1000 c17000 c18000 = true := by decide +kernel

theorem e19000 : chk 1000 c18000 c19000 = true := by decide +kernel

theorem e19937 : chk 937 c19000 c19937 = true := by decide +kernel

end MTT.GF2.MT64
