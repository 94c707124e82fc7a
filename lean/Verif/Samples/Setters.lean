import Verif.Samples.DSFMT
import Verif.Samples.RMT
import Verif.Samples.MTGP
import Verif.Samples.MTDC
import Verif.Samples.TinyMT

/-!
# The remaining setters and getters of `class sfmt` and `class dSFMT`

The setters of the other classes are in the models of the classes.
-/

namespace MTT.SFMT

/-- `set_reverse_bit`, sfmtsearch.hpp:584-586. -/
def setReverse (s : St) : St := { s with rev := true }

/-- `reset_reverse_bit`, sfmtsearch.hpp:592-594. -/
def resetReverse (s : St) : St := { s with rev := false }

/-- `getStartMode`, sfmtsearch.hpp:426-428. -/
def getStartMode (s : St) : Int := s.startMode

/-- `getWeightMode`, sfmtsearch.hpp:436-438. -/
def getWeightMode (s : St) : Int := s.weightMode

end MTT.SFMT

namespace MTT.DSFMT

/-- `set_reverse_bit`, dSFMTsearch.hpp:503-505: the assignment is commented out. -/
def setReverse (s : St) : St := s

/-- `reset_reverse_bit`, dSFMTsearch.hpp:511-513: the assignment is commented out. -/
def resetReverse (s : St) : St := s

/-- `getStartMode`, dSFMTsearch.hpp:338-340. -/
def getStartMode (s : St) : Int := s.startMode

/-- `getWeightMode`, dSFMTsearch.hpp:348-350. -/
def getWeightMode (s : St) : Int := s.weightMode

/-- `setFixed`, dSFMTsearch.hpp:606-608. -/
def setFixed (b : Bool) (s : St) : St := { s with fixed := b }

/-- `setFixedSL1`, dSFMTsearch.hpp:609-611 (`value` not negative). -/
def setFixedSL1 (v : Nat) (s : St) : St := { s with fixedSL1 := v }

end MTT.DSFMT
