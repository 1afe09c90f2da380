import Verif.Model.CrossSection
import Mathlib.Analysis.SpecialFunctions.Gamma.Basic

/-!
# The parameters of a VHS cross section as they are read

`Model/CrossSection.lean` takes the stored parameters; here they come from the three values that are written in the
document.
-/

namespace Chimp

/-- `VHSInfo::load`, `/repo/src/chimp/interaction/cross_section/detail/VHSInfo.cpp` lines 33-41, with
`compute_gamma_visc_inv`, `VHSInfo.h` lines 84-86.  The values have been parsed and converted to SI units already;
`tgamma` is the exact gamma function.  `KB` and `tiny` are the constants `K_B` and `numeric_limits<double>::min()`. -/
noncomputable def vhsInfo (KB tiny value Tref viscTLaw : ℝ) : VHSParam where
  crossSection := value
  Tref := Tref
  viscTLaw := viscTLaw
  gammaViscInv := 1 / Real.Gamma (5 / 2 - viscTLaw)
  KB := KB
  tiny := tiny

end Chimp
