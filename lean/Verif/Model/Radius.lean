import Verif.Model.Session

/-!
# Effective radii
-/

namespace Chimp

variable {W : Type}

/-- `effectiveRadius` of a cross section, `/repo/src/chimp/interaction/cross_section/Base.h` lines 115-121.  The square
root of a negative number is not a number (`sqrtE`). -/
noncomputable def effectiveRadius (cs : XSec) (v : ℝ) : Except XErr ℝ := do
  let s ← cs.sigma v
  let r ← sqrtE (s / Real.pi)
  return 1 / 2 * r

/-- `effectiveRadius` of an equation, `/repo/src/chimp/interaction/Equation.cpp` lines 223-228. -/
noncomputable def WEq.effectiveRadius (w : WEq W) (v : ℝ) : Except XErr ℝ := Chimp.effectiveRadius w.cs v

end Chimp
