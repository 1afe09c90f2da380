import Mathlib.Analysis.SpecialFunctions.Sqrt
import Mathlib.Analysis.SpecialFunctions.Trigonometric.Basic

/-!
# Thermal speed estimates

`src/chimp/interaction/v_rel_fnc.h`: the helper functions an application calls to guess how fast
the particles of a gas at temperature `T` move relative to each other.

Simplified: `double` is `ℝ`; the constant `physical::constant::si::pi` is the number `π`; the
Boltzmann constant `physical::constant::si::K_B` is an argument, since its digits come from the
`physical` library.
-/

namespace Chimp

/-- `avg_v_rel`: v_rel_fnc.h lines 47-51. -/
noncomputable def avgVRel (kB T μ : ℝ) : ℝ :=
  √(4 * kB * T / (Real.pi * μ))

/-- `calcStdVFromT`: v_rel_fnc.h lines 61-65. -/
noncomputable def calcStdVFromT (kB T μ : ℝ) : ℝ :=
  √(3 / 2 * kB * T / μ)

/-- `MAX_SPEED_FACTOR`: v_rel_fnc.h line 76. -/
def maxSpeedFactor : ℝ := 3

/-- `estMaxVFromStdV`: v_rel_fnc.h lines 81-83. -/
def estMaxVFromStdV (stddev : ℝ) : ℝ :=
  maxSpeedFactor * stddev

/-- The reduced mass as the example program computes it:
examples/RuntimeDB/testRuntimeDB.cpp lines 113-114. -/
noncomputable def pairMass (m₁ m₂ : ℝ) : ℝ :=
  m₁ * m₂ / (m₁ + m₂)

/-- The entry of `maxSigmaVelProduct` for two species:
examples/RuntimeDB/testRuntimeDB.cpp lines 113-118. -/
noncomputable def exampleMaxSpeed (kB T m₁ m₂ : ℝ) : ℝ :=
  estMaxVFromStdV (calcStdVFromT kB T (pairMass m₁ m₂))

end Chimp
