import Verif.Model.Kinematics

/-!
# The example cell

Models the estimate of the largest relative speed in `/repo/examples/simtest`.  A species is the list of the
velocities of its particles.
-/

namespace Chimp

/-- The measurements of one species, `/repo/examples/simtest/cellMeasurements.h` lines 52-63: `v_min` and
`v_max`, both starting from zero. -/
noncomputable def cellMeasure (vs : List Vec) : Vec × Vec :=
  vs.foldl (fun r v => (⟨min r.1.x v.x, min r.1.y v.y, min r.1.z v.z⟩,
    ⟨max r.2.x v.x, max r.2.y v.y, max r.2.z v.z⟩)) (0, 0)

/-- `Cell::maxRelativeVelocity`, `/repo/examples/simtest/Cell.h` lines 106-116. -/
noncomputable def maxRelativeVelocity (A B : List Vec) : ℝ :=
  max ((cellMeasure A).2 - (cellMeasure B).1).abs ((cellMeasure B).2 - (cellMeasure A).1).abs

end Chimp
