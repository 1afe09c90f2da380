import Verif.Model.FloatKin

/-!
# Cross sections in floating-point arithmetic

The constructors of `Model/CrossSection.lean` once more with every operation on `double` rounded, as in
`Model/FloatKin.lean`.  `pw` is the power function of the library (`xylose::fast_pow`).  The extrapolation beyond a table is
an arbitrary function.  The logarithmic and the Lotz cross sections are in
`Model/FloatLotz.lean`.
-/

namespace Chimp

variable (rd : ℝ → ℝ)

/-- `setThresholdEnergy`, `/repo/src/chimp/interaction/cross_section/Constant.h` lines 105-114 (the same in
`VHS.h` lines 103-112 and `Inverse.h` lines 100-109): `threshold_E` and `threshold_v`. -/
noncomputable def setThresholdR (mu e : ℝ) : Except XErr (ℝ × ℝ) :=
  if e < 0 then .error .badThreshold else .ok (e, thresholdVR rd e mu)

/-- `Constant`, `/repo/src/chimp/interaction/cross_section/Constant.h` lines 77-152. -/
noncomputable def mkConstantR (value mu e : ℝ) : Except XErr XSec :=
  match setThresholdR rd mu e with
  | .error x => .error x
  | .ok (tE, tv) => .ok
    { sigma := fun v => .ok (if v ≥ tv then value else 0)
      thrE := tE
      maxSV := fun vmax => .ok (if vmax ≥ tv then (rd (value * vmax), vmax) else (0, 0)) }

/-- `VHS::operator()`, `/repo/src/chimp/interaction/cross_section/VHS.h` lines 121-141. -/
noncomputable def vhsSigmaR (pw : ℝ → ℝ → ℝ) (p : VHSParam) (mu tv v : ℝ) : ℝ :=
  if v < tv then 0
  else
    let x := rd (rd (rd (2 * p.KB) * p.Tref) / rd (rd (mu * rd (v * v)) + p.tiny))
    rd (rd (p.crossSection * pw x (rd (p.viscTLaw - 1 / 2))) * p.gammaViscInv)

/-- `VHS`, same file lines 90-161. -/
noncomputable def mkVHSR (pw : ℝ → ℝ → ℝ) (p : VHSParam) (mu e : ℝ) : Except XErr XSec :=
  match setThresholdR rd mu e with
  | .error x => .error x
  | .ok (tE, tv) => .ok
    { sigma := fun v => .ok (vhsSigmaR rd pw p mu tv v)
      thrE := tE
      maxSV := fun vmax => .ok (if vmax ≥ tv then (rd (vhsSigmaR rd pw p mu tv vmax * vmax), vmax) else (0, 0)) }

/-- `Inverse`, `/repo/src/chimp/interaction/cross_section/Inverse.h` lines 90-147. -/
noncomputable def mkInverseR (valueVref mu e : ℝ) : Except XErr XSec :=
  match setThresholdR rd mu e with
  | .error x => .error x
  | .ok (tE, tv) => .ok
    { sigma := fun v => if v < tv then .ok 0 else if v = 0 then .error .nonfinite else .ok (rd (valueVref / v))
      thrE := tE
      maxSV := fun vmax => .ok (if vmax ≥ tv then (valueVref, tv) else (0, 0)) }

/-- Loop of `DATA::findMaxSigmaV`, `/repo/src/chimp/interaction/cross_section/DATA.h` lines 172-178. -/
noncomputable def maxLoopR (l : XTable) (r : ℝ × ℝ) : ℝ × ℝ :=
  l.foldl (fun r d => if r.1 < rd (d.1 * d.2) then (rd (d.1 * d.2), d.1) else r) r

/-- `DATA::findMaxSigmaV`, same file lines 165-194. -/
noncomputable def dataMaxR (ext : Option (ℝ → ℝ)) (t : XTable) (vmax : ℝ) : Except XErr (ℝ × ℝ) :=
  let r := maxLoopR rd (belowOf t vmax) (0, 0)
  match dataSigmaR rd ext t vmax with
  | .error x => .error x
  | .ok s => .ok (if r.1 < rd (vmax * s) then (rd (vmax * s), vmax) else r)

/-- `DATA` from a table: `setTable` and `init`, same file lines 137-230.  `ext` is the extrapolation found for the trimmed
table, `none` if it is not allowed or there is none. -/
noncomputable def mkDataR (ext : XTable → Option (ℝ → ℝ)) (mu : ℝ) (table : XTable) : Except XErr XSec :=
  match checkThreshold table with
  | .error x => .error x
  | .ok t => .ok
    { sigma := dataSigmaR rd (ext t) t
      thrE := dataThresholdR rd mu (match t with | [] => 0 | d :: _ => d.1)
      maxSV := dataMaxR rd (ext t) t }

/-- `sqrt` with its domain. -/
noncomputable def sqrtER (x : ℝ) : Except XErr ℝ := if 0 ≤ x then .ok (rd (Real.sqrt x)) else .error .nonfinite

/-- `0.25 * SQR( sqrt(sigma0(v)) + sqrt(sigma1(v)) )`,
`/repo/src/chimp/interaction/cross_section/detail/AvgEasy.h` lines 91-95. -/
noncomputable def avgSigmaR (s0 s1 : ℝ → Except XErr ℝ) (v : ℝ) : Except XErr ℝ := do
  let a ← s0 v
  let a ← sqrtER rd a
  let b ← s1 v
  let b ← sqrtER rd b
  let d := rd (a + b)
  return rd (1 / 4 * rd (d * d))

/-- `AvgEasy`, same file lines 85-114. -/
noncomputable def mkAvgEasyR (c0 c1 : XSec) : XSec :=
  { sigma := avgSigmaR rd c0.sigma c1.sigma
    thrE := min c0.thrE c1.thrE
    maxSV := fun vmax =>
      match avgSigmaR rd c0.sigma c1.sigma vmax with
      | .error x => .error x
      | .ok val => .ok (if val > 0 then (rd (val * vmax), vmax) else (0, 0)) }

/-- The sampling loop of `AveragedDiameters`, `/repo/src/chimp/interaction/cross_section/AveragedDiameters.h`
lines 85-88, as in `sampleLoop`. -/
noncomputable def sampleLoopR (s0 s1 : ℝ → Except XErr ℝ) (dv : ℝ) : ℕ → ℝ → XTable → Option (Except XErr XTable)
  | 0, _, _ => none
  | fuel + 1, v, t =>
    if v > 0 then
      match avgSigmaR rd s0 s1 v with
      | .error x => some (.error x)
      | .ok s => sampleLoopR s0 s1 dv fuel (rd (v - dv)) (XTable.insert t (v, s))
    else some (.ok t)

/-- `AveragedDiameters`, same file lines 75-92. -/
noncomputable def mkAveragedR (ext : XTable → Option (ℝ → ℝ)) (c0 c1 : XSec) (vmax dv mu : ℝ) (fuel : ℕ) :
    Option (Except XErr XSec) :=
  match sampleLoopR rd c0.sigma c1.sigma dv fuel (rd (vmax + rd (1 / 2 * dv))) [] with
  | none => none
  | some (.error x) => some (.error x)
  | some (.ok t) => some (mkDataR rd ext mu t)

end Chimp
