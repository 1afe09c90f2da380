import Verif.Model.CrossSection
import Verif.Model.Float
import Verif.Model.Kinematics

/-!
# Collisions in floating-point arithmetic

The velocities computed by `model::Elastic`, `InElastic_2X2` and `InElastic_2X3` (`Model/Kinematics.lean`) and the
thresholds of `cross_section::Constant`, `VHS` and `DATA`, with every operation on `double` rounded.  `sqrt` is correctly
rounded, as IEC 559 asks; `cos` and `sin` are those of some library and `M_PI` is some number.  The components of
`xylose::Vector` are squared and added from the first to the last.  `none` is not-a-number.  Positions, species and
`ops` are as in `Model/Kinematics.lean` and are left out.  As in `Model/Float.lean` there is no overflow or underflow.
-/

namespace Chimp

/-- The operations on `double`: rounding, the functions of the C library, and `M_PI`. -/
structure Arith where
  rd : ℝ → ℝ
  cos : ℝ → ℝ
  sin : ℝ → ℝ
  pi : ℝ

/-- Exact operations. -/
noncomputable def Arith.exact : Arith := ⟨id, Real.cos, Real.sin, Real.pi⟩

variable {S : Type}

/-- `std::sqrt` -/
noncomputable def sqrtR (rd : ℝ → ℝ) (x : ℝ) : Option ℝ := if 0 ≤ x then some (rd (Real.sqrt x)) else none

/-- `a + b` of `xylose::Vector<double,3>` -/
def vAdd (rd : ℝ → ℝ) (a b : Vec) : Vec := ⟨rd (a.x + b.x), rd (a.y + b.y), rd (a.z + b.z)⟩

/-- `a - b` -/
def vSub (rd : ℝ → ℝ) (a b : Vec) : Vec := ⟨rd (a.x - b.x), rd (a.y - b.y), rd (a.z - b.z)⟩

/-- `c * a` -/
def vScale (rd : ℝ → ℝ) (c : ℝ) (a : Vec) : Vec := ⟨rd (c * a.x), rd (c * a.y), rd (c * a.z)⟩

/-- `SQR(a)` -/
def normSqR (rd : ℝ → ℝ) (a : Vec) : ℝ := rd (rd (rd (a.x * a.x) + rd (a.y * a.y)) + rd (a.z * a.z))

/-- `(v1 - v2).abs()`: the relative speed in `Set::interact`, `/repo/src/chimp/interaction/Set.h` line 183, and in the
models. -/
noncomputable def relSpeedR (rd : ℝ → ℝ) (v1 v2 : Vec) : ℝ := rd (Real.sqrt (normSqR rd (vSub rd v1 v2)))

/-- `ReducedMass(m1, m2)`, `/repo/src/chimp/interaction/ReducedMass.h` lines 59-62. -/
noncomputable def reducedMassR (rd : ℝ → ℝ) (m1 m2 : ℝ) : ReducedMass ℝ :=
  ⟨rd (rd (m1 * m2) / rd (m1 + m2)), rd (1 / rd (1 + rd (m1 / m2))), rd (1 / rd (1 + rd (m2 / m1)))⟩

/-- `isoVec`: `/repo/src/chimp/interaction/model/Elastic.h` lines 131-142. -/
noncomputable def isoVecR (ar : Arith) (rng : RNG S ℝ) (speed : ℝ) (s : S) : Option (Vec × S) :=
  let (u, s1) := rng.rand s
  let B := ar.rd (ar.rd (2 * u) - 1)
  match sqrtR ar.rd (ar.rd (1 - ar.rd (B * B))) with
  | none => none
  | some A =>
    let (w, s2) := rng.rand s1
    let C := ar.rd (ar.rd (2 * ar.pi) * w)
    some (⟨ar.rd (B * speed), ar.rd (ar.rd (A * ar.cos C) * speed), ar.rd (ar.rd (A * ar.sin C) * speed)⟩, s2)

/-- `VelCM`, `/repo/src/chimp/interaction/model/Elastic.h` lines 124-125. -/
noncomputable def velCMR (rd : ℝ → ℝ) (mu : ReducedMass ℝ) (v1 v2 : Vec) : Vec :=
  vAdd rd (vScale rd mu.over_m2 v1) (vScale rd mu.over_m1 v2)

/-- `Elastic::interact(part1, part2, rng)`, `/repo/src/chimp/interaction/model/Elastic.h` lines 109-149. -/
noncomputable def elasticCollideR (ar : Arith) (rng : RNG S ℝ) (mu : ReducedMass ℝ) (v1 v2 : Vec) (s : S) :
    Option (Vec × Vec × S) :=
  let cm := velCMR ar.rd mu v1 v2
  match isoVecR ar rng (relSpeedR ar.rd v1 v2) s with
  | none => none
  | some (post, s') =>
    some (vAdd ar.rd cm (vScale ar.rd mu.over_m1 post), vSub ar.rd cm (vScale ar.rd mu.over_m2 post), s')

/-! ### Inelastic models -/

/-- `dV2rel( dE / ( 0.5 * eq.reducedMass.value ) )`, `/repo/src/chimp/interaction/model/InElastic_2X2.h` line 106,
`InElastic_2X3.h` line 114. -/
noncomputable def dV2relR (rd : ℝ → ℝ) (dE mu : ℝ) : ℝ := rd (dE / rd (1 / 2 * mu))

/-- `CalculateVRelImpl`, `/repo/src/chimp/interaction/model/detail/inelastic_helpers.h` lines 65-84. -/
noncomputable def calcVRelR (rd : ℝ → ℝ) (hasEnergyChange : Bool) (v1 v2 : Vec) (dV2 : ℝ) : Option ℝ :=
  if hasEnergyChange then sqrtR rd (rd (normSqR rd (vSub rd v1 v2) + dV2)) else some (relSpeedR rd v1 v2)

/-- `mu_1_scale`, `/repo/src/chimp/interaction/model/InElastic_2X2.h` line 139. -/
noncomputable def scaleR (rd : ℝ → ℝ) (mu mu1 : ℝ) : ℝ := rd (Real.sqrt (rd (mu / mu1)))

/-- The velocities set in `InElastic_2X2::interact`, `/repo/src/chimp/interaction/model/InElastic_2X2.h` lines 174-212;
`mu` is the reduced mass of the reactants, `mu1` that of the products, `scale` the factor `mu_1_scale`. -/
noncomputable def split2R (ar : Arith) (rng : RNG S ℝ) (mu mu1 : ReducedMass ℝ) (scale : ℝ) (hasE : Bool) (dV2 : ℝ)
    (v1 v2 : Vec) (s : S) : Option (Vec × Vec × S) :=
  let cm := velCMR ar.rd mu v1 v2
  match calcVRelR ar.rd hasE v1 v2 dV2 with
  | none => none
  | some speed =>
    match isoVecR ar rng speed s with
    | none => none
    | some (post, s') =>
      some (vAdd ar.rd cm (vScale ar.rd (ar.rd (mu1.over_m1 * scale)) post),
        vSub ar.rd cm (vScale ar.rd (ar.rd (mu1.over_m2 * scale)) post), s')

/-- The velocities set in `InElastic_2X3::interact`, `/repo/src/chimp/interaction/model/InElastic_2X3.h` lines 186-252. -/
noncomputable def split3R (ar : Arith) (rng : RNG S ℝ) (mu mu1 mu2 : ReducedMass ℝ) (scale1 scale2 : ℝ) (hasE : Bool)
    (dV2 : ℝ) (v1 v2 : Vec) (s : S) : Option (Vec × Vec × Vec × S) :=
  let cm := velCMR ar.rd mu v1 v2
  match calcVRelR ar.rd hasE v1 v2 dV2 with
  | none => none
  | some speed =>
    let (r, s1) := rng.rand s
    match sqrtR ar.rd r, sqrtR ar.rd (ar.rd (1 - r)) with
    | some a, some b =>
      match isoVecR ar rng (ar.rd (speed * a)) s1 with
      | none => none
      | some (post, s2) =>
        let w1 := vAdd ar.rd cm (vScale ar.rd (ar.rd (mu1.over_m1 * scale1)) post)
        let cm := vSub ar.rd cm (vScale ar.rd (ar.rd (mu1.over_m2 * scale1)) post)
        match isoVecR ar rng (ar.rd (speed * b)) s2 with
        | none => none
        | some (post, s3) =>
          some (w1, vAdd ar.rd cm (vScale ar.rd (ar.rd (mu2.over_m1 * scale2)) post),
            vSub ar.rd cm (vScale ar.rd (ar.rd (mu2.over_m2 * scale2)) post), s3)
    | _, _ => none

/-! ### Thresholds -/

/-- `threshold_v = std::sqrt( threshold / (0.5 * mu.value) )`,
`/repo/src/chimp/interaction/cross_section/Constant.h` lines 105-114 and `VHS.h` lines 103-112.  Thresholds are not
negative (the code throws). -/
noncomputable def thresholdVR (rd : ℝ → ℝ) (E mu : ℝ) : ℝ := rd (Real.sqrt (rd (E / rd (1 / 2 * mu))))

/-- `Constant::operator()`, `/repo/src/chimp/interaction/cross_section/Constant.h` lines 121-126. -/
noncomputable def constantSigmaR (rd : ℝ → ℝ) (value E mu v : ℝ) : ℝ := if v ≥ thresholdVR rd E mu then value else 0

/-- `DATA::getThresholdEnergy()`, `/repo/src/chimp/interaction/cross_section/DATA.h` lines 145-148; `v0` is the first
speed of the table. -/
noncomputable def dataThresholdR (rd : ℝ → ℝ) (mu v0 : ℝ) : ℝ := rd (rd (1 / 2 * mu) * rd (v0 * v0))

/-- The lever rule, `/repo/src/chimp/interaction/cross_section/DATA.h` lines 341-350. -/
noncomputable def leverR (rd : ℝ → ℝ) (i f : ℝ × ℝ) (v : ℝ) : ℝ :=
  let Linv := rd (1 / rd (f.1 - i.1))
  rd (rd (rd (i.2 * Linv) * rd (f.1 - v)) + rd (rd (f.2 * Linv) * rd (v - i.1)))

/-- `eval`, same file lines 309-352, as in `evalSplit`.  `ext` is the extrapolation, if there is one; how it is computed
is left open. -/
noncomputable def evalSplitR (rd : ℝ → ℝ) (ext : Option (ℝ → ℝ)) (v : ℝ) (below above : XTable) : Except XErr ℝ :=
  match below.getLast?, above with
  | none, [] => .error .ub
  | none, d :: _ => .ok (if d.1 = v then d.2 else 0)
  | some d, [] =>
    if d.2 = 0 then .ok 0
    else match ext with
      | none => .error .outOfRange
      | some f => .ok (f v)
  | some d, d' :: _ => .ok (leverR rd d d' v)

/-- `DATA::operator()`, same file lines 137-140. -/
noncomputable def dataSigmaR (rd : ℝ → ℝ) (ext : Option (ℝ → ℝ)) (t : XTable) (v : ℝ) : Except XErr ℝ :=
  evalSplitR rd ext v (belowOf t v) (aboveOf t v)

end Chimp
