import Verif.Model.Driver
import Verif.Model.Equation
import Verif.Model.Factories
import Mathlib.Analysis.SpecialFunctions.Trigonometric.Basic
import Mathlib.Analysis.SpecialFunctions.Pow.Real

/-!
# Interaction models

Models `model::Elastic`, `model::VSSElastic`, `model::InElastic` with `InElastic_2X2` and
`InElastic_2X3`, and `detail::ParticleFactory::create`.

`double` is `ℝ`.  Results that would not be finite (square root of a negative number, centre of
charge of neutral particles) are the outcome `none`.  The generator is an arbitrary state machine.
A particle consists of what the accessors of the library see, and of a rest (weight and anything
else the user's class stores).  The expressions of `ops` attributes are evaluated by an external
library; they are functions that may replace position, velocity and rest of their target.
-/

namespace Chimp

/-- `xylose::Vector<double,3>` -/
@[ext] structure Vec where
  x : ℝ
  y : ℝ
  z : ℝ

namespace Vec

instance : Add Vec := ⟨fun a b => ⟨a.x + b.x, a.y + b.y, a.z + b.z⟩⟩
instance : Sub Vec := ⟨fun a b => ⟨a.x - b.x, a.y - b.y, a.z - b.z⟩⟩
instance : SMul ℝ Vec := ⟨fun c a => ⟨c * a.x, c * a.y, c * a.z⟩⟩
instance : Zero Vec := ⟨⟨0, 0, 0⟩⟩

/-- scalar product -/
def dot (a b : Vec) : ℝ := a.x * b.x + a.y * b.y + a.z * b.z

/-- `SQR(v)` -/
def normSq (a : Vec) : ℝ := a.x ^ 2 + a.y ^ 2 + a.z ^ 2

/-- `v.abs()` -/
noncomputable def abs (a : Vec) : ℝ := Real.sqrt a.normSq

end Vec

/-- A particle as seen through the accessors of `/repo/src/chimp/accessors.h`. -/
structure Part (W : Type) where
  pos : Vec
  vel : Vec
  species : ℤ
  rest : W

variable {S W : Type}

/-- A vector of given length and random direction: `B`, `A`, `C` and `VelRelPost`,
`/repo/src/chimp/interaction/model/Elastic.h` lines 131-142 (also `InElastic_2X2.h` lines 182-193,
`InElastic_2X3.h` lines 203-214 and 234-246). -/
noncomputable def isoVec (rng : RNG S ℝ) (speed : ℝ) (s : S) : Vec × S :=
  let (u, s1) := rng.rand s
  let B := 2 * u - 1
  let A := Real.sqrt (1 - B ^ 2)
  let (w, s2) := rng.rand s1
  let C := 2 * Real.pi * w
  (⟨B * speed, A * Real.cos C * speed, A * Real.sin C * speed⟩, s2)

/-- `VelCM`, `/repo/src/chimp/interaction/model/Elastic.h` lines 124-125. -/
noncomputable def velCM (mu : ReducedMass ℝ) (v1 v2 : Vec) : Vec := mu.over_m2 • v1 + mu.over_m1 • v2

/-- `Elastic::interact(part1, part2, rng)`, `/repo/src/chimp/interaction/model/Elastic.h` lines 109-149:
the two velocities afterwards. -/
noncomputable def elasticCollide (rng : RNG S ℝ) (mu : ReducedMass ℝ) (v1 v2 : Vec) (s : S) :
    Vec × Vec × S :=
  let cm := velCM mu v1 v2
  let (post, s') := isoVec rng (v1 - v2).abs s
  (cm + mu.over_m1 • post, cm - mu.over_m2 • post, s')

/-- `VelRelPost` of the VSS model, `/repo/src/chimp/interaction/model/VSSElastic.h` lines 136-165, as a
function of the relative velocity, `B`, and the azimuth `C`. -/
noncomputable def vssPost (v : Vec) (B C : ℝ) : Vec :=
  let A := Real.sqrt (1 - B ^ 2)
  let D := Real.sqrt (v.y ^ 2 + v.z ^ 2)
  if D > 1 / 1000000 then
    let A_D := A / D
    ⟨B * v.x + A * Real.sin C * D,
     B * v.y + A_D * (v.abs * v.z * Real.cos C - v.x * v.y * Real.sin C),
     B * v.z - A_D * (v.abs * v.y * Real.cos C + v.x * v.z * Real.sin C)⟩
  else ⟨B * v.x, A * Real.cos C * v.x, A * Real.sin C * v.x⟩

/-- `VSSElastic::interact(part1, part2, rng)`, `/repo/src/chimp/interaction/model/VSSElastic.h`
lines 111-179.  `pow` is `xylose::fast_pow`. -/
noncomputable def vssCollide (pow : ℝ → ℝ → ℝ) (paramInv : ℝ) (rng : RNG S ℝ) (mu : ReducedMass ℝ)
    (v1 v2 : Vec) (s : S) : Vec × Vec × S :=
  let cm := velCM mu v1 v2
  let (u, s1) := rng.rand s
  let B := 2 * pow u paramInv - 1
  let (w, s2) := rng.rand s1
  let post := vssPost (v1 - v2) B (2 * Real.pi * w)
  (cm + mu.over_m1 • post, cm - mu.over_m2 • post, s2)

/-- The two interfaces of `Elastic` and `VSSElastic` around a velocity update: the in-place version
(`/repo/src/chimp/interaction/model/Elastic.h` lines 101-106) changes the particles and pushes
nothing; the other one (lines 87-98) pushes copies and changes those.  The result has the shape of
`Eqn.act`. -/
def actWith (collide : Vec → Vec → S → Vec × Vec × S) (inplace : Bool) (p q : Part W) (s : S) :
    Part W × Part W × List (Part W) × S :=
  let (a, b, s') := collide p.vel q.vel s
  if inplace then ({ p with vel := a }, { q with vel := b }, [], s')
  else (p, q, [{ p with vel := a }, { q with vel := b }], s')

/-- `Elastic` -/
noncomputable def elasticAct (rng : RNG S ℝ) (mu : ReducedMass ℝ) (inplace : Bool) :
    Part W → Part W → S → Part W × Part W × List (Part W) × S :=
  actWith (elasticCollide rng mu) inplace

/-- `VSSElastic` -/
noncomputable def vssAct (pow : ℝ → ℝ → ℝ) (paramInv : ℝ) (rng : RNG S ℝ) (mu : ReducedMass ℝ)
    (inplace : Bool) : Part W → Part W → S → Part W × Part W × List (Part W) × S :=
  actWith (vssCollide pow paramInv rng mu) inplace

/-! ### Inelastic models -/

/-- `CalculateVRelImpl`, `/repo/src/chimp/interaction/model/detail/inelastic_helpers.h` lines 65-84. -/
noncomputable def calcVRel (hasEnergyChange : Bool) (v1 v2 : Vec) (dV2 : ℝ) : Option ℝ :=
  if hasEnergyChange then
    if 0 ≤ (v1 - v2).normSq + dV2 then some (Real.sqrt ((v1 - v2).normSq + dV2)) else none
  else some (v1 - v2).abs

open Classical in
/-- `1./( 1. + a/b )` for charges, which may be zero, with floating point rules: for `b = 0 ≠ a` the
quotient is infinite and the result 0; `none` is an infinite result or not-a-number.
`/repo/src/chimp/interaction/ReducedMass.h` lines 59-62. -/
noncomputable def chargeRatio (a b : ℝ) : Option ℝ :=
  if b = 0 then (if a = 0 then none else some 0)
  else if 1 + a / b = 0 then none else some (1 / (1 + a / b))

/-- The reduced charge `muQ` of an inelastic model: `over_m1`, `over_m2`,
`/repo/src/chimp/interaction/model/InElastic.h` lines 96-97. -/
structure ReducedCharge where
  over_m1 : Option ℝ
  over_m2 : Option ℝ

/-- `ReducedMass(q1, q2)` for charges. -/
noncomputable def ReducedCharge.mk' (q1 q2 : ℝ) : ReducedCharge :=
  ⟨chargeRatio q1 q2, chargeRatio q2 q1⟩

/-- `ParticleFactory::Scratch`, `/repo/src/chimp/interaction/model/detail/inelastic_helpers.h`
lines 97-126; `none` for a position that is not finite. -/
structure Scratch where
  cm : Vec
  cq : Option Vec

/-- Constructor of `Scratch`, same lines. -/
noncomputable def Scratch.make (facs : List PFactory) (p q : Part W) (mu : ReducedMass ℝ)
    (muQ : ReducedCharge) (forceCM forceCQ : Bool) : Scratch :=
  { cm := if forceCM || facs.any (fun f => f.op == .cm) then
        mu.over_m2 • p.pos + mu.over_m1 • q.pos else 0
    cq := if forceCQ || facs.any (fun f => f.op == .cq) then
        (match muQ.over_m2, muQ.over_m1 with
          | some a, some b => some (a • p.pos + b • q.pos)
          | _, _ => none)
      else some 0 }

/-- `ParticleFactory::create`, same file lines 145-161: the particle pushed. -/
def PFactory.create (f : PFactory) (p q : Part W) (sc : Scratch) : Option (Part W) :=
  let r := if f.srcIdx = 0 then p else q
  match f.op with
  | .noop => some { r with species := f.species }
  | .cm => some { r with species := f.species, pos := sc.cm }
  | .cq => sc.cq.map fun c => { r with species := f.species, pos := c }

/-- A compiled `ops` expression: from the target, the two reactants and the scratch space to the new
position, velocity and rest.  The helpers callable from expressions set nothing else
(`/repo/src/chimp/interaction/model/detail/inelastic_helpers.h` lines 238-287). -/
abbrev OpsFn (W : Type) := Part W → Part W → Part W → Scratch → Vec × Vec × W

/-- `Process<useExpressions>`, same file lines 506-545, on one product; `none` is no expression. -/
def applyOps (ops : Option (OpsFn W)) (r p q : Part W) (sc : Scratch) : Part W :=
  match ops with
  | none => r
  | some f =>
    let (x, v, w) := f r p q sc
    { r with pos := x, vel := v, rest := w }

/-- Members shared by the inelastic models, `/repo/src/chimp/interaction/model/InElastic.h` lines 59-84,
and those of `InElastic_2X2` and `InElastic_2X3`. -/
structure InElastic (W : Type) where
  mu : ReducedMass ℝ
  muQ : ReducedCharge
  facs : List PFactory
  ops : List (Option (OpsFn W))
  forceCM : Bool
  forceCQ : Bool
  hasE : Bool
  dV2rel : ℝ
  mu1 : ReducedMass ℝ
  mu1Scale : ℝ
  mu2 : ReducedMass ℝ
  mu2Scale : ℝ

/-- `InElastic_2X2::interact`, `/repo/src/chimp/interaction/model/InElastic_2X2.h` lines 147-217: the
products pushed.  The first `none` is a lookup past the two factories or expressions (excluded by
the constructor); the others are non-finite positions or velocities. -/
noncomputable def InElastic.interact2 (m : InElastic W) (rng : RNG S ℝ) (p q : Part W) (s : S) :
    Option (List (Part W) × S) :=
  match m.facs, m.ops with
  | [f1, f2], [o1, o2] =>
    let sc := Scratch.make m.facs p q m.mu m.muQ m.forceCM m.forceCQ
    match f1.create p q sc, f2.create p q sc, calcVRel m.hasE p.vel q.vel m.dV2rel with
    | some r1, some r2, some speed =>
      let cm := velCM m.mu p.vel q.vel
      let (post, s') := isoVec rng speed s
      let r1 := { r1 with vel := cm + (m.mu1.over_m1 * m.mu1Scale) • post }
      let r2 := { r2 with vel := cm - (m.mu1.over_m2 * m.mu1Scale) • post }
      some ([applyOps o1 r1 p q sc, applyOps o2 r2 p q sc], s')
    | _, _, _ => none
  | _, _ => none

/-- `InElastic_2X3::interact`, `/repo/src/chimp/interaction/model/InElastic_2X3.h` lines 157-258. -/
noncomputable def InElastic.interact3 (m : InElastic W) (rng : RNG S ℝ) (p q : Part W) (s : S) :
    Option (List (Part W) × S) :=
  match m.facs, m.ops with
  | [f1, f2, f3], [o1, o2, o3] =>
    let sc := Scratch.make m.facs p q m.mu m.muQ m.forceCM m.forceCQ
    match f1.create p q sc, f2.create p q sc, f3.create p q sc,
        calcVRel m.hasE p.vel q.vel m.dV2rel with
    | some r1, some r2, some r3, some speed =>
      let cm := velCM m.mu p.vel q.vel
      let (r, s1) := rng.rand s
      let (post, s2) := isoVec rng (speed * Real.sqrt r) s1
      let r1 := { r1 with vel := cm + (m.mu1.over_m1 * m.mu1Scale) • post }
      let cm := cm - (m.mu1.over_m2 * m.mu1Scale) • post
      let (post, s3) := isoVec rng (speed * Real.sqrt (1 - r)) s2
      let r2 := { r2 with vel := cm + (m.mu2.over_m1 * m.mu2Scale) • post }
      let r3 := { r3 with vel := cm - (m.mu2.over_m2 * m.mu2Scale) • post }
      some ([applyOps o1 r1 p q sc, applyOps o2 r2 p q sc, applyOps o3 r3 p q sc], s3)
    | _, _, _, _ => none
  | _, _ => none

/-! ### Loading -/

/-- `db[species].mass::value` and `charge::value` as a tuple,
`/repo/src/chimp/interaction/model/detail/inelastic_helpers.h` lines 427-444; `none` for an index
that is out of range. -/
def tupleOf {K : Type} (db : Registry K) (species src : ℤ) : Option (MC K) :=
  (db[species.toNat]?).map fun p => ⟨p.mass, p.charge, species, src⟩

/-- The tuples of one product term: one per multiplicity, same file lines 423-432. -/
def termTuples {K : Type} (db : Registry K) (t : Term) : Option (List (MC K)) :=
  (List.range t.n.toNat).mapM fun ni => (t.src[ni]?).bind fun f => tupleOf db t.species f

/-- `massChargeOut`, same lines. -/
def productTuples {K : Type} (db : Registry K) : List Term → Option (List (MC K))
  | [] => some []
  | t :: ts =>
    match termTuples db t, productTuples db ts with
    | some a, some b => some (a ++ b)
    | _, _ => none

/-- The ops strings of the products in order, same file lines 453-456. -/
def productOps (ts : List Term) : List String :=
  ts.flatMap fun t => (List.range t.n.toNat).map fun ni => t.ops[ni]?.getD ""

/-- Why loading an inelastic model fails. -/
inductive IErr where
  | factories (e : FactErr)
  /-- an index out of range (excluded for loaded equations) -/
  | ub
deriving DecidableEq

/-- The result of `InElastic::new_load`: a two- or three-product model, or the bare `InElastic` object,
whose `interact` throws. -/
inductive InModel (W : Type) where
  | two (m : InElastic W)
  | three (m : InElastic W)
  | unsupported

/-- The external compiler of `ops` strings and `hasToken`: an empty string gives no expression
(`/repo/src/chimp/interaction/model/detail/inelastic_helpers.h` lines 456-470). -/
structure OpsCompiler (W : Type) where
  compile : String → OpsFn W
  usesCM : List String → Bool
  usesCQ : List String → Bool

/-- `InElastic::new_load`, `/repo/src/chimp/interaction/model/InElastic.h` lines 113-185, with the
constructors of `InElastic` (lines 91-103), `InElastic_2X2` (lines 100-141) and `InElastic_2X3`
(lines 107-151).  `declared` is the `KineticEnergyChange` element, `threshold` the threshold
energy of the cross section.  The runtime checks of the constructors are left out: they compare
sizes that agree by construction, and the choice of template arguments with the data it was made
from. -/
noncomputable def newLoad (db : Registry ℝ) (oc : OpsCompiler W) (e : LEq) (declared : Option ℝ)
    (threshold : ℝ) : Except IErr (InModel W) :=
  let dE := declared.getD (-threshold)
  let n := countComponents e.products
  if n = 2 ∨ n = 3 then
    match tupleOf db e.A.species (-1), tupleOf db e.B.species (-1), productTuples db e.products with
    | some a, some b, some outs =>
      match setParticleFactories [a, b] outs with
      | .error x => .error (.factories x)
      | .ok (_, facs) =>
        let mu := ReducedMass.mk' a.mass b.mass
        let strs := productOps e.products
        let common : InElastic W :=
          { mu := mu
            muQ := ReducedCharge.mk' a.charge b.charge
            facs := facs
            ops := strs.map fun o => if o = "" then none else some (oc.compile o)
            forceCM := oc.usesCM strs
            forceCQ := oc.usesCQ strs
            hasE := decide (dE ≠ 0)
            dV2rel := dE / (1 / 2 * mu.value)
            mu1 := mu, mu1Scale := 0, mu2 := mu, mu2Scale := 0 }
        let mass := fun i => ((getTermForProduct e.products i).bind
          fun t => (db[t.species.toNat]?).map Props.mass)
        if n = 2 then
          match mass 0, mass 1 with
          | some m0, some m1 =>
            let mu1 := ReducedMass.mk' m0 m1
            .ok (.two { common with mu1 := mu1, mu1Scale := Real.sqrt (mu.value / mu1.value) })
          | _, _ => .error .ub
        else
          match mass 0, mass 1, mass 2 with
          | some m0, some m1, some m2 =>
            let mu1 := ReducedMass.mk' m0 (m1 + m2)
            let mu2 := ReducedMass.mk' m1 m2
            .ok (.three { common with
              mu1 := mu1, mu1Scale := Real.sqrt (mu.value / mu1.value)
              mu2 := mu2, mu2Scale := Real.sqrt (mu.value / mu2.value) })
          | _, _, _ => .error .ub
    | _, _, _ => .error .ub
  else .ok .unsupported

end Chimp
