import Verif.Model.Driver
import Verif.Model.Table
import Verif.Model.Kinematics
import Verif.Model.CrossSection

/-!
# A database put together: equations with their cross sections and interaction models, driven as a whole

`Model/Equation.lean` loads the terms of an equation, `Model/CrossSection.lean` and `Model/Kinematics.lean` the
objects that do the work.  Here they are joined as `Equation::load` joins them, and the result is what the driver
of `Model/Driver.lean` runs on.
-/

namespace Chimp

variable {S W : Type}

/-- What is written in a `cross_section` element, one constructor for each registered model
(`/repo/src/chimp/RuntimeDB.cpp` lines 66-77).  Numbers are parsed and converted already. -/
inductive CSDoc where
  | constant (value : ℝ) (thr : Option ThrDoc)
  | vhs (p : VHSParam) (thr : Option ThrDoc)
  | inverse (valueVref : ℝ) (thr : Option ThrDoc)
  | log (A B : ℝ) (thr : Option ThrDoc)
  | data (rows : List RowDoc)
  | lotz (shells : List LotzPar)

/-- The labels of the models, `/repo/src/chimp/interaction/cross_section/Constant.h` line 173, `VHS.h` line 186,
`Inverse.h` line 171, `Log.h` line 172, `DATA.h` line 356, `Lotz.h` line 253. -/
def CSDoc.label : CSDoc → String
  | .constant .. => "constant"
  | .vhs .. => "vhs"
  | .inverse .. => "inverse"
  | .log .. => "log"
  | .data .. => "data"
  | .lotz .. => "lotz"

/-- `new_load` of the cross section models (`Constant.h` lines 154-158, `VHS.h` lines 163-167, `Inverse.h`
lines 149-153, `Log.h` lines 150-154, `DATA.h` lines 196-200, `Lotz.h` lines 231-235). -/
noncomputable def CSDoc.load (solve : RootFinder) (extrapolate : Bool) (mu : ℝ) : CSDoc → Except XErr XSec
  | .constant value thr => mkConstant value mu (loadThreshold mu thr)
  | .vhs p thr => mkVHS p mu (loadThreshold mu thr)
  | .inverse k thr => mkInverse k mu (loadThreshold mu thr)
  | .log A B thr => mkLog A B mu (loadThreshold mu thr)
  | .data rows => mkData extrapolate mu (loadTable mu rows)
  | .lotz shells => mkLotz solve shells mu

/-- The interaction models of the library, `/repo/src/chimp/RuntimeDB.cpp` lines 80-87. -/
inductive IModel (W : Type) where
  | elastic
  | vss (paramInv : ℝ)
  | inelastic (m : InModel W)

/-- An `Equation` with the members that `Model/Equation.lean` leaves out,
`/repo/src/chimp/interaction/Equation.h` lines 100-113. -/
structure WEq (W : Type) where
  eq : LEq
  mu : ReducedMass ℝ
  cs : XSec
  model : IModel W
  /-- The `KineticEnergyChange` element, kept to be able to speak about it. -/
  declared : Option ℝ

/-- Why the second half of `Equation::load` fails. -/
inductive WErr where
  | crossSection (e : XErr)
  | inelastic (e : IErr)
  /-- an index out of range (excluded for loaded equations) -/
  | ub
  /-- a model registered by the user -/
  | notModelled
deriving DecidableEq

/-- What is written in an `Interaction` element besides the equation. -/
structure InterDoc where
  cs : CSDoc
  /-- `KineticEnergyChange`, `/repo/src/chimp/interaction/model/detail/inelastic_helpers.cpp` -/
  declared : Option ℝ := none
  /-- `vss_param_inv`, `/repo/src/chimp/interaction/model/detail/vss_helpers.cpp` lines 40-44 -/
  vssParamInv : ℝ := 1

/-- The tools that are outside the library: the root finder, the compiler of expressions, and whether extrapolation
of tables is switched on. -/
structure Tools (W : Type) where
  solve : RootFinder
  extrapolate : Bool
  oc : OpsCompiler W
  /-- `xylose::fast_pow` -/
  pow : ℝ → ℝ → ℝ

/-- `new_load` of the interaction model named in the equation, `/repo/src/chimp/interaction/Equation.cpp`
lines 150-162 with `Elastic.h` lines 152-156, `VSSElastic.h` lines 183-187 and `InElastic.h` lines 113-185
(all in `/repo/src/chimp/interaction/model`). -/
noncomputable def loadModel (T : Tools W) (db : Registry ℝ) (e : LEq) (d : InterDoc) (cs : XSec) :
    Except WErr (IModel W) :=
  if e.model = "elastic" then .ok .elastic
  else if e.model = "vss_elastic" then .ok (.vss d.vssParamInv)
  else if e.model = "inelastic" then
    match newLoad db T.oc e d.declared cs.thrE with
    | .error x => .error (.inelastic x)
    | .ok m => .ok (.inelastic m)
  else .error .notModelled

/-- The rest of `Equation::load` after the terms: reduced mass, cross section, model,
`/repo/src/chimp/interaction/Equation.cpp` lines 95, 113-133 and 136-162. -/
noncomputable def completeEq (T : Tools W) (db : Registry ℝ) (e : LEq) (d : InterDoc) : Except WErr (WEq W) :=
  match db[e.A.species.toNat]?, db[e.B.species.toNat]? with
  | some a, some b =>
    let mu := ReducedMass.mk' a.mass b.mass
    if d.cs.label = e.csModel then
      match d.cs.load T.solve T.extrapolate mu.value with
      | .error x => .error (.crossSection x)
      | .ok cs =>
        match loadModel T db e d cs with
        | .error x => .error x
        | .ok m => .ok ⟨e, mu, cs, m, d.declared⟩
    else .error .notModelled
  | _, _ => .error .ub

/-- `interaction->interact(...)`: the reactants afterwards, the products, the generator.  `none` is an exception
(`InElastic::interact`, `/repo/src/chimp/interaction/model/Base.h` lines 84-90) or a value that is not finite. -/
noncomputable def WEq.act (T : Tools W) (rng : RNG S ℝ) (inplace : Bool) (w : WEq W) (p q : Part W) (s : S) :
    Option (Part W × Part W × List (Part W) × S) :=
  match w.model with
  | .elastic => some (elasticAct rng w.mu inplace p q s)
  | .vss k => some (vssAct T.pow k rng w.mu inplace p q s)
  | .inelastic (.two m) => (m.interact2 rng p q s).map fun r => (p, q, r.1, r.2)
  | .inelastic (.three m) => (m.interact3 rng p q s).map fun r => (p, q, r.1, r.2)
  | .inelastic .unsupported => none

/-- The equation as the driver uses it.  Where a cross section or an interaction has no value the choice made here
is arbitrary; theorems about runs say that this does not happen, or ask for it. -/
noncomputable def WEq.toEqn (T : Tools W) (rng : RNG S ℝ) (inplace : Bool) (w : WEq W) : Eqn (Part W) S ℝ where
  sigma v := match w.cs.sigma v with
    | .ok c => c
    | .error _ => 0
  maxSigmaV v := match w.cs.maxSV v with
    | .ok r => r.1
    | .error _ => 0
  act p q s := (w.act T rng inplace p q s).getD (p, q, [], s)

/-- What the driver is given besides the database: the constants of the cell and the particle accessors. -/
structure CellConst (S W : Type) where
  maxRelVel : ℕ → ℕ → ℝ
  volume : ℝ
  dt : ℝ
  weight : Part W → ℝ
  inplace : Bool
  rng : RNG S ℝ

/-- The driver's surroundings for a database of `n` species with the equations `eqs A B`.  Species are compared as
indices (`/repo/src/chimp/interaction/Set.h` lines 182-195). -/
noncomputable def wholeEnv (T : Tools W) (n : ℕ) (eqs : ℕ → ℕ → List (WEq W)) (c : CellConst S W) :
    DriverEnv (Part W) S ℝ where
  nSpecies := n
  rhs A B := (eqs A B).map (WEq.toEqn T c.rng c.inplace)
  maxRelVel := c.maxRelVel
  volume := c.volume
  dt := c.dt
  weight := c.weight
  species p := p.species.toNat
  relSpeed p q := (p.vel - q.vel).abs
  inplace := c.inplace
  rng := c.rng

end Chimp
