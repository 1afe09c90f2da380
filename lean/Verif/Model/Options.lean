import Verif.Model.Session

/-!
# Options of the database

`/repo/src/chimp/make_options.h`, and where the options are used: `RuntimeDB.cpp` line 187, `cross_section/DATA.h` lines
267-277 and `interaction/Driver.h` line 266.

Simplified: the types given as options (particle, properties, random numbers) are elements of an arbitrary type `τ`.
-/

namespace Chimp

variable {τ W : Type}

/-- The members of `make_options<...>::type`, `/repo/src/chimp/make_options.h` lines 120-146. -/
structure Options (τ : Type) where
  particle : τ
  properties : τ
  inplace : Bool
  auto : Bool
  rng : τ
  extrapolation : Bool

/-- `make_options`, `/repo/src/chimp/make_options.h` lines 110-146: the order of the parameters. -/
def makeOptions (particle properties : τ) (inplace auto : Bool) (rng : τ) (extrapolation : Bool) : Options τ :=
  { particle := particle, properties := properties, inplace := inplace, auto := auto, rng := rng,
    extrapolation := extrapolation }

/-- The default arguments, `/repo/src/chimp/make_options.h` lines 111-116; the arguments here are the default types. -/
def defaultOptions (testParticle defaultSet kiss : τ) : Options τ :=
  makeOptions testParticle defaultSet true false kiss true

/-- The members that are metafunctions, `/repo/src/chimp/make_options.h` lines 148-224. -/
inductive Setting (τ : Type) where
  | particle (t : τ)
  | properties (t : τ)
  | inplace (b : Bool)
  | auto (b : Bool)
  | rng (t : τ)
  | extrapolation (b : Bool)

/-- Their results, `/repo/src/chimp/make_options.h` lines 148-224. -/
def Options.set (o : Options τ) : Setting τ → Options τ
  | .particle t => makeOptions t o.properties o.inplace o.auto o.rng o.extrapolation
  | .properties t => makeOptions o.particle t o.inplace o.auto o.rng o.extrapolation
  | .inplace b => makeOptions o.particle o.properties b o.auto o.rng o.extrapolation
  | .auto b => makeOptions o.particle o.properties o.inplace b o.rng o.extrapolation
  | .rng t => makeOptions o.particle o.properties o.inplace o.auto t o.extrapolation
  | .extrapolation b => makeOptions o.particle o.properties o.inplace o.auto o.rng b

/-- A chain of settings, `::setX<...>::type::setY<...>::type`. -/
def Options.chain (o : Options τ) (l : List (Setting τ)) : Options τ := l.foldl Options.set o

/-- Whether coefficients for extrapolation are computed, `/repo/src/chimp/interaction/cross_section/DATA.h` lines
271-277; `env` is the value of the environment variable, if it is set. -/
def Options.extrapolates (o : Options τ) (env : Option String) : Bool :=
  match env with
  | some s => !(s == "no")
  | none => o.extrapolation

/-- The tools of the database with the options. -/
def Options.tools (o : Options τ) (env : Option String) (T : Tools W) : Tools W :=
  { T with extrapolate := o.extrapolates env }

/-- A call on a database with the options. -/
noncomputable def Options.run (o : Options τ) (env : Option String) (T : Tools W) (c : Call) (s : Session W) :
    Session W × Except SErr ℕ :=
  c.run (o.tools env T) o.auto s

end Chimp
