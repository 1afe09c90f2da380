import Verif.Model.Session
import Verif.Model.SimTest

/-!
# The example program

`/repo/examples/simtest/main.cpp` as a whole: a database is set up, particles are drawn at random and sorted by species,
and the driver is run once.
-/

namespace Chimp

variable {P S W : Type}

/-- The random numbers drawn by `createRandomParticles`: a species, a coordinate, and a component of the velocity for a
species, `/repo/examples/simtest/Particle.h` lines 111-131.  (`xylose::distribution::Inverter`, see `Draws.InRange`.) -/
structure Draws (S : Type) where
  species : S → ℝ × S
  position : S → ℝ × S
  velocity : ℕ → S → ℝ × S

/-- `static_cast<int>`. -/
noncomputable def castInt (x : ℝ) : ℤ := if 0 ≤ x then ⌊x⌋ else ⌈x⌉

/-- `V3( d(), d(), d() )`; the order in which the arguments are evaluated is taken to be from left to right. -/
def drawVec (d : S → ℝ × S) (s : S) : Vec × S :=
  let a := d s
  let b := d a.2
  let c := d b.2
  (⟨a.1, b.1, c.1⟩, c.2)

/-- One iteration of the loop of `createRandomParticles`, `/repo/examples/simtest/Particle.h` lines 135-153; `none` is
the access `velocity[ S ]` outside the vector of the `n` species.  The particle has no members but the three, `w` stands
for them. -/
noncomputable def drawParticle (d : Draws S) (n : ℕ) (w : W) (s : S) : Option (Part W × S) :=
  let k := d.species s
  let C := castInt k.1
  if 0 ≤ C ∧ C < n then
    let x := drawVec d.position k.2
    let v := drawVec (d.velocity C.toNat) x.2
    some (⟨x.1, v.1, C, w⟩, v.2)
  else none

/-- `createRandomParticles`, same file lines 100-154. -/
noncomputable def createRandomParticles (d : Draws S) (n : ℕ) (w : W) : ℕ → S → Option (List (Part W))
  | 0, _ => some []
  | m + 1, s =>
    match drawParticle d n w s with
    | none => none
    | some (p, s') => (createRandomParticles d n w m s').map (p :: ·)

/-- `sortBySpecies`, `/repo/examples/simtest/sortSpecies.h` lines 39-59: the particles are sorted and the range of each
species set.  (`xylose::nsort::NSort`, see `NSorts`; its `begin(i)` and `end(i)` are counts.) -/
def sortBySpecies (nsort : List P → List P) (key : P → ℕ) (n : ℕ) (l : List P) : List P × (ℕ → ℕ × ℕ) :=
  (nsort l, fun i => if i < n then (l.countP fun p => key p < i, l.countP fun p => key p ≤ i) else (0, 0))

/-- The velocities of the particles of a range, `/repo/examples/simtest/cellMeasurements.h` lines 47-58. -/
def rangeVels (l : List (Part W)) (r : ℕ × ℕ) : List Vec := ((l.drop r.1).take (r.2 - r.1)).map Part.vel

/-- The cell as the driver finds it, `/repo/examples/simtest/main.cpp` lines 92-102.  Positions are offsets into the
vector of particles; there is nothing outside it. -/
def exampleCell (l : List (Part W) × (ℕ → ℕ × ℕ)) (w : W) (g : S) : DState (Part W) S ℝ where
  mem i := (l.1[i]?).getD ⟨0, 0, 0, w⟩
  range := l.2
  results := []
  erased := []
  log := []
  gen := g

/-- What the driver is given, same file lines 51-53, 93, 97 and 104-110 and `Particle.h` lines 66-76. -/
noncomputable def exampleConst (l : List (Part W) × (ℕ → ℕ × ℕ)) (rng : RNG S ℝ) : CellConst S W where
  maxRelVel A B := maxRelativeVelocity (rangeVels l.1 (l.2 A)) (rangeVels l.1 (l.2 B))
  volume := 1
  dt := 1 / 1000
  weight _ := 1
  inplace := false
  rng := rng

/-- Calls whose exceptions are not caught. -/
noncomputable def callsUncaught (T : Tools W) (auto : Bool) : List Call → Session W → Except SErr (Session W)
  | [], s => .ok s
  | c :: cs, s =>
    match (c.run T auto s).2 with
    | .error e => .error e
    | .ok _ => callsUncaught T auto cs (c.run T auto s).1

/-- The species of the example. -/
def exampleNames : List String := ["87Rb", "Ar", "e^-", "Hg", "Hg^+"]

/-- The calls that set up the database, `/repo/examples/simtest/main.cpp` lines 70-85. -/
def exampleCalls : List Call :=
  exampleNames.map (fun n => .addNames [n]) ++ [.filter (.or .elastic (.label "inelastic")), .init]

/-- How the program can end otherwise than by returning: an exception, a vector accessed outside, or what can happen in
the driver. -/
inductive MainErr where
  | exception (e : SErr)
  | badSpecies
  | driver (e : DErr)

/-- `main`, same file lines 61-117, for `N` particles (100 there).  Setting up the database is `calls`. -/
noncomputable def exampleMain (T : Tools W) (auto : Bool) (doc : SDoc) (d : Draws S) (nsort : List (Part W) → List (Part W))
    (rng : RNG S ℝ) (N : ℕ) (w : W) (sd g : S) (fi fs : ℕ) : Except MainErr (Session W × DState (Part W) S ℝ) :=
  match callsUncaught T auto exampleCalls (Session.new doc) with
  | .error e => .error (.exception e)
  | .ok s =>
    match createRandomParticles d s.props.length w N sd with
    | none => .error .badSpecies
    | some l =>
      let sorted := sortBySpecies nsort (fun p => p.species.toNat) s.props.length l
      match driver (wholeEnv T s.props.length s.eqs (exampleConst sorted rng)) fi fs (exampleCell sorted w g) with
      | .error e => .error (.driver e)
      | .ok st => .ok (s, st)

end Chimp
