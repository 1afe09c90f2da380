import Verif.Model.Driver
import Verif.Model.Example

/-!
# A simulation around the driver

The driver is called once for each cell and time step.  The program around it belongs to the user; what it has to do
follows from the interface (`/repo/src/chimp/interaction/Driver.h` lines 131-162, `detail/DriverRetval.h` lines
56-101): group the particles of a cell by species, call the driver, erase the positions in the queue, insert the
results, and move the particles.  Here is such a program.  Particles are grouped as in
`/repo/examples/simtest/sortSpecies.h` lines 39-59, the one program in the repository that calls the driver.

Interactions may be in place or not; out of place the queue stays empty and the reactants stay where they are.
-/

namespace Chimp

variable {P S K : Type}

/-- The cell as the driver finds it, for an array of particles (`/repo/examples/simtest/main.cpp` lines 92-102).  The
particle `x` stands for memory outside the array. -/
def loadCell (nsort : List P → List P) (key : P → ℕ) (n : ℕ) (x : P) (l : List P) (g : S) : DState P S K where
  mem z := ((sortBySpecies nsort key n l).1[z]?).getD x
  range := (sortBySpecies nsort key n l).2
  results := []
  erased := []
  log := []
  gen := g

/-- The array after a run: the queued positions are erased and the results inserted at the end. -/
def unloadCell (len : ℕ) (st : DState P S K) : List P :=
  ((List.range len).filter fun z => decide (z ∉ st.erased)).map st.mem ++ st.results

/-- No species that takes part in an interaction is missing from the cell: otherwise the driver reads the first
particle of an empty range (`/repo/src/chimp/interaction/Driver.h` lines 196-197, see C44). -/
def ready (env : DriverEnv P S K) (st : DState P S K) : Bool :=
  (speciesPairs env.nSpecies).all fun x =>
    (env.rhs x.1 x.2).isEmpty || (decide (0 < rsize (st.range x.1)) && decide (0 < rsize (st.range x.2)))

/-- What may change from cell to cell and from step to step. -/
structure CellData (K : Type) where
  maxRelVel : ℕ → ℕ → K
  volume : K
  dt : K

/-- The surroundings of the driver in a cell. -/
def DriverEnv.inCell (env : DriverEnv P S K) (d : CellData K) : DriverEnv P S K :=
  { env with maxRelVel := d.maxRelVel, volume := d.volume, dt := d.dt }

variable [Field K] [LinearOrder K] [FloorRing K]

/-- One cell in one time step; the array afterwards, the tests made and the generator. -/
def runCell (env : DriverEnv P S K) (nsort : List P → List P) (x : P) (fi fs : ℕ) (l : List P) (g : S) :
    Except DErr (List P × List (Event P K) × S) :=
  let st := loadCell nsort env.species env.nSpecies x l g
  if ready env st then
    match driver env fi fs st with
    | .error e => .error e
    | .ok st' => .ok (unloadCell l.length st', st'.log, st'.gen)
  else .ok (l, [], g)

/-- All cells in one time step; the measurements `d` of a cell depend on its number and its particles. -/
def runCells (env : DriverEnv P S K) (d : ℕ → List P → CellData K) (nsort : List P → List P) (x : P) (fi fs : ℕ) :
    ℕ → List (List P) → S → Except DErr (List (List P) × List (Event P K) × S)
  | _, [], g => .ok ([], [], g)
  | k, l :: ls, g =>
    match runCell (env.inCell (d k l)) nsort x fi fs l g with
    | .error e => .error e
    | .ok (l', evs, g1) =>
      match runCells env d nsort x fi fs (k + 1) ls g1 with
      | .error e => .error e
      | .ok (ls', evs', g2) => .ok (l' :: ls', evs ++ evs', g2)

/-- `m` time steps from step `t` on.  In each the particles of all cells collide, then `flight t` moves them and puts
them into their new cells. -/
def simulate (env : DriverEnv P S K) (d : ℕ → ℕ → List P → CellData K) (flight : ℕ → List (List P) → List (List P))
    (nsort : List P → List P) (x : P) (fi fs : ℕ) :
    ℕ → ℕ → List (List P) → S → Except DErr (List (List P) × List (Event P K) × S)
  | _, 0, cells, g => .ok (cells, [], g)
  | t, m + 1, cells, g =>
    match runCells env (d t) nsort x fi fs 0 cells g with
    | .error e => .error e
    | .ok (cells1, evs, g1) =>
      match simulate env d flight nsort x fi fs (t + 1) m (flight t cells1) g1 with
      | .error e => .error e
      | .ok (cells2, evs', g2) => .ok (cells2, evs ++ evs', g2)

end Chimp
