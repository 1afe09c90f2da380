import Verif.Model.OutPath
import Mathlib.Algebra.Order.Floor.Defs
import Mathlib.Data.Rat.Floor
import Mathlib.Logic.Function.Basic

/-!
# Pair selection and the collision driver

Models `interaction::selectRandomPair`, `interaction::Set::interact`, `interaction::Driver` and
`interaction::detail::DriverRetval`.

A cell is a block of memory slots (`mem`, indexed by iterator position) and, per species, a
half-open range of positions.  The erasure queue and the monitor are lists of what was inserted
and reported.  `double` is an ordered field with floor; `unsigned` and `int` are unbounded.  The
random number generator is an arbitrary state machine.  Loops whose termination depends on the
random numbers take a fuel argument; running out of fuel is the separate outcome `timeout`.
-/

namespace Chimp

/-- A random number generator with state `S`: `rand` and `randExc` of the `RNG` option. -/
structure RNG (S K : Type) where
  rand : S → K × S
  randExc : S → K × S

/-- What the driver uses of an `Equation`: the cross section `cs->operator()`, the first component of
`cs->findMaxSigmaV`, and the interaction model.  `act a b s` is the effect of
`interaction->interact(a, b, products, rng)`: the particles `a`, `b` afterwards, the particles
pushed onto the product list, the generator state afterwards
(`/repo/src/chimp/interaction/model/Base.h` lines 84-90). -/
structure Eqn (P S K : Type) where
  sigma : K → K
  maxSigmaV : K → K
  act : P → P → S → P × P × List P × S

/-- Everything the driver only reads: the database, cell constants, accessors, options. -/
structure DriverEnv (P S K : Type) where
  /-- `std::min(cell.getNumberOfSpecies(), db.getProps().size())`, `Driver.h` lines 169-170. -/
  nSpecies : ℕ
  /-- `db(A,B).rhs` -/
  rhs : ℕ → ℕ → List (Eqn P S K)
  /-- `cell.maxRelativeVelocity(A,B)`, read before any collision. -/
  maxRelVel : ℕ → ℕ → K
  volume : K
  dt : K
  weight : P → K
  species : P → ℕ
  /-- `( velocity(pA) - velocity(pB) ).abs()` -/
  relSpeed : P → P → K
  /-- `options::inplace_interactions` -/
  inplace : Bool
  rng : RNG S K

/-- One report to the monitor (`monitor.interactions`, `Driver.h` line 262): species pair, positions and
values of the selected particles before the interaction, the path, and the products created. -/
structure Event (P K : Type) where
  A : ℕ
  B : ℕ
  p : ℕ
  q : ℕ
  a : P
  b : P
  path : OutPath K
  prods : List P

/-- Mutable state of a driver run. -/
structure DState (P S K : Type) where
  mem : ℕ → P
  /-- `cell.getSpecies(A)` as (begin, end). -/
  range : ℕ → ℕ × ℕ
  results : List P
  /-- positions inserted into the erasure queue, oldest first -/
  erased : List ℕ
  log : List (Event P K)
  gen : S

/-- Number of elements of a species range. -/
def rsize (r : ℕ × ℕ) : ℕ := r.2 - r.1

/-- Abnormal outcomes: undefined behaviour, and loops cut off by the fuel. -/
inductive DErr where
  | ub
  | timeout
deriving DecidableEq

variable {P S K : Type} [Field K] [LinearOrder K] [FloorRing K]

/-- `begin + static_cast<int>( sz * u )` for `u ≥ 0`,
`/repo/src/chimp/interaction/selectRandomPair.h` lines 72-73, 77-78, 85. -/
def pickPos (lo sz : ℕ) (u : K) : ℕ := lo + ⌊(sz : K) * u⌋.toNat

/-- The loop choosing the second particle, `/repo/src/chimp/interaction/selectRandomPair.h` lines 80-85:
draw until the position differs from `pA`. -/
def selectB (rng : RNG S K) (lo sz pA : ℕ) : ℕ → S → Option (ℕ × S)
  | 0, _ => none
  | fuel + 1, s =>
    let (u, s') := rng.randExc s
    let pB := pickPos lo sz u
    if pA = pB then selectB rng lo sz pA fuel s' else some (pB, s')

/-- `selectRandomPair`, `/repo/src/chimp/interaction/selectRandomPair.h` lines 54-89. -/
def selectRandomPair (rng : RNG S K) (allowSelf : Bool) (fuel : ℕ) (a b : ℕ × ℕ) (s : S) :
    Option (ℕ × ℕ × S) :=
  let (u, s1) := rng.randExc s
  let pA := pickPos a.1 (rsize a) u
  if allowSelf then
    let (w, s2) := rng.randExc s1
    some (pA, pickPos b.1 (rsize b) w, s2)
  else
    match selectB rng b.1 (rsize b) pA fuel s1 with
    | none => none
    | some (pB, s2) => some (pA, pB, s2)

/-- The second part of `Set::interact`, `/repo/src/chimp/interaction/Set.h` lines 188-197: perform the
chosen path, the particle of the lower species first.  The index `path.first` is in range whenever it is not
negative; the `none` branch of the lookup would be undefined behaviour and is never reached. -/
def performPath (env : DriverEnv P S K) (rhs : List (Eqn P S K)) (path : OutPath K) (a b : P) (s : S) :
    OutPath K × P × P × List P × S :=
  if path.first ≥ 0 then
    match rhs[path.first.toNat]? with
    | none => (path, a, b, [], s)
    | some e =>
      if env.species a > env.species b then
        let (b', a', prods, s') := e.act b a s
        (path, a', b', prods, s')
      else
        let (a', b', prods, s') := e.act a b s
        (path, a', b', prods, s')
  else (path, a, b, [], s)

/-- `Set::interact`, `/repo/src/chimp/interaction/Set.h` lines 168-198, on particle values `a`, `b`:
the path, the two particles afterwards, the products pushed, the generator state.  `randExc` is
only drawn when the test is accepted. -/
def setInteract (env : DriverEnv P S K) (rhs : List (Eqn P S K)) (maxSV : K) (a b : P) (s : S) :
    OutPath K × P × P × List P × S :=
  let v := env.relSpeed a b
  let (u, s1) := env.rng.rand s
  let (w, s2) := env.rng.randExc s1
  let cs := rhs.map (fun e => e.sigma v)
  let path := calculateOutPath cs maxSV v u w
  let s3 := if u * maxSV > csTotal cs * v then s1 else s2
  performPath env rhs path a b s3

/-- `DriverRetval<inplace>::operator()`, `/repo/src/chimp/interaction/detail/DriverRetval.h`
lines 36-51 (`false`) and 56-101 (`true`): if products were created, remove the pair from the
ranges by moving the last elements up, and queue the freed positions.  `created` is
`iq.size() > iq_sz_i`.  When `A = B` the two ranges are the same object. -/
def driverRetval (inplace : Bool) (pathFirst : ℤ) (created : Bool) (A B p q : ℕ)
    (st : DState P S K) : DState P S K :=
  if inplace = false ∨ pathFirst < 0 ∨ created = false then st
  else
    let last := (st.range A).2 - 1
    if q = last then
      let last' := last - 1
      { st with
        mem := Function.update st.mem p (st.mem last')
        range := Function.update st.range B ((st.range B).1, last')
        erased := st.erased ++ [last, last'] }
    else
      let mem1 := Function.update st.mem p (st.mem last)
      let range1 := Function.update st.range A ((st.range A).1, last)
      let last2 := (range1 B).2 - 1
      { st with
        mem := Function.update mem1 q (mem1 last2)
        range := Function.update range1 B ((range1 B).1, last2)
        erased := st.erased ++ [last, last2] }

/-- What one pair test does with the result of `interact`, `/repo/src/chimp/interaction/Driver.h` lines 257-270:
report and remove.  With out-of-place interactions the particle arguments are `const`
references (`/repo/src/chimp/interaction/model/Base.h` lines 53-70), so memory is not written. -/
def applyPair (inplace : Bool) (A B p q : ℕ) (r : OutPath K × P × P × List P × S) (st : DState P S K) :
    DState P S K :=
  let (path, a', b', prods, s') := r
  let mem' := if inplace then Function.update (Function.update st.mem p a') q b' else st.mem
  driverRetval inplace path.first (!prods.isEmpty) A B p q
    { st with
      mem := mem'
      results := st.results ++ prods
      log := st.log ++ [⟨A, B, p, q, st.mem p, st.mem q, path, prods⟩]
      gen := s' }

/-- One pair test on the selected positions, `/repo/src/chimp/interaction/Driver.h` lines 255-270. -/
def pairTest (env : DriverEnv P S K) (A B : ℕ) (maxSV : K) (p q : ℕ) (st : DState P S K) :
    DState P S K :=
  applyPair env.inplace A B p q
    (setInteract env (env.rhs A B) maxSV (st.mem p) (st.mem q) st.gen) st

/-- `(A == B && aRange.size() < 2) || (aRange.size() == 0u || bRange.size() == 0u)`,
`/repo/src/chimp/interaction/Driver.h` lines 245-246. -/
def notEnough (st : DState P S K) (A B : ℕ) : Bool :=
  (A == B && rsize (st.range A) < 2) || (rsize (st.range A) == 0 || rsize (st.range B) == 0)

/-- The `while` loop, `/repo/src/chimp/interaction/Driver.h` lines 242-274.  `fi` bounds the number of
iterations, `fs` the number of draws per selection. -/
def testLoop (env : DriverEnv P S K) (fs : ℕ) (A B : ℕ) (maxSV : K) :
    ℕ → K → DState P S K → Except DErr (DState P S K)
  | 0, nt, st => if nt > 1 then .error .timeout else .ok st
  | fi + 1, nt, st =>
    if nt > 1 then
      if notEnough st A B then .ok st
      else
        match selectRandomPair env.rng false fs (st.range A) (st.range B) st.gen with
        | none => .error .timeout
        | some (p, q, s') =>
          testLoop env fs A B maxSV fi (nt - 1) (pairTest env A B maxSV p q { st with gen := s' })
    else .ok st

/-- All species pairs `A ≤ B < n` in the order of the two nested loops
(`/repo/src/chimp/interaction/Driver.h` lines 176-178 and 229-232). -/
def speciesPairs (n : ℕ) : List (ℕ × ℕ) :=
  (List.range n).flatMap (fun A => (List.range' A (n - A)).map (fun B => (A, B)))

/-- The estimate of the number of pair tests before promotion,
`/repo/src/chimp/interaction/Driver.h` lines 196-209; `wA`, `wB` weights, `na`, `nb` range sizes. -/
def estimateTests (wA wB : K) (na nb : ℕ) (dt maxSV volume : K) (same : Bool) : K :=
  let n := wA * wB * na * nb * dt * maxSV / (volume * min wA wB)
  if same then n * (1/2) else n

/-- Promotion of the fractional part, `/repo/src/chimp/interaction/Driver.h` lines 212-218. -/
def promote (n u : K) : K :=
  if u < n - (⌊n⌋ : K) then n + 1 else n

/-- `CollisionTestData`, `/repo/src/chimp/interaction/Driver.h` lines 109-112. -/
structure TestData (K : Type) where
  numberTests : K
  maxSV : K

/-- Body of the first double loop, `/repo/src/chimp/interaction/Driver.h` lines 176-222.  Reading the
weight of the first particle of an empty range is undefined behaviour (`ub`).  `none` means no
interactions for this pair. -/
def estimatePair (env : DriverEnv P S K) (st : DState P S K) (A B : ℕ) :
    Except DErr (Option (TestData K) × DState P S K) :=
  if (env.rhs A B).length = 0 then .ok (none, st)
  else if rsize (st.range A) = 0 ∨ rsize (st.range B) = 0 then .error .ub
  else
    let m := findMaxSigmaVProduct ((env.rhs A B).map Eqn.maxSigmaV) (env.maxRelVel A B)
    let n := estimateTests (env.weight (st.mem (st.range A).1)) (env.weight (st.mem (st.range B).1))
      (rsize (st.range A)) (rsize (st.range B)) env.dt m env.volume (A == B)
    let (u, s') := env.rng.rand st.gen
    .ok (some ⟨promote n u, m⟩, { st with gen := s' })

/-- The first double loop: test data per pair, in loop order. -/
def estimateAll (env : DriverEnv P S K) :
    List (ℕ × ℕ) → DState P S K →
      Except DErr (List ((ℕ × ℕ) × Option (TestData K)) × DState P S K)
  | [], st => .ok ([], st)
  | (A, B) :: ps, st =>
    match estimatePair env st A B with
    | .error e => .error e
    | .ok (d, st1) =>
      match estimateAll env ps st1 with
      | .error e => .error e
      | .ok (ds, st2) => .ok (((A, B), d) :: ds, st2)

/-- The second double loop, `/repo/src/chimp/interaction/Driver.h` lines 229-276. -/
def collideAll (env : DriverEnv P S K) (fi fs : ℕ) :
    List ((ℕ × ℕ) × Option (TestData K)) → DState P S K → Except DErr (DState P S K)
  | [], st => .ok st
  | ((_, _), none) :: ds, st => collideAll env fi fs ds st
  | ((A, B), some d) :: ds, st =>
    match testLoop env fs A B d.maxSV fi d.numberTests st with
    | .error e => .error e
    | .ok st1 => collideAll env fi fs ds st1

/-- `Driver::operator()`, `/repo/src/chimp/interaction/Driver.h` lines 157-277. -/
def driver (env : DriverEnv P S K) (fi fs : ℕ) (st : DState P S K) :
    Except DErr (DState P S K) :=
  match estimateAll env (speciesPairs env.nSpecies) st with
  | .error e => .error e
  | .ok (ds, st1) => collideAll env fi fs ds st1

end Chimp
