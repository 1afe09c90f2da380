import Verif.Model.Driver

/-!
# The driver with its template parameters

`interaction::Driver< Monitor, MaxSigmaVProduct >` (`/repo/src/chimp/interaction/Driver.h`) takes two classes of
the user's own: one that is told what happens, and one that provides the largest product of cross section and
relative speed.  `Model/Driver` has the defaults (`NullMonitor`, `DefaultMaxSigmaVProduct`) and keeps a log of its
own; here the two classes are arbitrary and there is no log (the field `log` of the state is left alone).

Simplified: a monitor only reads.  The code hands it the iterators of the pair and the result list itself, so a
monitor could also write through them.  `MaxSigmaVProduct::update` does not occur, because the driver never calls it.
-/

namespace Chimp

/-- What the arguments of `monitor.interactions( db, pair, path, result_list )` show
(`/repo/src/chimp/interaction/Driver.h` line 262): the two positions, the particles found there (after the
interaction, before the pair is removed from its ranges), the path, and the whole result list. -/
structure Report (P K : Type) where
  p : ℕ
  q : ℕ
  a : P
  b : P
  path : ℤ × K
  results : List P

/-- The class `Monitor`, with state `M` (`/repo/src/chimp/interaction/Driver.h` lines 83-94). -/
structure Monitor (P K M : Type) where
  interactions : Report P K → M → M
  pairtests : K → M → M

/-- `MaxSigmaVProduct::get( eqset, cell, A, B )` (`/repo/src/chimp/interaction/Driver.h` lines 55-80): any function of
the equations of the pair, of the particles and ranges of the cell, and of the two species. -/
abbrev MaxSVPolicy (P S K : Type) : Type := List (Eqn P S K) → (ℕ → P) → (ℕ → ℕ × ℕ) → ℕ → ℕ → K

variable {P S K M : Type} [Field K] [LinearOrder K] [FloorRing K]

/-- `DefaultMaxSigmaVProduct::get`, `/repo/src/chimp/interaction/Driver.h` lines 60-67. -/
def defaultMaxSV (env : DriverEnv P S K) : MaxSVPolicy P S K :=
  fun rhs _ _ A B => findMaxSigmaVProduct (rhs.map Eqn.maxSigmaV) (env.maxRelVel A B)

/-- Body of the first double loop, `/repo/src/chimp/interaction/Driver.h` lines 176-222, with the call of
`monitor.pairtests` in line 220. -/
def estimatePairM (mon : Monitor P K M) (get : MaxSVPolicy P S K) (env : DriverEnv P S K) (A B : ℕ)
    (x : DState P S K × M) : Except DErr (Option (TestData K) × DState P S K × M) :=
  let (st, mn) := x
  if (env.rhs A B).length = 0 then .ok (none, st, mn)
  else if rsize (st.range A) = 0 ∨ rsize (st.range B) = 0 then .error .ub
  else
    let m := get (env.rhs A B) st.mem st.range A B
    let n := estimateTests (env.weight (st.mem (st.range A).1)) (env.weight (st.mem (st.range B).1))
      (rsize (st.range A)) (rsize (st.range B)) env.dt m env.volume (A == B)
    let (u, s') := env.rng.rand st.gen
    .ok (some ⟨promote n u, m⟩, { st with gen := s' }, mon.pairtests (promote n u) mn)

/-- The first double loop, `/repo/src/chimp/interaction/Driver.h` lines 176-222. -/
def estimateAllM (mon : Monitor P K M) (get : MaxSVPolicy P S K) (env : DriverEnv P S K) :
    List (ℕ × ℕ) → DState P S K × M →
      Except DErr (List ((ℕ × ℕ) × Option (TestData K)) × DState P S K × M)
  | [], x => .ok ([], x)
  | (A, B) :: ps, x =>
    match estimatePairM mon get env A B x with
    | .error e => .error e
    | .ok (d, x1) =>
      match estimateAllM mon get env ps x1 with
      | .error e => .error e
      | .ok (ds, x2) => .ok (((A, B), d) :: ds, x2)

/-- One pair test on the selected positions, `/repo/src/chimp/interaction/Driver.h` lines 255-270, with the call of
`monitor.interactions` in line 262. -/
def pairTestM (mon : Monitor P K M) (env : DriverEnv P S K) (A B : ℕ) (maxSV : K) (p q : ℕ)
    (x : DState P S K × M) : DState P S K × M :=
  let (st, mn) := x
  let (path, a', b', prods, s') := setInteract env (env.rhs A B) maxSV (st.mem p) (st.mem q) st.gen
  let st1 : DState P S K :=
    { st with
      mem := if env.inplace then Function.update (Function.update st.mem p a') q b' else st.mem
      results := st.results ++ prods
      gen := s' }
  (driverRetval env.inplace path.first (!prods.isEmpty) A B p q st1,
    mon.interactions ⟨p, q, st1.mem p, st1.mem q, (path.first, path.second), st1.results⟩ mn)

/-- The `while` loop, `/repo/src/chimp/interaction/Driver.h` lines 242-274. -/
def testLoopM (mon : Monitor P K M) (env : DriverEnv P S K) (fs : ℕ) (A B : ℕ) (maxSV : K) :
    ℕ → K → DState P S K × M → Except DErr (DState P S K × M)
  | 0, nt, x => if nt > 1 then .error .timeout else .ok x
  | fi + 1, nt, x =>
    if nt > 1 then
      if notEnough x.1 A B then .ok x
      else
        match selectRandomPair env.rng false fs (x.1.range A) (x.1.range B) x.1.gen with
        | none => .error .timeout
        | some (p, q, s') =>
          testLoopM mon env fs A B maxSV fi (nt - 1)
            (pairTestM mon env A B maxSV p q ({ x.1 with gen := s' }, x.2))
    else .ok x

/-- The second double loop, `/repo/src/chimp/interaction/Driver.h` lines 229-276. -/
def collideAllM (mon : Monitor P K M) (env : DriverEnv P S K) (fi fs : ℕ) :
    List ((ℕ × ℕ) × Option (TestData K)) → DState P S K × M → Except DErr (DState P S K × M)
  | [], x => .ok x
  | ((_, _), none) :: ds, x => collideAllM mon env fi fs ds x
  | ((A, B), some d) :: ds, x =>
    match testLoopM mon env fs A B d.maxSV fi d.numberTests x with
    | .error e => .error e
    | .ok x1 => collideAllM mon env fi fs ds x1

/-- `Driver< Monitor, MaxSigmaVProduct >::operator()`, `/repo/src/chimp/interaction/Driver.h` lines 157-277. -/
def driverM (mon : Monitor P K M) (get : MaxSVPolicy P S K) (env : DriverEnv P S K) (fi fs : ℕ)
    (x : DState P S K × M) : Except DErr (DState P S K × M) :=
  match estimateAllM mon get env (speciesPairs env.nSpecies) x with
  | .error e => .error e
  | .ok (ds, x1) => collideAllM mon env fi fs ds x1

end Chimp
