import Verif.Model.Table

/-!
# Creating missing elastic cross sections

Models both overloads of `RuntimeDB::createMissingElasticCrossSections`
(`/repo/src/chimp/RuntimeDB.cpp` lines 362-488), with `hasElastic` and `getElastic`.

Simplifications: of the new equation's cross section only the kind is kept.  The constructor of the
averaged table may throw; whether it does for a given pair of equations is an arbitrary function
`avgOk`.  The reduced mass and the log messages are not modelled.  Velocities are exact.
-/

namespace Chimp

/-- Ways in which the call can end other than by returning. -/
inductive CMErr where
  /-- the exception for equations that are not of the form `A + A` -/
  | nonBinary
  /-- an exception from the constructor of the averaged cross section -/
  | averaging
  /-- access outside the table or the species list -/
  | ub
deriving DecidableEq

/-- `hasElastic`, `/repo/src/chimp/interaction/Equation.cpp` lines 232-242 and
`/repo/src/chimp/interaction/Set.h` lines 225-227. -/
def hasElastic (s : ISet) : Bool := s.rhs.any LEq.isElastic

/-- `getElastic`, `/repo/src/chimp/interaction/Equation.cpp` lines 246-257; `none` is the end iterator. -/
def getElastic (s : ISet) : Option LEq := s.rhs.find? LEq.isElastic

/-- `AvgEasy::easy_labels`, `/repo/src/chimp/interaction/cross_section/detail/AvgEasy.h` lines 140-147. -/
def easyLabels : List String := ["vhs", "log", "constant", "inverse"]

variable {K : Type}

/-- The velocity range and resolution after defaults, `/repo/src/chimp/RuntimeDB.cpp` lines 382-392. -/
def effectiveRange [Field K] [LinearOrder K] (dvmax ddv vmax dv : K) : K × K :=
  let vmax := if vmax ≤ 0 then dvmax else vmax
  if 0 < vmax then
    let dv := if dv ≤ 0 then ddv else dv
    let dv := if dv ≤ 0 then vmax / 100 else dv
    (vmax, dv)
  else (vmax, dv)

/-- The two reactants of the new equation, `/repo/src/chimp/RuntimeDB.cpp` lines 425-433. -/
def orderByMass [LinearOrder K] (db : Registry K) (a b : Term) : Option (Term × Term) :=
  if a.species < 0 ∨ b.species < 0 then none
  else
    match db[a.species.toNat]?, db[b.species.toNat]? with
    | some p, some q => if p.mass ≤ q.mass then some (a, b) else some (b, a)
    | _, _ => none

/-- The body of the loops for a pair of indices, `/repo/src/chimp/RuntimeDB.cpp` lines 399-474: the new
table and whether an equation was added. -/
def cmStep [LinearOrder K] (db : Registry K) (avgOk : LEq → LEq → Bool) (ranged : Bool) (t : UTable ISet)
    (a b : ℕ) : Except CMErr (UTable ISet × Bool) :=
  match t.get? a a, t.get? b b, t.get? a b with
  | some sii, some sjj, some sij =>
    if !hasElastic sij && hasElastic sii && hasElastic sjj then
      match getElastic sii, getElastic sjj with
      | some eii, some ejj =>
        if !(eii.A.eqv eii.B) || !(ejj.A.eqv ejj.B) || eii.A.n ≠ 1 || ejj.A.n ≠ 1 then .error .nonBinary
        else
          match orderByMass db eii.A ejj.A with
          | none => .error .ub
          | some (A, B) =>
            if eii.csModel ∈ easyLabels ∧ ejj.csModel ∈ easyLabels then
              .ok (t.modify a b (fun s =>
                { s with rhs := s.rhs ++ [⟨A, B, [A, B], "averaged_diameters_easy", "elastic"⟩] }), true)
            else if ranged then
              if avgOk eii ejj then
                .ok (t.modify a b (fun s =>
                  { s with rhs := s.rhs ++ [⟨A, B, [A, B], "averaged_diameters", "elastic"⟩] }), true)
              else .error .averaging
            else .ok (t, false)
      | _, _ => .error .ub
    else .ok (t, false)
  | _, _, _ => .error .ub

/-- The indices a loop visits: it starts at `max(i,0)` and is left after one round if `i ≥ 0`,
`/repo/src/chimp/RuntimeDB.cpp` lines 397-398, 477-483. -/
def cmRange (n : ℕ) (i : ℤ) : List ℕ :=
  let l := (List.range n).drop (max i 0).toNat
  if i ≥ 0 then l.take 1 else l

/-- The two loops, `/repo/src/chimp/RuntimeDB.cpp` lines 395-487: the table and the outcome.  After an
exception the equations added before it stay. -/
def cmLoop [LinearOrder K] (db : Registry K) (avgOk : LEq → LEq → Bool) (ranged : Bool) :
    List (ℕ × ℕ) → UTable ISet → ℕ → UTable ISet × Except CMErr ℕ
  | [], t, n => (t, .ok n)
  | (a, b) :: l, t, n =>
    match cmStep db avgOk ranged t a b with
    | .error e => (t, .error e)
    | .ok (t', added) => cmLoop db avgOk ranged l t' (if added then n + 1 else n)

/-- The index pairs in the order visited. -/
def cmPairs (n : ℕ) (i j : ℤ) : List (ℕ × ℕ) :=
  (cmRange n i).flatMap (fun a => (cmRange n j).map (fun b => (a, b)))

/-- Parameters of a database the call depends on: `default_ElasticCreator_vmax` and `_dv`,
`/repo/src/chimp/RuntimeDB.h` lines 197-208 (zero after construction). -/
structure CMDefaults (K : Type) where
  vmax : K
  dv : K

/-- `createMissingElasticCrossSections(int, int, double, double)`,
`/repo/src/chimp/RuntimeDB.cpp` lines 374-488. -/
def createMissing [Field K] [LinearOrder K] (avgOk : K → K → LEq → LEq → Bool) (dflt : CMDefaults K) (d : RDB K)
    (i j : ℤ) (vmax dv : K) : RDB K × Except CMErr ℕ :=
  let r := effectiveRange dflt.vmax dflt.dv vmax dv
  let res := cmLoop d.props (avgOk r.1 r.2) (decide (0 < r.1) && decide (0 < r.2)) (cmPairs d.props.length i j)
    d.table 0
  (⟨d.props, res.1⟩, res.2)

/-- `createMissingElasticCrossSections(string, string, double, double)`,
`/repo/src/chimp/RuntimeDB.cpp` lines 362-371. -/
def createMissingByName [Field K] [LinearOrder K] (avgOk : K → K → LEq → LEq → Bool) (dflt : CMDefaults K)
    (d : RDB K) (i j : String) (vmax dv : K) : RDB K × Except CMErr ℕ :=
  createMissing avgOk dflt d (findParticleIndx d.props i) (findParticleIndx d.props j) vmax dv

end Chimp
