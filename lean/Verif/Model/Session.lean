import Verif.Model.Whole
import Verif.Model.CreateMissing

/-!
# A `RuntimeDB` in use: every public call that changes it, in any order

The functions of `Model/Registry.lean`, `Model/Table.lean`, `Model/CreateMissing.lean` and `Model/Whole.lean` are
joined into one state with one function for each public call of `RuntimeDB` (`/repo/src/chimp/RuntimeDB.h`,
`/repo/src/chimp/RuntimeDB.cpp`).  Equations carry their reduced masses, cross sections and models, created equations
carry the averaged cross sections, and what an exception leaves behind is part of the result.

Writing through the references returned by the non-constant access operators is in `Model/Write.lean`, registering models
of one's own in the two registries in `Model/Models.lean`.  `Equation::load` reads the terms first and the rest afterwards; which of several
faults of one `Interaction` element is reported is not claimed.
-/

namespace Chimp

variable {W : Type}

/-- A `model` element: the texts of `particles/P`, stripped, and the `equation-filter` elements, as read in
`/repo/src/chimp/RuntimeDB.cpp` lines 273-283. -/
structure ModelDoc where
  name : String
  particles : List String
  filters : List FNode

/-- The parts of an XML document that the database reads: the `Interaction` elements, what is written in each besides
the equation, the `Particle` elements and the `model` elements. -/
structure SDoc where
  doc : Doc
  inter : ℕ → InterDoc
  particles : List (Props ℝ) := []
  models : List ModelDoc := []

/-- `interaction::Set`, `/repo/src/chimp/interaction/Set.h` lines 60-72, with complete equations. -/
structure WSet (W : Type) where
  lhs : Term × Term := (Term.single 0, Term.single 0)
  rhs : List (WEq W) := []

/-- The members of a `RuntimeDB`, `/repo/src/chimp/RuntimeDB.h` lines 178-218 (the registries never change). -/
structure Session (W : Type) where
  doc : SDoc
  filter : Filter
  dflt : CMDefaults ℝ
  props : Registry ℝ
  table : UTable (WSet W)

/-- `RuntimeDB::RuntimeDB`, `/repo/src/chimp/RuntimeDB.cpp` lines 60-95. -/
def Session.new (doc : SDoc) : Session W :=
  { doc, filter := defaultFilter, dflt := ⟨0, 0⟩, props := [], table := ⟨0, fun _ _ => {}⟩ }

/-- The registered cross section models, `/repo/src/chimp/RuntimeDB.cpp` lines 69-81. -/
def csNames : List String := ["vhs", "log", "data", "lotz", "inverse", "constant"]

/-- The registered interaction models, `/repo/src/chimp/RuntimeDB.cpp` lines 84-91. -/
def modelNames : List String := ["elastic", "inelastic", "vss_elastic"]

/-- Exceptions (and undefined accesses) of the calls. -/
inductive SErr where
  /-- `find` of the XML library without exactly one result -/
  | xml (e : String)
  | filter (e : FErr)
  | load (e : LoadErr)
  | complete (e : WErr)
  | create (e : CMErr)
  /-- the constructor of an averaged cross section -/
  | average (e : XErr)
  /-- the sampling loop of that constructor does not end (excluded, see `avgFuel_enough`) -/
  | diverges

/-! ### Species -/

/-- `addParticleType(begin, end)` on names, `/repo/src/chimp/RuntimeDB.cpp` lines 240-245 with 232-237: an exception
leaves the species added before it. -/
def addNamesLoop (doc : List (Props ℝ)) : List String → Registry ℝ → Registry ℝ × Option SErr
  | [], r => (r, none)
  | n :: ns, r =>
    match addParticleByName doc r n with
    | .error e => (r, some (.xml e))
    | .ok r' => addNamesLoop doc ns r'

/-- `RuntimeDB::addModel`, `/repo/src/chimp/RuntimeDB.cpp` lines 271-285. -/
def Session.addModel (m : String) (s : Session W) : Session W × Except SErr ℕ :=
  let ms := s.doc.models.filter (fun x => x.name = m)
  let r := addNamesLoop s.doc.particles (ms.flatMap ModelDoc.particles) s.props
  let s' := { s with props := r.1 }
  match r.2 with
  | some e => (s', .error e)
  | none =>
    match ms.flatMap ModelDoc.filters with
    | [x] =>
      match loadEquationFilter x with
      | .error e => (s', .error (.filter e))
      | .ok f => ({ s' with filter := f }, .ok 0)
    | [] => (s', .error (.xml "no_results"))
    | _ => (s', .error (.xml "too_many_results"))

/-! ### Creating missing elastic cross sections -/

/-- `hasElastic`, as in `Model/CreateMissing.lean`. -/
def WSet.hasElastic (s : WSet W) : Bool := s.rhs.any fun w => w.eq.isElastic

/-- `getElastic`, as in `Model/CreateMissing.lean`. -/
def WSet.getElastic (s : WSet W) : Option (WEq W) := s.rhs.find? fun w => w.eq.isElastic

/-- A bound for the number of rounds of the sampling loop, `/repo/src/chimp/interaction/cross_section/AveragedDiameters.h`
line 85. -/
noncomputable def avgFuel (vmax dv : ℝ) : ℕ := ⌈(vmax + 1 / 2 * dv) / dv⌉₊ + 1

/-- `setij.rhs.push_back(eq)` -/
def pushEq (t : UTable (WSet W)) (a b : ℕ) (w : WEq W) : UTable (WSet W) :=
  t.modify a b fun s => { s with rhs := s.rhs ++ [w] }

/-- The body of the loops for a pair of indices, `/repo/src/chimp/RuntimeDB.cpp` lines 399-474. -/
noncomputable def cmStepW (T : Tools W) (db : Registry ℝ) (vmax dv : ℝ) (t : UTable (WSet W)) (a b : ℕ) :
    Except SErr (UTable (WSet W) × Bool) :=
  match t.get? a a, t.get? b b, t.get? a b with
  | some sii, some sjj, some sij =>
    if !sij.hasElastic && sii.hasElastic && sjj.hasElastic then
      match sii.getElastic, sjj.getElastic with
      | some eii, some ejj =>
        if !(eii.eq.A.eqv eii.eq.B) || !(ejj.eq.A.eqv ejj.eq.B) || eii.eq.A.n ≠ 1 || ejj.eq.A.n ≠ 1 then
          .error (.create .nonBinary)
        else
          match orderByMass db eii.eq.A ejj.eq.A with
          | none => .error (.create .ub)
          | some (A, B) =>
            match db[A.species.toNat]?, db[B.species.toNat]? with
            | some p, some q =>
              let mu := ReducedMass.mk' p.mass q.mass
              if eii.eq.csModel ∈ easyLabels ∧ ejj.eq.csModel ∈ easyLabels then
                .ok (pushEq t a b ⟨⟨A, B, [A, B], "averaged_diameters_easy", "elastic"⟩, mu,
                  mkAvgEasy eii.cs ejj.cs, .elastic, none⟩, true)
              else if 0 < vmax ∧ 0 < dv then
                match mkAveraged T.extrapolate eii.cs ejj.cs vmax dv mu.value (avgFuel vmax dv) with
                | none => .error .diverges
                | some (.error x) => .error (.average x)
                | some (.ok cs) =>
                  .ok (pushEq t a b ⟨⟨A, B, [A, B], "averaged_diameters", "elastic"⟩, mu, cs, .elastic, none⟩, true)
              else .ok (t, false)
            | _, _ => .error (.create .ub)
      | _, _ => .error (.create .ub)
    else .ok (t, false)
  | _, _, _ => .error (.create .ub)

/-- The two loops, `/repo/src/chimp/RuntimeDB.cpp` lines 395-487. -/
noncomputable def cmLoopW (T : Tools W) (db : Registry ℝ) (vmax dv : ℝ) :
    List (ℕ × ℕ) → UTable (WSet W) → ℕ → UTable (WSet W) × Except SErr ℕ
  | [], t, n => (t, .ok n)
  | (a, b) :: l, t, n =>
    match cmStepW T db vmax dv t a b with
    | .error e => (t, .error e)
    | .ok (t', added) => cmLoopW T db vmax dv l t' (if added then n + 1 else n)

/-- `createMissingElasticCrossSections(int, int, double, double)`,
`/repo/src/chimp/RuntimeDB.cpp` lines 374-488. -/
noncomputable def Session.create (T : Tools W) (i j : ℤ) (vmax dv : ℝ) (s : Session W) : Session W × Except SErr ℕ :=
  let r := effectiveRange s.dflt.vmax s.dflt.dv vmax dv
  let res := cmLoopW T s.props r.1 r.2 (cmPairs s.props.length i j) s.table 0
  ({ s with table := res.1 }, res.2)

/-! ### Filling the table -/

/-- `Equation::load` for the `k`-th `Interaction`, `/repo/src/chimp/interaction/Equation.cpp` lines 63-165. -/
noncomputable def loadNode (T : Tools W) (d : SDoc) (db : Registry ℝ) (k : ℕ) : Except SErr (WEq W) :=
  match d.doc.nodes[k]? with
  | none => .error (.load .ub)
  | some x =>
    match loadEq db csNames modelNames x.node with
    | .error e => .error (.load e)
    | .ok e =>
      match completeEq T db e (d.inter k) with
      | .error x => .error (.complete x)
      | .ok w => .ok w

/-- The inner loop, `/repo/src/chimp/RuntimeDB.cpp` lines 177-183: an exception leaves the equations pushed before it. -/
noncomputable def pushAll (T : Tools W) (d : SDoc) (db : Registry ℝ) : List ℕ → List (WEq W) → List (WEq W) × Option SErr
  | [], l => (l, none)
  | k :: ks, l =>
    match loadNode T d db k with
    | .error e => (l, some e)
    | .ok w => pushAll T d db ks (l ++ [w])

/-- The loop over the map of inputs, `/repo/src/chimp/RuntimeDB.cpp` lines 167-184. -/
noncomputable def fillW (T : Tools W) (d : SDoc) (f : Filter) (db : Registry ℝ) :
    List (ℕ × ℕ) → UTable (WSet W) → UTable (WSet W) × Option SErr
  | [], t => (t, none)
  | (A, B) :: l, t =>
    match db[A]?, db[B]? with
    | some a, some b =>
      let r := pushAll T d db (f.apply d.doc (queryNodes d.doc db A B a.name b.name)) (t.cell (min A B) (max A B)).rhs
      let t' := t.modify A B fun _ => ⟨(Term.single A, Term.single B), r.1⟩
      match r.2 with
      | some e => (t', some e)
      | none => fillW T d f db l t'
    | _, _ => (t, some (.load .ub))

/-- `interactions.resize(n)`, as in `Model/Table.lean`. -/
def resizeW (t : UTable (WSet W)) (n : ℕ) : UTable (WSet W) :=
  ⟨n, fun a b => if b < t.side then t.cell a b else {}⟩

/-- `RuntimeDB::initBinaryInteractions`, `/repo/src/chimp/RuntimeDB.cpp` lines 136-189; `auto` is
`options::auto_create_missing_elastic` (`/repo/src/chimp/make_options.h` lines 138-139). -/
noncomputable def Session.init (T : Tools W) (auto : Bool) (s : Session W) : Session W × Except SErr ℕ :=
  let db := sortProps s.props
  let r := fillW T s.doc s.filter db (indexPairs db.length) (resizeW s.table db.length)
  let s' := { s with props := db, table := r.1 }
  match r.2 with
  | some e => (s', .error e)
  | none => if auto then s'.create T (-1) (-1) 0 0 else (s', .ok 0)

/-! ### Calls -/

/-- The public calls that change a `RuntimeDB`, and assignments to its public members. -/
inductive Call where
  /-- `addXMLData` (`/repo/src/chimp/RuntimeDB.cpp` lines 354-359): the document afterwards may be any document -/
  | document (d : SDoc)
  /-- `db.filter = ...` -/
  | filter (f : Filter)
  /-- `db.default_ElasticCreator_vmax = ...; db.default_ElasticCreator_dv = ...` -/
  | defaults (d : CMDefaults ℝ)
  /-- `addParticleType(const Properties &)` -/
  | add (p : Props ℝ)
  /-- `addParticleType(begin, end)` on names; a single name is a range of one -/
  | addNames (ns : List String)
  | addModel (m : String)
  | init
  | create (i j : ℤ) (vmax dv : ℝ)
  | createNames (i j : String) (vmax dv : ℝ)

/-- The effect of a call, and the value returned (0 if none) or the exception thrown. -/
noncomputable def Call.run (T : Tools W) (auto : Bool) (c : Call) (s : Session W) : Session W × Except SErr ℕ :=
  match c with
  | .document d => ({ s with doc := d }, .ok 0)
  | .filter f => ({ s with filter := f }, .ok 0)
  | .defaults d => ({ s with dflt := d }, .ok 0)
  | .add p => ({ s with props := addParticleType s.props p }, .ok 0)
  | .addNames ns =>
    let r := addNamesLoop s.doc.particles ns s.props
    ({ s with props := r.1 }, match r.2 with | some e => .error e | none => .ok 0)
  | .addModel m => s.addModel m
  | .init => s.init T auto
  | .create i j vmax dv => s.create T i j vmax dv
  | .createNames i j vmax dv => s.create T (findParticleIndx s.props i) (findParticleIndx s.props j) vmax dv

/-- A history of calls whose exceptions the user catches. -/
noncomputable def runCalls (T : Tools W) (auto : Bool) (cs : List Call) (s : Session W) : Session W :=
  cs.foldl (fun s c => (c.run T auto s).1) s

/-- The equations for a pair of species, as the driver gets them from `db(A,B)`. -/
def Session.eqs (s : Session W) (A B : ℕ) : List (WEq W) :=
  match s.table.get? A B with
  | some c => c.rhs
  | none => []

end Chimp
