import Verif.Model.Session

/-!
# Registries of models, and databases with models of the user's own

`cross_section_registry` and `interaction_registry` are public members of a `RuntimeDB`
(`/repo/src/chimp/RuntimeDB.h` lines 181-185), and `Equation::load` looks up in them the names that a document gives.
Here the registries are part of the state and users may put anything into them.  A model of the user's own is an
arbitrary function for `new_load`, and what it makes is an arbitrary cross section or an object of an arbitrary type `I`.

As in `Model/Session.lean`, `Equation::load` reads the terms and looks up both names first and makes the objects
afterwards; which of several faults of one `Interaction` element is reported is not claimed.  A `new_load` that changes the
database or the registries is not modelled.
-/

namespace Chimp

variable {W D I P : Type}

/-! ### Registries -/

/-- `std::map<std::string, shared_ptr<P> >` (`/repo/src/chimp/RuntimeDB.h` lines 134-144): names with pointers, `none`
being the null pointer. -/
abbrev ModelReg (P : Type) := List (String × Option P)

/-- `registry.find(n)`: nothing, or the pointer found. -/
def ModelReg.find (r : ModelReg P) (n : String) : Option (Option P) := (r.find? fun e => e.1 = n).map Prod.snd

/-- `registry[n].reset(new P)` -/
def ModelReg.set (r : ModelReg P) (n : String) (p : P) : ModelReg P := (n, some p) :: r.filter fun e => e.1 ≠ n

/-- Reading `registry[n]`: `operator[]` of `std::map` inserts a null pointer if there is no entry. -/
def ModelReg.read (r : ModelReg P) (n : String) : ModelReg P :=
  match r.find n with
  | some _ => r
  | none => (n, none) :: r

/-- `registry.erase(n)` -/
def ModelReg.erase (r : ModelReg P) (n : String) : ModelReg P := r.filter fun e => e.1 ≠ n

/-- The names in a registry. -/
def ModelReg.names (r : ModelReg P) : List String := r.map Prod.fst

/-! ### Objects and prototypes -/

/-- A cross section object: the functions of `/repo/src/chimp/interaction/cross_section/Base.h` lines 68-108. -/
structure CSObj where
  /-- `getLabel`, which need not be the name under which the prototype is registered -/
  label : String
  xs : XSec

/-- How a call can end if not normally. -/
inductive UErr where
  /-- as in `Model/Session.lean` -/
  | lib (e : SErr)
  /-- a call through a null pointer -/
  | null
  /-- an exception of a model of the user's own -/
  | user (msg : String)

/-- A prototype of a cross section, `new_load` in `cross_section/Base.h` lines 101-104.  It is given what is written in the
`Interaction` element (`D`), the equation so far, and the species. -/
abbrev CSProto (D : Type) := D → LEq → ReducedMass ℝ → Registry ℝ → Except UErr CSObj

/-- A prototype of an interaction model, `new_load` in `/repo/src/chimp/interaction/model/Base.h` lines 113-120.  The
cross section is there already. -/
abbrev IProto (D I : Type) := D → LEq → ReducedMass ℝ → CSObj → Registry ℝ → Except UErr I

/-- An `Equation`, `/repo/src/chimp/interaction/Equation.h` lines 100-113; `eq` records the names read. -/
structure UEq (I : Type) where
  eq : LEq
  mu : ReducedMass ℝ
  cs : CSObj
  inter : I

/-- `new_load` through a pointer. -/
def callProto (p : Option (Option P)) {α : Type} (f : P → Except UErr α) : Except UErr α :=
  match p with
  | some (some q) => f q
  | some none => .error .null
  | none => .error (.lib (.load .ub))

/-- The rest of `Equation::load`, `/repo/src/chimp/interaction/Equation.cpp` lines 95, 121-126 and 150-156. -/
noncomputable def completeU (cr : ModelReg (CSProto D)) (ir : ModelReg (IProto D I)) (db : Registry ℝ) (e : LEq) (d : D) :
    Except UErr (UEq I) :=
  match db[e.A.species.toNat]?, db[e.B.species.toNat]? with
  | some a, some b =>
    match callProto (cr.find e.csModel) fun p => p d e (ReducedMass.mk' a.mass b.mass) db with
    | .error x => .error x
    | .ok cs =>
      match callProto (ir.find e.model) fun p => p d e (ReducedMass.mk' a.mass b.mass) cs db with
      | .error x => .error x
      | .ok m => .ok ⟨e, ReducedMass.mk' a.mass b.mass, cs, m⟩
  | _, _ => .error (.lib (.complete .ub))

/-! ### The database -/

/-- As `SDoc`, with arbitrary contents of the `Interaction` elements besides the equations. -/
structure UDoc (D : Type) where
  doc : Doc
  inter : ℕ → D
  particles : List (Props ℝ) := []
  models : List ModelDoc := []

/-- `interaction::Set`, `/repo/src/chimp/interaction/Set.h` lines 60-72. -/
structure USet (I : Type) where
  lhs : Term × Term := (Term.single 0, Term.single 0)
  rhs : List (UEq I) := []

/-- The members of a `RuntimeDB`, `/repo/src/chimp/RuntimeDB.h` lines 178-218. -/
structure USession (D I : Type) where
  doc : UDoc D
  filter : Filter
  dflt : CMDefaults ℝ
  creg : ModelReg (CSProto D)
  ireg : ModelReg (IProto D I)
  props : Registry ℝ
  table : UTable (USet I)

/-- What the calls depend on: whether tables are extrapolated, and the class `model::Elastic`, which
`createMissingElasticCrossSections` uses by its type (`/repo/src/chimp/RuntimeDB.cpp` lines 464-467). -/
structure UTools (I : Type) where
  extrapolate : Bool
  elastic : ReducedMass ℝ → I

/-- `Equation::load`, as `loadNode` in `Model/Session.lean`. -/
noncomputable def loadNodeU (d : UDoc D) (cr : ModelReg (CSProto D)) (ir : ModelReg (IProto D I)) (db : Registry ℝ) (k : ℕ) :
    Except UErr (UEq I) :=
  match d.doc.nodes[k]? with
  | none => .error (.lib (.load .ub))
  | some x =>
    match loadEq db cr.names ir.names x.node with
    | .error e => .error (.lib (.load e))
    | .ok e => completeU cr ir db e (d.inter k)

/-- `/repo/src/chimp/RuntimeDB.cpp` lines 177-183, as `pushAll`. -/
noncomputable def pushAllU (d : UDoc D) (cr : ModelReg (CSProto D)) (ir : ModelReg (IProto D I)) (db : Registry ℝ) :
    List ℕ → List (UEq I) → List (UEq I) × Option UErr
  | [], l => (l, none)
  | k :: ks, l =>
    match loadNodeU d cr ir db k with
    | .error e => (l, some e)
    | .ok w => pushAllU d cr ir db ks (l ++ [w])

/-- `/repo/src/chimp/RuntimeDB.cpp` lines 167-184, as `fillW`. -/
noncomputable def fillU (d : UDoc D) (cr : ModelReg (CSProto D)) (ir : ModelReg (IProto D I)) (f : Filter) (db : Registry ℝ) :
    List (ℕ × ℕ) → UTable (USet I) → UTable (USet I) × Option UErr
  | [], t => (t, none)
  | (A, B) :: l, t =>
    match db[A]?, db[B]? with
    | some a, some b =>
      let r := pushAllU d cr ir db (f.apply d.doc (queryNodes d.doc db A B a.name b.name))
        (t.cell (min A B) (max A B)).rhs
      let t' := t.modify A B fun _ => ⟨(Term.single A, Term.single B), r.1⟩
      match r.2 with
      | some e => (t', some e)
      | none => fillU d cr ir f db l t'
    | _, _ => (t, some (.lib (.load .ub)))

/-- `interactions.resize(n)`, as `resizeW`. -/
def resizeU (t : UTable (USet I)) (n : ℕ) : UTable (USet I) :=
  ⟨n, fun a b => if b < t.side then t.cell a b else {}⟩

/-- `hasElastic`, `/repo/src/chimp/interaction/Equation.cpp` lines 232-242. -/
def USet.hasElastic (s : USet I) : Bool := s.rhs.any fun w => w.eq.isElastic

/-- `getElastic`, `/repo/src/chimp/interaction/Equation.cpp` lines 246-257. -/
def USet.getElastic (s : USet I) : Option (UEq I) := s.rhs.find? fun w => w.eq.isElastic

/-- `setij.rhs.push_back(eq)` -/
def pushEqU (t : UTable (USet I)) (a b : ℕ) (w : UEq I) : UTable (USet I) :=
  t.modify a b fun s => { s with rhs := s.rhs ++ [w] }

/-- The body of the loops of `createMissingElasticCrossSections`, `/repo/src/chimp/RuntimeDB.cpp` lines 399-474, as
`cmStepW`.  The kind of a cross section is told by its `getLabel` (lines 444-445). -/
noncomputable def cmStepU (T : UTools I) (db : Registry ℝ) (vmax dv : ℝ) (t : UTable (USet I)) (a b : ℕ) :
    Except UErr (UTable (USet I) × Bool) :=
  match t.get? a a, t.get? b b, t.get? a b with
  | some sii, some sjj, some sij =>
    if !sij.hasElastic && sii.hasElastic && sjj.hasElastic then
      match sii.getElastic, sjj.getElastic with
      | some eii, some ejj =>
        if !(eii.eq.A.eqv eii.eq.B) || !(ejj.eq.A.eqv ejj.eq.B) || eii.eq.A.n ≠ 1 || ejj.eq.A.n ≠ 1 then
          .error (.lib (.create .nonBinary))
        else
          match orderByMass db eii.eq.A ejj.eq.A with
          | none => .error (.lib (.create .ub))
          | some (A, B) =>
            match db[A.species.toNat]?, db[B.species.toNat]? with
            | some p, some q =>
              let mu := ReducedMass.mk' p.mass q.mass
              if eii.cs.label ∈ easyLabels ∧ ejj.cs.label ∈ easyLabels then
                .ok (pushEqU t a b ⟨⟨A, B, [A, B], "averaged_diameters_easy", "elastic"⟩, mu,
                  ⟨"averaged_diameters_easy", mkAvgEasy eii.cs.xs ejj.cs.xs⟩, T.elastic mu⟩, true)
              else if 0 < vmax ∧ 0 < dv then
                match mkAveraged T.extrapolate eii.cs.xs ejj.cs.xs vmax dv mu.value (avgFuel vmax dv) with
                | none => .error (.lib .diverges)
                | some (.error x) => .error (.lib (.average x))
                | some (.ok cs) =>
                  .ok (pushEqU t a b ⟨⟨A, B, [A, B], "averaged_diameters", "elastic"⟩, mu,
                    ⟨"averaged_diameters", cs⟩, T.elastic mu⟩, true)
              else .ok (t, false)
            | _, _ => .error (.lib (.create .ub))
      | _, _ => .error (.lib (.create .ub))
    else .ok (t, false)
  | _, _, _ => .error (.lib (.create .ub))

/-- `/repo/src/chimp/RuntimeDB.cpp` lines 395-487, as `cmLoopW`. -/
noncomputable def cmLoopU (T : UTools I) (db : Registry ℝ) (vmax dv : ℝ) :
    List (ℕ × ℕ) → UTable (USet I) → ℕ → UTable (USet I) × Except UErr ℕ
  | [], t, n => (t, .ok n)
  | (a, b) :: l, t, n =>
    match cmStepU T db vmax dv t a b with
    | .error e => (t, .error e)
    | .ok (t', added) => cmLoopU T db vmax dv l t' (if added then n + 1 else n)

/-- `createMissingElasticCrossSections`, `/repo/src/chimp/RuntimeDB.cpp` lines 374-488. -/
noncomputable def USession.create (T : UTools I) (i j : ℤ) (vmax dv : ℝ) (s : USession D I) :
    USession D I × Except UErr ℕ :=
  let r := effectiveRange s.dflt.vmax s.dflt.dv vmax dv
  let res := cmLoopU T s.props r.1 r.2 (cmPairs s.props.length i j) s.table 0
  ({ s with table := res.1 }, res.2)

/-- `initBinaryInteractions`, `/repo/src/chimp/RuntimeDB.cpp` lines 136-189, as `Session.init`. -/
noncomputable def USession.init (T : UTools I) (auto : Bool) (s : USession D I) : USession D I × Except UErr ℕ :=
  let db := sortProps s.props
  let r := fillU s.doc s.creg s.ireg s.filter db (indexPairs db.length) (resizeU s.table db.length)
  let s' := { s with props := db, table := r.1 }
  match r.2 with
  | some e => (s', .error e)
  | none => if auto then s'.create T (-1) (-1) 0 0 else (s', .ok 0)

/-- `addModel`, `/repo/src/chimp/RuntimeDB.cpp` lines 271-285, as `Session.addModel`. -/
def USession.addModel (m : String) (s : USession D I) : USession D I × Except UErr ℕ :=
  let ms := s.doc.models.filter (fun x => x.name = m)
  let r := addNamesLoop s.doc.particles (ms.flatMap ModelDoc.particles) s.props
  let s' := { s with props := r.1 }
  match r.2 with
  | some e => (s', .error (.lib e))
  | none =>
    match ms.flatMap ModelDoc.filters with
    | [x] =>
      match loadEquationFilter x with
      | .error e => (s', .error (.lib (.filter e)))
      | .ok f => ({ s' with filter := f }, .ok 0)
    | [] => (s', .error (.lib (.xml "no_results")))
    | _ => (s', .error (.lib (.xml "too_many_results")))

/-- The calls of `Model/Session.lean` and the uses of the registries. -/
inductive UCall (D I : Type) where
  | document (d : UDoc D)
  | filter (f : Filter)
  | defaults (d : CMDefaults ℝ)
  | add (p : Props ℝ)
  | addNames (ns : List String)
  | addModel (m : String)
  | init
  | create (i j : ℤ) (vmax dv : ℝ)
  | createNames (i j : String) (vmax dv : ℝ)
  /-- `db.cross_section_registry[n].reset(new P)` -/
  | setCS (n : String) (p : CSProto D)
  /-- reading `db.cross_section_registry[n]` -/
  | readCS (n : String)
  /-- `db.cross_section_registry.erase(n)` -/
  | eraseCS (n : String)
  /-- `db.interaction_registry[n].reset(new P)` -/
  | setModel (n : String) (p : IProto D I)
  /-- reading `db.interaction_registry[n]` -/
  | readModel (n : String)
  /-- `db.interaction_registry.erase(n)` -/
  | eraseModel (n : String)

/-- The effect of a call, and the value returned (0 if none) or how it ended. -/
noncomputable def UCall.run (T : UTools I) (auto : Bool) (c : UCall D I) (s : USession D I) :
    USession D I × Except UErr ℕ :=
  match c with
  | .document d => ({ s with doc := d }, .ok 0)
  | .filter f => ({ s with filter := f }, .ok 0)
  | .defaults d => ({ s with dflt := d }, .ok 0)
  | .add p => ({ s with props := addParticleType s.props p }, .ok 0)
  | .addNames ns =>
    let r := addNamesLoop s.doc.particles ns s.props
    ({ s with props := r.1 }, match r.2 with | some e => .error (.lib e) | none => .ok 0)
  | .addModel m => s.addModel m
  | .init => s.init T auto
  | .create i j vmax dv => s.create T i j vmax dv
  | .createNames i j vmax dv => s.create T (findParticleIndx s.props i) (findParticleIndx s.props j) vmax dv
  | .setCS n p => ({ s with creg := s.creg.set n p }, .ok 0)
  | .readCS n => ({ s with creg := s.creg.read n }, .ok 0)
  | .eraseCS n => ({ s with creg := s.creg.erase n }, .ok 0)
  | .setModel n p => ({ s with ireg := s.ireg.set n p }, .ok 0)
  | .readModel n => ({ s with ireg := s.ireg.read n }, .ok 0)
  | .eraseModel n => ({ s with ireg := s.ireg.erase n }, .ok 0)

/-- A history of calls whose exceptions the user catches. -/
noncomputable def runU (T : UTools I) (auto : Bool) (cs : List (UCall D I)) (s : USession D I) : USession D I :=
  cs.foldl (fun s c => (c.run T auto s).1) s

/-- The equations for a pair of species. -/
def USession.eqs (s : USession D I) (A B : ℕ) : List (UEq I) :=
  match s.table.get? A B with
  | some c => c.rhs
  | none => []

/-! ### The models of the library -/

/-- Objects of the library's interaction models with their members. -/
inductive LibModel (W : Type) where
  | elastic (mu : ReducedMass ℝ)
  | vss (mu : ReducedMass ℝ) (paramInv : ℝ)
  | inelastic (m : InModel W)

/-- A cross section model of the library as a prototype (see `CSDoc.load`).  An element that is not written for the model
is not modelled. -/
noncomputable def libCS (T : Tools W) (n : String) : CSProto InterDoc := fun d _ mu _ =>
  if d.cs.label = n then
    match d.cs.load T.solve T.extrapolate mu.value with
    | .error x => .error (.lib (.complete (.crossSection x)))
    | .ok c => .ok ⟨n, c⟩
  else .error (.lib (.complete .notModelled))

/-- `Elastic::new_load`, `/repo/src/chimp/interaction/model/Elastic.h` lines 151-156. -/
def libElastic : IProto InterDoc (LibModel W) := fun _ _ mu _ _ => .ok (.elastic mu)

/-- `VSSElastic::new_load`, `/repo/src/chimp/interaction/model/VSSElastic.h` lines 183-187. -/
def libVSS : IProto InterDoc (LibModel W) := fun d _ mu _ _ => .ok (.vss mu d.vssParamInv)

/-- `InElastic::new_load`, `/repo/src/chimp/interaction/model/InElastic.h` lines 113-185. -/
noncomputable def libInelastic (T : Tools W) : IProto InterDoc (LibModel W) := fun d e _ cs db =>
  match newLoad db T.oc e d.declared cs.xs.thrE with
  | .error x => .error (.lib (.complete (.inelastic x)))
  | .ok m => .ok (.inelastic m)

/-- The cross section models that the constructor registers, `/repo/src/chimp/RuntimeDB.cpp` lines 69-81. -/
noncomputable def libCSReg (T : Tools W) : ModelReg (CSProto InterDoc) :=
  (((((ModelReg.set (P := CSProto InterDoc) [] "vhs" (libCS T "vhs")).set "log" (libCS T "log")).set "data"
    (libCS T "data")).set "lotz" (libCS T "lotz")).set "inverse" (libCS T "inverse")).set "constant" (libCS T "constant")

/-- The interaction models that the constructor registers, `/repo/src/chimp/RuntimeDB.cpp` lines 84-91. -/
noncomputable def libIReg (T : Tools W) : ModelReg (IProto InterDoc (LibModel W)) :=
  ((ModelReg.set (P := IProto InterDoc (LibModel W)) [] "elastic" libElastic).set "inelastic" (libInelastic T)).set
    "vss_elastic" libVSS

/-- The constructor, `/repo/src/chimp/RuntimeDB.cpp` lines 60-95. -/
noncomputable def USession.new (T : Tools W) (doc : SDoc) : USession InterDoc (LibModel W) :=
  { doc := ⟨doc.doc, doc.inter, doc.particles, doc.models⟩, filter := defaultFilter, dflt := ⟨0, 0⟩, creg := libCSReg T,
    ireg := libIReg T, props := [], table := ⟨0, fun _ _ => {}⟩ }

/-- The library's tools. -/
def libTools (T : Tools W) : UTools (LibModel W) := ⟨T.extrapolate, .elastic⟩

end Chimp
