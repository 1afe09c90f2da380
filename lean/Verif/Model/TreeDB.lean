import Verif.Model.XPath
import Verif.Model.LoadXml

/-!
# A database filled from a document tree

`RuntimeDB` (`/repo/src/chimp/RuntimeDB.cpp`) with nothing in between: species, filters and interactions are found by XPath
on the tree of the document, and equations are loaded from its elements.

Simplified: `xml::Context::set` is a list of positions in the list of all `Interaction` elements, in document order; of the
equation text of `Section`, and of the numbers in terms, `docOf` gives what is read.  Creation of missing cross sections is
in `Model/Session`.
-/

namespace Chimp

variable {W : Type}

namespace SIDim
/-- `runtime::physical::dimension::mass` -/
def mass : SIDim := { kilogram := 1 }
/-- `runtime::physical::dimension::charge` -/
def charge : SIDim := { ampere := 1, second := 1 }
/-- `polarizability_dims`, `/repo/src/chimp/property/polarizability.h` lines 43-49: charge, length squared, per potential -/
def polarizability : SIDim := { ampere := 2, second := 4, kilogram := -1 }
end SIDim

/-! ### Species -/

/-- `x.query< check<T,dimension> >( xpath, 0.0 )`, `/repo/src/chimp/property/define.h` lines 77-78 and
`detail/check.h` lines 64-70. -/
def Reader.optional (R : Reader) (x : Xml) (path : String) (d : SIDim) : Except ReadErr ℝ :=
  match x.named path with
  | [] => .ok 0
  | [c] =>
    match R.eval c.str with
    | none => .error .notAQuantity
    | some q => q.coeffIn d
  | _ => .error (.tooManyResults path)

/-- `Properties::load` for the default properties, `/repo/src/chimp/property/DefaultSet.h`, `name.h`, `mass.h`, `charge.h`,
`polarizability.h`.  The polarizability is read and not kept here. -/
def Reader.particle (R : Reader) (x : Xml) : Except ReadErr (Props ℝ) :=
  match x.attr "name" with
  | none => .error (.noResults "@name")
  | some n =>
    match R.optional x "mass" .mass, R.optional x "charge" .charge, R.optional x "polarizability" .polarizability with
    | .ok m, .ok c, .ok _ => .ok ⟨n, m, c⟩
    | .error e, _, _ => .error e
    | _, .error e, _ => .error e
    | _, _, .error e => .error e

/-- The members of a `RuntimeDB`, `/repo/src/chimp/RuntimeDB.h` lines 178-218. -/
structure TreeDB (W : Type) where
  root : Xml
  filter : Filter := .elastic
  props : Registry ℝ := []
  table : UTable (WSet W) := ⟨0, fun _ _ => {}⟩

/-- Exceptions. -/
inductive TreeErr where
  /-- `find` of the XML library -/
  | xml
  | read (e : ReadErr)
  | load (e : XLoadErr)
  | filter (e : FErr)
  /-- an index outside of the list of species or of the document -/
  | ub

/-- The elements that `//Particle[@name="n"]` selects, `/repo/src/chimp/RuntimeDB.cpp` line 234. -/
def Xml.particles (root : Xml) (n : String) : List (List ℕ) :=
  (root.everywhere "Particle").filter fun a => match root.get a with
    | some x => x.attr "name" == some n
    | none => false

/-- `addParticleType( name )`, `/repo/src/chimp/RuntimeDB.cpp` lines 231-269. -/
def TreeDB.addName (R : Reader) (n : String) (s : TreeDB W) : Except TreeErr (TreeDB W) :=
  match s.root.particles n with
  | [a] =>
    match s.root.get a with
    | none => .error .ub
    | some x =>
      match R.particle x with
      | .error e => .error (.read e)
      | .ok p => .ok { s with props := addParticleType s.props p }
  | _ => .error .xml

/-- `addParticleType( begin, end )` on names, lines 240-245: up to the first exception. -/
def TreeDB.addNames (R : Reader) : List String → TreeDB W → TreeDB W × Option TreeErr
  | [], s => (s, none)
  | n :: ns, s =>
    match s.addName R n with
    | .error e => (s, some e)
    | .ok s' => s'.addNames R ns

/-! ### Filters -/

open Classical in
/-- `Base::filter`, `/repo/src/chimp/interaction/filter/Base.h` lines 70-80: the nodes at which the query selects
something. -/
noncomputable def keepTree (root : Xml) (query : List ℕ → List (List ℕ)) (s : List ℕ) : List ℕ :=
  s.filter fun k => match (root.everywhere "Interaction")[k]? with
    | none => false
    | some a => decide (query a ≠ [])

/-- `EqIO`: without terms the query is the absolute path `/Eq` (`/repo/src/chimp/interaction/filter/EqIO.h` line 92). -/
noncomputable def eqioQuery (number : List Char → Option ℝ) (root : Xml) (side : String) (terms : List EqTerm)
    (a : List ℕ) : List (List ℕ) :=
  if terms = [] then (if root.hasTag "Eq" then [[]] else [])
  else runPath number root (thenEq (sidePath side terms)) a

/-- `/ParticleDB/s//Interaction`, `/repo/src/chimp/interaction/filter/Section.h` lines 105-107. -/
def sectionRanks (root : Xml) (s : String) : List ℕ :=
  (List.range (root.everywhere "Interaction").length).filter fun k =>
    match (root.everywhere "Interaction")[k]? with
    | some a => decide (a ∈ sectionNodes root s)
    | none => false

/-- `filter(set)` of every class, as `Filter.apply` in `Model/Filter.lean`, with the queries evaluated on the tree; `d` is
`docOf`. -/
noncomputable def Filter.onTree (number : List Char → Option ℝ) (root : Xml) (d : Doc) : Filter → List ℕ → List ℕ
  | .null, s => s
  | .elastic, s => keepTree root (runPath number root (thenEq elasticPath)) s
  | .label l, s => keepTree root (runPath number root (thenEq (labelPath l))) s
  | .eqio out terms, s => keepTree root (eqioQuery number root (if out then "Out" else "In") terms) s
  | .and l r, s => setInter (l.onTree number root d s) (r.onTree number root d s)
  | .or l r, s => setUnion (l.onTree number root d s) (r.onTree number root d s)
  | .not p n, s => setDiff (p.onTree number root d s) (n.onTree number root d s)
  | .sect name required f, s =>
    if name = "" then s
    else
      let fs := f.onTree number root d s
      if fs = [] then fs
      else if required then
        setInter fs (sectionRanks root name)
      else sectionPreferred d name fs

/-! ### The table -/

open Classical in
/-- `xmlDb.eval( "//Interaction/cross_section/../..." )` for two species, `/repo/src/chimp/RuntimeDB.cpp` lines 107-127. -/
noncomputable def queryTree (number : List Char → Option ℝ) (root : Xml) (db : Registry ℝ) (A B : ℕ) (nA nB : String) :
    List ℕ :=
  (List.range (root.everywhere "Interaction").length).filter fun k => match (root.everywhere "Interaction")[k]? with
    | some a => decide (a ∈ reactantQuery number root (reactantSpec A B nA nB) (String.ofList (namesText db)))
    | none => false

/-- The inner loop, `/repo/src/chimp/RuntimeDB.cpp` lines 177-183. -/
noncomputable def pushTree (R : Reader) (T : Tools W) (parse : List Char → Option ℤ) (db : Registry ℝ) (root : Xml) :
    List ℕ → List (WEq W) → List (WEq W) × Option TreeErr
  | [], l => (l, none)
  | k :: ks, l =>
    match ((root.everywhere "Interaction")[k]?).bind root.get with
    | none => (l, some .ub)
    | some x =>
      match loadXml R T parse db x with
      | .error e => (l, some (.load e))
      | .ok w => pushTree R T parse db root ks (l ++ [w])

/-- The loop over the map of inputs, `/repo/src/chimp/RuntimeDB.cpp` lines 167-184. -/
noncomputable def fillTree (R : Reader) (T : Tools W) (parse : List Char → Option ℤ) (number : List Char → Option ℝ)
    (root : Xml) (d : Doc) (f : Filter) (db : Registry ℝ) :
    List (ℕ × ℕ) → UTable (WSet W) → UTable (WSet W) × Option TreeErr
  | [], t => (t, none)
  | (A, B) :: l, t =>
    match db[A]?, db[B]? with
    | some a, some b =>
      let r := pushTree R T parse db root (f.onTree number root d (queryTree number root db A B a.name b.name))
        (t.cell (min A B) (max A B)).rhs
      let t' := t.modify A B fun _ => ⟨(Term.single A, Term.single B), r.1⟩
      match r.2 with
      | some e => (t', some e)
      | none => fillTree R T parse number root d f db l t'
    | _, _ => (t, some .ub)

/-- `initBinaryInteractions`, `/repo/src/chimp/RuntimeDB.cpp` lines 136-186. -/
noncomputable def TreeDB.init (R : Reader) (T : Tools W) (parse : List Char → Option ℤ) (number : List Char → Option ℝ)
    (d : Doc) (s : TreeDB W) : TreeDB W × Option TreeErr :=
  let db := sortProps s.props
  let r := fillTree R T parse number s.root d s.filter db (indexPairs db.length) (resizeW s.table db.length)
  ({ s with props := db, table := r.1 }, r.2)

/-- The equations that the driver gets from `db(A,B)`, `/repo/src/chimp/RuntimeDB.cpp` lines 310-322. -/
def TreeDB.eqs (s : TreeDB W) (A B : ℕ) : List (WEq W) :=
  match s.table.get? A B with
  | some c => c.rhs
  | none => []

end Chimp
