import Verif.Model.Filter

/-!
# The interaction table

Models `RuntimeDB::findAllLHSRelatedInteractionCtx` and `RuntimeDB::initBinaryInteractions`
(`/repo/src/chimp/RuntimeDB.cpp` lines 97-189) without the optional creation of missing elastic
cross sections, which is in `Verif.Model.CreateMissing`.

Simplifications: the XPath expressions are given their meaning by hand (see `Verif.Model.Filter`); a
species name with a quote character would change the expressions and is not modelled.  If loading an
equation throws, the whole call is an error; the half-filled table the exception leaves behind is in
`Verif.Model.Session`.
-/

namespace Chimp

variable {K : Type}

/-- What `Equation::load` reads from an interaction. -/
def XInter.node (x : XInter) : EqNode := ⟨x.ins, x.outs, x.csModel, x.modelAttr⟩

/-- The concatenation of `":name:"` over all species, `/repo/src/chimp/RuntimeDB.cpp` lines 145-150. -/
def namesText (db : Registry K) : List Char :=
  db.flatMap (fun p => ':' :: (p.name.toList ++ [':']))

/-- `contains('...', concat(':',text(),':'))` for the `P` of a term, same lines 154, 156. -/
def nameListed (txt : List Char) (t : TNode) : Bool :=
  containsChars (':' :: (t.P.toList ++ [':'])) txt

/-- The product filter `Eq/Out[T/P[contains(..)]][not(T/P[not(contains(..))])]`,
`/repo/src/chimp/RuntimeDB.cpp` lines 152-158. -/
def productsListed (txt : List Char) (outs : List TNode) : Bool :=
  outs.any (nameListed txt) && !(outs.any (fun t => !nameListed txt t))

/-- The specification of the reactant side for species `A` and `B`,
`/repo/src/chimp/RuntimeDB.cpp` lines 107-120. -/
def reactantSpec (A B : ℕ) (nA nB : String) : List EqTerm :=
  if A = B then eqTermSet [⟨nA, 2⟩] else eqTermSet [⟨nA, 1⟩, ⟨nB, 1⟩]

/-- The query of `findAllLHSRelatedInteractionCtx`, `/repo/src/chimp/RuntimeDB.cpp` lines 124-127:
`//Interaction/cross_section/..` with the reactants and the product filter. -/
def queryNodes (doc : Doc) (db : Registry K) (A B : ℕ) (nA nB : String) : List ℕ :=
  (List.range doc.nodes.length).filter (fun k =>
    match doc.nodes[k]? with
    | none => false
    | some x => x.hasCS && eqioMatches (reactantSpec A B nA nB) x.ins && productsListed (namesText db) x.outs)

/-- An `interaction::Set`: stored inputs and equations, `/repo/src/chimp/interaction/Set.h` lines 60-72. -/
structure ISet where
  lhs : Term × Term := (Term.single 0, Term.single 0)
  rhs : List LEq := []

/-- Loading the equations of one set, `/repo/src/chimp/RuntimeDB.cpp` lines 176-183. -/
def loadAll [LinearOrder K] (doc : Doc) (db : Registry K) (cs ms : List String) :
    List ℕ → Except LoadErr (List LEq)
  | [] => .ok []
  | k :: ks =>
    match doc.nodes[k]? with
    | none => .error .ub
    | some x =>
      match loadEq db cs ms x.node with
      | .error e => .error e
      | .ok e =>
        match loadAll doc db cs ms ks with
        | .error e => .error e
        | .ok es => .ok (e :: es)

/-- The index pairs `A ≤ B` in the order of the map of inputs, `/repo/src/chimp/RuntimeDB.cpp` lines
102-104 with `operator<` of `/repo/src/chimp/interaction/Input.h` lines 92-94. -/
def indexPairs (n : ℕ) : List (ℕ × ℕ) :=
  (List.range n).flatMap (fun A => (List.range (n - A)).map (fun d => (A, A + d)))

/-- The loop over the map, `/repo/src/chimp/RuntimeDB.cpp` lines 168-184. -/
def fillTable [LinearOrder K] (doc : Doc) (f : Filter) (db : Registry K) (cs ms : List String) :
    List (ℕ × ℕ) → UTable ISet → Except LoadErr (UTable ISet)
  | [], t => .ok t
  | (A, B) :: l, t =>
    match db[A]?, db[B]? with
    | some a, some b =>
      match loadAll doc db cs ms (f.apply doc (queryNodes doc db A B a.name b.name)) with
      | .error e => .error e
      | .ok es =>
        fillTable doc f db cs ms l
          (t.modify A B (fun s => { lhs := (Term.single A, Term.single B), rhs := s.rhs ++ es }))
    | _, _ => .error .ub

/-- State of a `RuntimeDB` as far as the table is concerned. -/
structure RDB (K : Type) where
  props : Registry K
  table : UTable ISet

/-- `interactions.resize(n)`: existing cells are taken to keep their contents, new ones are default
constructed (the contract of the external container does not say otherwise). -/
def UTable.resize (t : UTable ISet) (n : ℕ) : UTable ISet :=
  ⟨n, fun a b => if b < t.side then t.cell a b else {}⟩

/-- `RuntimeDB::initBinaryInteractions`, `/repo/src/chimp/RuntimeDB.cpp` lines 136-189, with
`options::auto_create_missing_elastic` off. -/
def initBinary [LinearOrder K] (doc : Doc) (f : Filter) (cs ms : List String) (d : RDB K) :
    Except LoadErr (RDB K) :=
  let db := sortProps d.props
  match fillTable doc f db cs ms (indexPairs db.length) (d.table.resize db.length) with
  | .error e => .error e
  | .ok t => .ok ⟨db, t⟩

/-- A database with species added and no table yet: the constructor leaves `interactions` empty. -/
def RDB.fresh (props : Registry K) : RDB K := ⟨props, ⟨0, fun _ _ => {}⟩⟩

/-- The default filter set by the constructor, `/repo/src/chimp/RuntimeDB.cpp` lines 61-95. -/
def defaultFilter : Filter := .elastic

end Chimp
