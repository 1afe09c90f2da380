import Verif.Model.Registry
import Mathlib.Algebra.Field.Basic

/-!
# Equations

Models `interaction::Term`, `interaction::ReducedMass`, `detail::loadAndSortTerms` and
`interaction::Equation` (`load`, `getTermForProduct`, `isElastic`, `hasElastic`, `getElastic`).

An interaction of the XML document is reduced to what the code reads from it: two lists of term
nodes, the name of the cross section model, and an optional model attribute.  Loading the cross
section and the interaction model objects is not part of this file; only the decision which
ones to load is.
-/

namespace Chimp

/-- A `T` node of an equation: child `P`, optional child `n`, attributes `from` (default -1) and `ops`
(default empty), as read in `/repo/src/chimp/interaction/detail/sort_terms.h` lines 88-92 and
`/repo/src/chimp/interaction/Equation.h` lines 60-69. -/
structure TNode where
  P : String
  n : Option ℤ := none
  src : ℤ := -1
  ops : String := ""
deriving DecidableEq

/-- `i->query<int>("n",1)` -/
def TNode.mult (t : TNode) : ℤ := t.n.getD 1

/-- `detail::TermInfo`, `/repo/src/chimp/interaction/detail/sort_terms.h` lines 49-61. -/
structure TermInfo where
  n : ℤ
  src : List ℤ
  ops : List String
deriving DecidableEq

/-- Exceptions and undefined behaviour while loading. -/
inductive LoadErr where
  /-- `operator[]`: species not loaded -/
  | unknownSpecies (name : String)
  /-- `vector::insert` with a negative count (`std::length_error`) -/
  | badCount
  /-- the dummy checks of `loadAndSortTerms` or of the `Term` constructor -/
  | sizeMismatch
  | notBinary
  | unknownOutput
  | noCrossSection
  | noModel
  /-- reading past the end of a container -/
  | ub
deriving DecidableEq

/-- `std::map<const Properties *, TermInfo, PropertyPtrComparator>`: entries in iteration order. -/
abbrev SideMap (K : Type) := List (Props K × TermInfo)

/-- Appending the entries of one node to the information of its species,
`/repo/src/chimp/interaction/detail/sort_terms.h` lines 100-108 (existing entry). -/
def TermInfo.add (i : TermInfo) (t : TNode) : TermInfo :=
  ⟨i.n + t.mult, i.src ++ List.replicate t.mult.toNat t.src, i.ops ++ List.replicate t.mult.toNat t.ops⟩

/-- The entry inserted for a species seen for the first time, same lines. -/
def TermInfo.new (t : TNode) : TermInfo :=
  ⟨t.mult, List.replicate t.mult.toNat t.src, List.replicate t.mult.toNat t.ops⟩

variable {K : Type}

/-- `find` followed by update or `insert` in the ordered map,
`/repo/src/chimp/interaction/detail/sort_terms.h` lines 98-108. -/
def upsert [LinearOrder K] (p : Props K) (t : TNode) : SideMap K → SideMap K
  | [] => [(p, TermInfo.new t)]
  | (q, i) :: l =>
    if p.lt q then (p, TermInfo.new t) :: (q, i) :: l
    else if q.lt p then (q, i) :: upsert p t l
    else (q, i.add t) :: l

/-- The loop of `loadAndSortTerms`, `/repo/src/chimp/interaction/detail/sort_terms.h` lines 86-109. -/
def loadLoop [LinearOrder K] (db : Registry K) :
    List TNode → SideMap K → ℤ → Except LoadErr (SideMap K × ℤ)
  | [], el, n => .ok (el, n)
  | t :: ts, el, n =>
    match lookupName db t.P with
    | .error _ => .error (.unknownSpecies t.P)
    | .ok p =>
      if t.mult < 0 then .error .badCount
      else loadLoop db ts (upsert p t el) (n + t.mult)

/-- `detail::loadAndSortTerms`, `/repo/src/chimp/interaction/detail/sort_terms.h` lines 79-119. -/
def loadAndSortTerms [LinearOrder K] (db : Registry K) (l : List TNode) :
    Except LoadErr (SideMap K × ℤ) :=
  match loadLoop db l [] 0 with
  | .error e => .error e
  | .ok (el, n) =>
    if el.any (fun e => e.2.n ≠ (e.2.src.length : ℤ) || e.2.n ≠ (e.2.ops.length : ℤ)) then
      .error .sizeMismatch
    else .ok (el, n)

/-- `interaction::Term`, `/repo/src/chimp/interaction/Term.h` lines 115-130. -/
structure Term where
  species : ℤ
  n : ℤ
  src : List ℤ
  ops : List String
deriving DecidableEq

/-- `Term(species)` with the default arguments, `/repo/src/chimp/interaction/Term.h` lines 142-148. -/
def Term.single (s : ℤ) : Term := ⟨s, 1, [-1], [""]⟩

/-- `Term(species, n)`, `/repo/src/chimp/interaction/Term.h` lines 136-140 (for `n ≥ 0`). -/
def Term.many (s : ℤ) (n : ℕ) : Term := ⟨s, n, List.replicate n (-1), List.replicate n ""⟩

/-- `operator==` on terms, `/repo/src/chimp/interaction/Term.h` lines 205-209 (ignores `ops`). -/
def Term.eqv (a b : Term) : Bool := a.species == b.species && a.n == b.n && a.src == b.src

/-- `operator<` on terms, `/repo/src/chimp/interaction/Term.h` lines 213-215. -/
def Term.lt (a b : Term) : Bool :=
  decide (a.species < b.species) || (decide (a.species = b.species) && decide (a.n < b.n))

/-- `interaction::ReducedMass`, `/repo/src/chimp/interaction/ReducedMass.h` lines 41-62. -/
structure ReducedMass (K : Type) where
  value : K
  over_m1 : K
  over_m2 : K

/-- `ReducedMass(m1, m2)`, `/repo/src/chimp/interaction/ReducedMass.h` lines 59-62 (and 66-74). -/
def ReducedMass.mk' [Field K] (m1 m2 : K) : ReducedMass K :=
  ⟨m1 * m2 / (m1 + m2), 1 / (1 + m1 / m2), 1 / (1 + m2 / m1)⟩

/-- What `Equation::load` reads from an `Interaction` node. -/
structure EqNode where
  ins : List TNode
  outs : List TNode
  csModel : String
  modelAttr : Option String := none

/-- A loaded `Equation`: reactants, products, and the names of the cross section and interaction models
that were instantiated.  `/repo/src/chimp/interaction/Equation.h` lines 90-113. -/
structure LEq where
  A : Term
  B : Term
  products : List Term
  csModel : String
  model : String

/-- The reactants from the sorted map, `/repo/src/chimp/interaction/Equation.cpp` lines 84-92. -/
def inputTerms (db : Registry K) : SideMap K → Except LoadErr (Term × Term)
  | [] => .error .ub
  | (p, i) :: rest =>
    let a := Term.single (findParticleIndx db p.name)
    if i.n - 1 = 0 then
      match rest with
      | [] => .error .ub
      | (q, _) :: _ => .ok (a, Term.single (findParticleIndx db q.name))
    else .ok (a, Term.single (findParticleIndx db p.name))

/-- The product terms, `/repo/src/chimp/interaction/Equation.cpp` lines 98-109; the `Term` constructor
checks sizes (`/repo/src/chimp/interaction/Term.h` lines 149-155). -/
def outputTerms (db : Registry K) : SideMap K → Except LoadErr (List Term)
  | [] => .ok []
  | (p, i) :: rest =>
    if i.n ≠ (i.src.length : ℤ) ∨ i.n ≠ (i.ops.length : ℤ) then .error .sizeMismatch
    else if findParticleIndx db p.name = -1 then .error .unknownOutput
    else
      match outputTerms db rest with
      | .error e => .error e
      | .ok ts => .ok (⟨findParticleIndx db p.name, i.n, i.src, i.ops⟩ :: ts)

/-- Choice of the interaction model, `/repo/src/chimp/interaction/Equation.cpp` lines 144-148.  The keys of
the two maps are pointers into the same species list, so their equality is equality of entries. -/
def chooseModel [DecidableEq K] (x : EqNode) (ins outs : SideMap K) : String :=
  x.modelAttr.getD (if ins = outs then "elastic" else "inelastic")

/-- `Equation::load`, `/repo/src/chimp/interaction/Equation.cpp` lines 63-165.  `csReg`, `modelReg` are the
names in the two registries.  The reduced mass and the loading of the cross section and model
objects are not part of the result. -/
def loadEq [LinearOrder K] (db : Registry K) (csReg modelReg : List String) (x : EqNode) :
    Except LoadErr LEq :=
  match loadAndSortTerms db x.ins with
  | .error e => .error e
  | .ok (ins, nIn) =>
    match loadAndSortTerms db x.outs with
    | .error e => .error e
    | .ok (outs, _) =>
      if nIn ≠ 2 then .error .notBinary
      else
        match inputTerms db ins with
        | .error e => .error e
        | .ok (a, b) =>
          match outputTerms db outs with
          | .error e => .error e
          | .ok prods =>
            if x.csModel ∈ csReg then
              if chooseModel x ins outs ∈ modelReg then
                .ok ⟨a, b, prods, x.csModel, chooseModel x ins outs⟩
              else .error .noModel
            else .error .noCrossSection

/-- `countComponents`, `/repo/src/chimp/interaction/Term.h` lines 227-233, 250-261: numbers of products. -/
def countComponents (ts : List Term) : ℤ := ts.foldl (fun s t => s + t.n) 0

/-- Loop of `getTermForProduct`, `/repo/src/chimp/interaction/Equation.cpp` lines 170-184; `none` is the
exception. -/
def getTermLoop (i : ℤ) : List Term → ℤ → Option Term
  | [], _ => none
  | t :: ts, total => if i < total + t.n then some t else getTermLoop i ts (total + t.n)

/-- `Equation::getTermForProduct`, same lines. -/
def getTermForProduct (products : List Term) (i : ℕ) : Option Term := getTermLoop i products 0

/-- `std::set<Term>::insert`: ordered by `operator<`, equivalent elements are not inserted. -/
def setInsert (t : Term) : List Term → List Term
  | [] => [t]
  | u :: l => if t.lt u then t :: u :: l else if u.lt t then u :: setInsert t l else u :: l

/-- `std::set<Term>::operator==`: same size and elementwise `operator==`. -/
def setEq : List Term → List Term → Bool
  | [], [] => true
  | a :: l, b :: m => a.eqv b && setEq l m
  | _, _ => false

/-- `Equation::isElastic`, `/repo/src/chimp/interaction/Equation.cpp` lines 205-220. -/
def LEq.isElastic (e : LEq) : Bool :=
  let iterms := if e.A.species = e.B.species then setInsert (Term.many e.A.species 2) []
    else setInsert e.B (setInsert e.A [])
  let oterms := e.products.foldl (fun s t => setInsert t s) []
  setEq iterms oterms

end Chimp
