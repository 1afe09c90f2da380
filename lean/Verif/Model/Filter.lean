import Verif.Model.Equation
import Mathlib.Data.String.Basic

/-!
# Interaction filters

Models `/repo/src/chimp/interaction/filter/*` and the equation text of
`/repo/src/chimp/interaction/Equation.h`.

An XML document is the list of its `Interaction` nodes, in document order, reduced to what the
library reads, together with the answer to the question which of them lie in a section.  A node is
named by its position in that list.  `xml::Context::set` is a strictly increasing list of
positions: the set is ordered by the (external) comparison of contexts, which is taken to be document
order.  Every XPath expression built by the library is given its XPath 1.0 meaning by hand.  An
`Interaction` has exactly one `Eq` with exactly one `In` and one `Out`; multiplicities are integers
(or omitted).
-/

namespace Chimp

/-- What the library reads from an `Interaction` node.  `inText` and `outText` are `string(In)` and
`string(Out)`; `hasCS` says whether there is a `cross_section` child. -/
structure XInter where
  ins : List TNode
  outs : List TNode
  inText : String
  outText : String
  hasCS : Bool
  csModel : String
  modelAttr : Option String := none

/-- A document.  `inSection s k`: node `k` is selected by `/ParticleDB/s//Interaction`
(`/repo/src/chimp/interaction/filter/Section.h` lines 105-107, 123-125). -/
structure Doc where
  nodes : List XInter
  inSection : String → ℕ → Bool

/-! ### Set operations on increasing lists -/

/-- `std::set_intersection` -/
def setInter : List ℕ → List ℕ → List ℕ
  | [], _ => []
  | a :: as, bs =>
    match bs.dropWhile (· < a) with
    | [] => []
    | b :: t => if b = a then a :: setInter as t else setInter as (b :: t)

/-- Skip the head if it equals `a`: both ranges advance when `set_union` meets equal elements. -/
def dropEq (a : ℕ) : List ℕ → List ℕ
  | [] => []
  | b :: t => if b = a then t else b :: t

/-- `std::set_union` -/
def setUnion : List ℕ → List ℕ → List ℕ
  | [], bs => bs
  | a :: as, bs =>
    bs.takeWhile (· < a) ++ a :: setUnion as (dropEq a (bs.dropWhile (· < a)))

/-- `std::set_difference` -/
def setDiff : List ℕ → List ℕ → List ℕ
  | [], _ => []
  | a :: as, bs =>
    match bs.dropWhile (· < a) with
    | [] => a :: setDiff as []
    | b :: t => if b = a then setDiff as t else a :: setDiff as (b :: t)

/-- `set::insert` -/
def natInsert (k : ℕ) : List ℕ → List ℕ
  | [] => [k]
  | a :: l => if k < a then k :: a :: l else if a < k then a :: natInsert k l else a :: l

/-! ### EqIO -/

/-- `EqTerm`, `/repo/src/chimp/interaction/filter/EqIO.h` lines 47-62. -/
structure EqTerm where
  name : String
  n : ℤ := -1
deriving DecidableEq

/-- `std::set<EqTerm>::insert` with `operator<` by name,
`/repo/src/chimp/interaction/filter/EqIO.h` lines 77-82: an equivalent element is not replaced. -/
def eqTermInsert (t : EqTerm) : List EqTerm → List EqTerm
  | [] => [t]
  | u :: l =>
    if t.name < u.name then t :: u :: l
    else if u.name < t.name then u :: eqTermInsert t l
    else u :: l

/-- `EqTermSet(first, last)`: insertion of a range, in order. -/
def eqTermSet (l : List EqTerm) : List EqTerm := l.foldl (fun s t => eqTermInsert t s) []

/-- `EqIO(id, A, B, C)`, `/repo/src/chimp/interaction/filter/EqIO.h` lines 150-166: terms of multiplicity
zero are left out. -/
def eqTermSetOf (A B C : EqTerm) : List EqTerm :=
  ([A, B, C].filter (fun t => t.n ≠ 0)).foldl (fun s t => eqTermInsert t s) []

/-- The predicate on one `T` node written for one specified term,
`/repo/src/chimp/interaction/filter/EqIO.h` lines 101-113: `string(P)='name'` and, for `n = 1`,
`number(n)=1 or string(n)=''`; for `n > 1`, `number(n)=n`. -/
def termMatches (t : EqTerm) (x : TNode) : Bool :=
  x.P == t.name &&
    (if t.n = 1 then x.n == some 1 || x.n == none
     else if t.n > 1 then x.n == some t.n
     else true)

/-- Whether `getXpathQuery(EqIO, terms)` followed by `/Eq` selects something for a side,
`/repo/src/chimp/interaction/filter/EqIO.h` lines 90-117: as many `T` nodes as terms, and for each term of
nonzero multiplicity a matching node.  For an empty set the query is `/Eq`, an absolute path that
selects nothing because the root element is not `Eq`. -/
def eqioMatches (terms : List EqTerm) (side : List TNode) : Bool :=
  if terms.length = 0 then false
  else side.length == terms.length && terms.all (fun t => t.n == 0 || side.any (termMatches t))

/-! ### Equation text -/

/-- One term of `formatUniqueEqTerms`, `/repo/src/chimp/interaction/Equation.h` lines 60-70, as a list of
characters.  `query<unsigned>("n",1)` is taken to be nonnegative. -/
def termText (t : TNode) : List Char :=
  (if t.mult > 1 then (Nat.repr t.mult.toNat).toList ++ [' '] else []) ++ t.P.toList ++
  (if t.src ≥ 0 then '[' :: (Nat.repr t.src.toNat).toList ++ [']'] else [])

/-- `formatUniqueEqTerms`, `/repo/src/chimp/interaction/Equation.h` lines 54-76: separator `" + "`. -/
def sideText : List TNode → List Char
  | [] => []
  | [t] => termText t
  | t :: ts => termText t ++ [' ', '+', ' '] ++ sideText ts

/-- `formatUniqueEqString`, `/repo/src/chimp/interaction/Equation.h` lines 80-86. -/
def eqText (x : XInter) : List Char :=
  sideText x.ins ++ [' ', ' ', '-', '-', '>', ' ', ' '] ++ sideText x.outs

/-! ### Filters -/

/-- The filter classes of `/repo/src/chimp/interaction/filter/`. -/
inductive Filter where
  | null
  | elastic
  | label (l : String)
  | eqio (out : Bool) (terms : List EqTerm)
  | and (l r : Filter)
  | or (l r : Filter)
  | not (pos neg : Filter)
  | sect (name : String) (required : Bool) (f : Filter)
deriving DecidableEq

/-- The generic `Base::filter`, `/repo/src/chimp/interaction/filter/Base.h` lines 70-80: keep the nodes for
which the query selects something. -/
def keepIf (doc : Doc) (p : XInter → Bool) (s : List ℕ) : List ℕ :=
  s.filter (fun k => match doc.nodes[k]? with
    | none => false
    | some x => p x)

/-- `detail::EqSet`, `/repo/src/chimp/interaction/filter/detail/EqPair.h` lines 37-46. -/
structure EqSet where
  matched : Option ℕ := none
  standard : Option ℕ := none
  unmatched : Option ℕ := none

/-- `map[estr]` followed by an assignment to a member.  Entries are kept in the order of first use;
the order of the map is not observable because its entries are copied into a set. -/
def eqMapUpdate (key : List Char) (f : EqSet → EqSet) :
    List (List Char × EqSet) → List (List Char × EqSet)
  | [] => [(key, f {})]
  | (k, e) :: l => if k = key then (k, f e) :: l else (k, e) :: eqMapUpdate key f l

/-- The loop over the filtered set, `/repo/src/chimp/interaction/filter/Section.h` lines 130-143. -/
def sectionMap (doc : Doc) (name : String) (s : List ℕ) : List (List Char × EqSet) :=
  s.foldl (fun m k =>
    match doc.nodes[k]? with
    | none => m
    | some x =>
      eqMapUpdate (eqText x) (fun e =>
        if doc.inSection name k then { e with matched := some k }
        else if doc.inSection "standard" k then { e with standard := some k }
        else { e with unmatched := some k }) m) []

/-- Choosing from one entry, `/repo/src/chimp/interaction/filter/Section.h` lines 155-160. -/
def EqSet.choose (e : EqSet) : Option ℕ :=
  match e.matched with
  | some k => some k
  | none =>
    match e.standard with
    | some k => some k
    | none => e.unmatched

/-- `Section::filter` after the sub-filter for PREFERRED,
`/repo/src/chimp/interaction/filter/Section.h` lines 120-163. -/
def sectionPreferred (doc : Doc) (name : String) (s : List ℕ) : List ℕ :=
  (sectionMap doc name s).foldl (fun acc e =>
    match e.2.choose with
    | none => acc
    | some k => natInsert k acc) []

/-- `filter(set)` of every class: `And.h` lines 57-66, `Or.h` lines 57-66, `Not.h` lines 58-67, `Null.h`
line 46, `Elastic.h` lines 63-65 (`Eq[string(In) = string(Out)]/..`), `Label.h` lines 55-57
(`self::node()[@model='...']`), `EqIO.h`, `Section.h` lines 93-164. -/
def Filter.apply (doc : Doc) : Filter → List ℕ → List ℕ
  | .null, s => s
  | .elastic, s => keepIf doc (fun x => x.inText == x.outText) s
  | .label l, s => keepIf doc (fun x => x.modelAttr == some l) s
  | .eqio out terms, s => keepIf doc (fun x => eqioMatches terms (if out then x.outs else x.ins)) s
  | .and l r, s => setInter (l.apply doc s) (r.apply doc s)
  | .or l r, s => setUnion (l.apply doc s) (r.apply doc s)
  | .not p n, s => setDiff (p.apply doc s) (n.apply doc s)
  | .sect name required f, s =>
    if name = "" then s
    else
      let fs := f.apply doc s
      if fs = [] then fs
      else if required then
        setInter fs ((List.range doc.nodes.length).filter (fun k => doc.inSection name k))
      else sectionPreferred doc name fs

/-! ### Loading filters from XML -/

/-- An element of the filter description: name, attributes used, text, and for `EqIO` children the values
of `P` and `n`. -/
inductive FNode where
  | mk (name : String) (attr : String → Option String) (text : String) (P : Option String)
      (n : Option ℤ) (children : List FNode)

def FNode.name : FNode → String
  | .mk n _ _ _ _ _ => n
def FNode.attr : FNode → String → Option String
  | .mk _ a _ _ _ _ => a
def FNode.text : FNode → String
  | .mk _ _ t _ _ _ => t
def FNode.P : FNode → Option String
  | .mk _ _ _ p _ _ => p
def FNode.n : FNode → Option ℤ
  | .mk _ _ _ _ n _ => n
def FNode.children : FNode → List FNode
  | .mk _ _ _ _ _ c => c

/-- Errors while loading filters. -/
inductive FErr where
  | unknownName (n : String)
  | childCount
  | missingDir
  | badDir
  | missingP
deriving DecidableEq

/-- `parse_item(EqTerm)`, `/repo/src/chimp/interaction/filter/EqIO.h` lines 65-68. -/
def loadTerm (x : FNode) : Except FErr EqTerm :=
  match x.P with
  | none => .error .missingP
  | some p => .ok ⟨p, x.n.getD 1⟩

/-- `x.parse< std::vector<EqTerm> >()`: every child, in order. -/
def loadTerms : List FNode → Except FErr (List EqTerm)
  | [] => .ok []
  | x :: xs =>
    match loadTerm x with
    | .error e => .error e
    | .ok t =>
      match loadTerms xs with
      | .error e => .error e
      | .ok ts => .ok (t :: ts)

/-- `s.find("required") != npos` -/
def containsChars (pat : List Char) : List Char → Bool
  | [] => pat.isPrefixOf []
  | c :: cs => pat.isPrefixOf (c :: cs) || containsChars pat cs

/-- `lookup(x.name())->load(x)`, `/repo/src/chimp/interaction/filter/Base.h` lines 122-129 with the default
list of `Base.cpp` lines 52-68 and the loaders of every class (`And.h` 80-94, `Or.h`, `Not.h`,
`EqIO.h` 195-219, `Label.h`, `Elastic.h`, `Section.h` 179-201, `Null.h`). -/
def loadFilter : FNode → Except FErr Filter
  | .mk name attr text _ _ children =>
    if name = "Null" then .ok .null
    else if name = "Elastic" then .ok .elastic
    else if name = "Label" then .ok (.label text)
    else if name = "EqIO" then
      match attr "dir" with
      | none => .error .missingDir
      | some d =>
        if d.toLower = "in" ∨ d.toLower = "out" then
          if children.length < 1 then .error .childCount
          else
            match loadTerms children with
            | .error e => .error e
            | .ok ts => .ok (.eqio (d.toLower == "out") (eqTermSet ts))
        else .error .badDir
    else if name = "And" ∨ name = "Or" ∨ name = "Not" then
      match children with
      | [x, y] =>
        match loadFilter x with
        | .error e => .error e
        | .ok l =>
          match loadFilter y with
          | .error e => .error e
          | .ok r => .ok (if name = "And" then .and l r else if name = "Or" then .or l r else .not l r)
      | _ => .error .childCount
    else if name = "Section" then
      let sec := (attr "name").getD "standard"
      let req := containsChars "required".toList (((attr "preference").getD "preferred").toLower).toList
      match children with
      | [] => .ok (.sect sec req .null)
      | [x] =>
        match loadFilter x with
        | .error e => .error e
        | .ok f => .ok (.sect sec req f)
      | _ => .error .childCount
    else .error (.unknownName name)

/-- `parse_item` for `equation-filter`, `/repo/src/chimp/interaction/filter/Base.cpp` lines 75-91. -/
def loadEquationFilter (x : FNode) : Except FErr Filter :=
  match x.children with
  | [] => .ok .null
  | [c] => loadFilter c
  | _ => .error .childCount

end Chimp
