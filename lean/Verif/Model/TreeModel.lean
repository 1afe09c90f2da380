import Verif.Model.TreeDB

/-!
# Models and filters read from a document tree

`addModel` (`/repo/src/chimp/RuntimeDB.cpp` lines 271-285) and the loaders of the filters
(`/repo/src/chimp/interaction/filter/*.h`) on the tree of the document.

Simplified: which of several faults of one element is reported is not claimed.  For `model` elements inside of each other the
names are taken model by model, not in document order.
-/

namespace Chimp

variable {W : Type}

/-- Whether a node is an element (`child::*`). -/
def Xml.isElem : Xml → Bool
  | .text _ => false
  | .elem _ _ _ => true

/-- `parse_item( EqTerm & )`, `/repo/src/chimp/interaction/filter/EqIO.h` lines 65-68. -/
def xmlEqTerm (parse : List Char → Option ℤ) (x : Xml) : Except FErr EqTerm :=
  match x.named "P" with
  | [p] =>
    match x.named "n" with
    | [] => .ok ⟨String.ofList p.str, 1⟩
    | [c] =>
      match parse c.str with
      | some k => .ok ⟨String.ofList p.str, k⟩
      | none => .error .missingP
    | _ => .error .missingP
  | _ => .error .missingP

/-- `x.parse< std::vector< EqTerm > >()`, `/repo/src/chimp/interaction/filter/EqIO.h` line 216: every child element, in
order. -/
def xmlEqTerms (parse : List Char → Option ℤ) : List Xml → Except FErr (List EqTerm)
  | [] => .ok []
  | x :: xs =>
    match xmlEqTerm parse x with
    | .error e => .error e
    | .ok t =>
      match xmlEqTerms parse xs with
      | .error e => .error e
      | .ok ts => .ok (t :: ts)

mutual
/-- `lookup( x.name() )->load( x )`, `/repo/src/chimp/interaction/filter/Base.h` lines 121-129, with the list of
`Base.cpp` lines 52-68 and the loaders of `And.h` lines 80-94, `Or.h`, `Not.h`, `EqIO.h` 195-219, `Label.h`, `Elastic.h`,
`Null.h` and `Section.h` 179-201. -/
def xmlFilter (parse : List Char → Option ℤ) : Xml → Except FErr Filter
  | .text s => .error (.unknownName s)
  | .elem name attrs ks =>
    let subs := xmlFilters parse ks
    if name = "Null" then .ok .null
    else if name = "Elastic" then .ok .elastic
    else if name = "Label" then .ok (.label (String.ofList (Xml.strs ks)))
    else if name = "EqIO" then
      match attrs.lookup "dir" with
      | none => .error .missingDir
      | some d =>
        if d.toLower = "in" ∨ d.toLower = "out" then
          if (ks.filter Xml.isElem).length < 1 then .error .childCount
          else
            match xmlEqTerms parse (ks.filter Xml.isElem) with
            | .error e => .error e
            | .ok ts => .ok (.eqio (d.toLower == "out") (eqTermSet ts))
        else .error .badDir
    else if name = "And" ∨ name = "Or" ∨ name = "Not" then
      match subs with
      | [.ok l, .ok r] => .ok (if name = "And" then .and l r else if name = "Or" then .or l r else .not l r)
      | [.error e, _] => .error e
      | [_, .error e] => .error e
      | _ => .error .childCount
    else if name = "Section" then
      let sec := (attrs.lookup "name").getD "standard"
      let req := containsChars "required".toList (((attrs.lookup "preference").getD "preferred").toLower).toList
      match subs with
      | [] => .ok (.sect sec req .null)
      | [.ok f] => .ok (.sect sec req f)
      | [.error e] => .error e
      | _ => .error .childCount
    else .error (.unknownName name)
/-- The result for every child element. -/
def xmlFilters (parse : List Char → Option ℤ) : List Xml → List (Except FErr Filter)
  | [] => []
  | k :: ks => if k.isElem then xmlFilter parse k :: xmlFilters parse ks else xmlFilters parse ks
end

/-- `parse_item( shared_ptr<filter::Base> & )`, `/repo/src/chimp/interaction/filter/Base.cpp` lines 75-91. -/
def xmlEquationFilter (parse : List Char → Option ℤ) (x : Xml) : Except FErr Filter :=
  match x.kids.filter Xml.isElem with
  | [] => .ok .null
  | [c] => xmlFilter parse c
  | _ => .error .childCount

/-- The elements that `//model[@name='m']` selects. -/
def Xml.models (root : Xml) (m : String) : List (List ℕ) :=
  (root.everywhere "model").filter fun a => match root.get a with
    | some x => x.attr "name" == some m
    | none => false

/-- The nodes that a path leads to from a position. -/
def Xml.from (root : Xml) (p : List String) (a : List ℕ) : List Xml :=
  match root.get a with
  | some x => x.along p
  | none => []

/-- `addModel( model_name )`, `/repo/src/chimp/RuntimeDB.cpp` lines 271-285; `strip` is `xylose::strip`. -/
def TreeDB.addModel (R : Reader) (parse : List Char → Option ℤ) (strip : List Char → List Char) (m : String)
    (s : TreeDB W) : TreeDB W × Option TreeErr :=
  let ms := s.root.models m
  let r := s.addNames R ((ms.flatMap (s.root.from ["particles", "P"])).map fun P => String.ofList (strip P.str))
  match r.2 with
  | some e => (r.1, some e)
  | none =>
    match ms.flatMap (s.root.from ["equation-filter"]) with
    | [x] =>
      match xmlEquationFilter parse x with
      | .error e => (r.1, some (.filter e))
      | .ok f => ({ r.1 with filter := f }, none)
    | _ => (r.1, some .xml)

end Chimp
