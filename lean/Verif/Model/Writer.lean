import Verif.Model.Equation
import Mathlib.Data.List.Sort
import Mathlib.Data.Prod.Lex
import Mathlib.Data.String.Basic

/-!
# Writing interactions: the Python module, and the printing of loaded equations

`python/chimp/interaction/__init__.py` builds the XML element of an interaction from two
dictionaries of species and numbers; `interaction::Equation::print` writes a loaded equation.

Simplified: a Python dictionary is a list of its items, in any order; an XML document is a tree of
elements and text, to which the queries of the loaders are applied as stated at each definition;
`parse` stands for the conversion of text to an integer by the XML library.  Writing the tree to a
file and parsing it back is taken to give the same tree.  The `lxml` builder refuses values that
are not strings; all values below are strings.
-/

namespace Chimp

/-- An XML node.  The text behind an element (`tail` in `lxml`) is the next node. -/
inductive Xml where
  | text (s : String)
  | elem (tag : String) (attrs : List (String × String)) (kids : List Xml)

mutual
/-- The XPath function `string()`: all text inside, in document order. -/
def Xml.str : Xml → List Char
  | .text s => s.toList
  | .elem _ _ ks => Xml.strs ks
/-- `string()` of a list of nodes, one after the other. -/
def Xml.strs : List Xml → List Char
  | [] => []
  | k :: ks => k.str ++ Xml.strs ks
end

/-- The test for the element name in a path. -/
def Xml.hasTag (t : String) : Xml → Bool
  | .text _ => false
  | .elem u _ _ => u == t

/-- The path `t`: the child elements of this name. -/
def Xml.named (t : String) : Xml → List Xml
  | .text _ => []
  | .elem _ _ ks => ks.filter (Xml.hasTag t)

/-- The path `@a`. -/
def Xml.attr (a : String) : Xml → Option String
  | .text _ => none
  | .elem _ as _ => as.lookup a

variable {K : Type}

/-! ### The Python module -/

/-- `sortPartialEq`: python/chimp/interaction/__init__.py lines 6-12.  Tuples of mass, name and
number in the order of tuples.  `mass` is `getMass` (python/chimp/property/__init__.py lines
21-28). -/
def sortPartialEq [LinearOrder K] (mass : String → K) (d : List (String × ℤ)) :
    List (K ×ₗ String ×ₗ ℤ) :=
  (d.map fun i => toLex (mass i.1, toLex (i.1, i.2))).insertionSort (· ≤ ·)

/-- The text of one term: same file lines 18-21. -/
def pyTermText (name : String) (n : ℤ) : List Char :=
  if n > 1 then (Nat.repr n.toNat).toList ++ ' ' :: name.toList else name.toList

/-- `sep.join(strs)`. -/
def joinWith (sep : List Char) : List (List Char) → List Char
  | [] => []
  | [s] => s
  | s :: t :: l => s ++ sep ++ joinWith sep (t :: l)

/-- `formatPartial`: same file lines 14-22. -/
def formatPartial [LinearOrder K] (mass : String → K) (d : List (String × ℤ)) : List Char :=
  joinWith " + ".toList ((sortPartialEq mass d).map fun t =>
    pyTermText (ofLex (ofLex t).2).1 (ofLex (ofLex t).2).2)

/-- The `T` element of one term: same file lines 31-34. -/
def pyTerm (name : String) (n : ℤ) : Xml :=
  if n > 1 then .elem "T" [] [.elem "n" [] [.text (Nat.repr n.toNat)], .text " ",
    .elem "P" [] [.text name]]
  else .elem "T" [] [.elem "P" [] [.text name]]

/-- `xmlPartial`: same file lines 24-35; `" + "` is the tail of every term that is followed by
another. -/
def xmlTerms : List (String × ℤ) → List Xml
  | [] => []
  | [t] => [pyTerm t.1 t.2]
  | t :: u :: l => pyTerm t.1 t.2 :: .text " + " :: xmlTerms (u :: l)

/-- `xmlPartial`, with the sorting. -/
def xmlPartial [LinearOrder K] (mass : String → K) (d : List (String × ℤ)) : List Xml :=
  xmlTerms ((sortPartialEq mass d).map fun t => ofLex (ofLex t).2)

/-- `Equation.__str__`: same file lines 43-44. -/
def pyEqText [LinearOrder K] (mass : String → K) (lhs rhs : List (String × ℤ)) : List Char :=
  formatPartial mass lhs ++ "  -->  ".toList ++ formatPartial mass rhs

/-- `Equation.getXML`: same file lines 46-53. -/
def pyEqXml [LinearOrder K] (mass : String → K) (lhs rhs : List (String × ℤ)) : Xml :=
  .elem "Eq" [] [.elem "In" [] (xmlPartial mass lhs), .text "  -->  ",
    .elem "Out" [] (xmlPartial mass rhs)]

/-- A `Reference`: python/chimp/reference.py lines 8-14. -/
def pyReference (text : String) (bibtex : Option String) : Xml :=
  .elem "reference" [] (.text text :: bibtex.toList.map fun b => .elem "bibtex" [] [.text b])

/-- `DATA.getXML`: python/chimp/interaction/cross_section/__init__.py lines 12-23. -/
def pyData (xscale yscale : String) (data : List (String × String)) (ref : Option Xml) : Xml :=
  .elem "cross_section" [("model", "data"), ("xscale", xscale), ("yscale", yscale)]
    ((data.map fun d => .elem "val" [("x", d.1), ("y", d.2)] []) ++ ref.toList)

/-- `VHS.getXML`: same file lines 33-44. -/
def pyVHS (value tRef visc : String) (ref : Option Xml) : Xml :=
  .elem "cross_section" [("model", "vhs")]
    ([.elem "value" [] [.text value], .elem "T_ref" [] [.text tRef],
      .elem "visc_T_law" [] [.text visc]] ++ ref.toList)

/-- `Interaction.getXML`: python/chimp/interaction/__init__.py lines 61-65. -/
def pyInteraction [LinearOrder K] (mass : String → K) (lhs rhs : List (String × ℤ))
    (data : List Xml) : Xml :=
  .elem "Interaction" [] (pyEqXml mass lhs rhs :: data)

/-- `VSSInteraction.getXML`: same file lines 74-80. -/
def pyVSSInteraction [LinearOrder K] (mass : String → K) (lhs rhs : List (String × ℤ))
    (data : List Xml) (param : String) (ref : Option Xml) : Xml :=
  .elem "Interaction" [("model", "vss_elastic")]
    (pyEqXml mass lhs rhs :: data ++ [.elem "vss_param_inv" [] [.text param]] ++ ref.toList)

/-! ### Reading -/

/-- `query<int>` with a default: nothing there gives the default, one result is converted, several
are an error. -/
def queryInt (parse : List Char → Option ℤ) : List Xml → Option (Option ℤ)
  | [] => some none
  | [c] => (parse c.str).map some
  | _ => none

/-- What is read from a `T` element, `/repo/src/chimp/interaction/detail/sort_terms.h` lines 87-91. -/
def readT (parse : List Char → Option ℤ) (x : Xml) : Option TNode :=
  match x.named "P", queryInt parse (x.named "n"),
      (match x.attr "from" with | none => some (-1) | some a => parse a.toList) with
  | [p], some n, some src => some ⟨String.ofList p.str, n, src, (x.attr "ops").getD ""⟩
  | _, _, _ => none

/-- `x.eval("Eq/In/T")` and `x.eval("Eq/Out/T")`,
`/repo/src/chimp/interaction/Equation.cpp` lines 75-76. -/
def readSide (parse : List Char → Option ℤ) (side : String) (x : Xml) : Option (List TNode) :=
  (((x.named "Eq").flatMap (Xml.named side)).flatMap (Xml.named "T")).mapM (readT parse)

/-- What `Equation::load` reads from an `Interaction` element,
`/repo/src/chimp/interaction/Equation.cpp` lines 75-76, 117-118, 148. -/
def readInteraction (parse : List Char → Option ℤ) (x : Xml) : Option EqNode :=
  match readSide parse "In" x, readSide parse "Out" x, x.named "cross_section" with
  | some ins, some outs, [c] =>
    match c.attr "model" with
    | some m => some ⟨ins, outs, m, x.attr "model"⟩
    | none => none
  | _, _, _ => none

/-- `string(Eq)` of an `Interaction` element: of the first, and empty if there is none. -/
def eqString (x : Xml) : List Char :=
  match x.named "Eq" with
  | [] => []
  | e :: _ => e.str

/-- `x.find("//Interaction[string(Eq)='...']")`, `/repo/src/chimp/interaction/Equation.cpp` lines
51-57: the one element with this equation; an error if there is none or several. -/
def findByText (doc : List Xml) (text : List Char) : Option Xml :=
  match doc.filter (fun x => eqString x == text) with
  | [x] => some x
  | _ => none

/-- The predicate of the filter `Elastic`, `/repo/src/chimp/interaction/filter/Elastic.h` line 65:
`Eq[string(In) = string(Out)]/..`. -/
def elasticText (x : Xml) : Bool :=
  (x.named "Eq").any fun e =>
    (Xml.strs ((e.named "In").take 1)) == (Xml.strs ((e.named "Out").take 1))

/-! ### Printing -/

/-- `Term::print`, `/repo/src/chimp/interaction/Term.h` lines 158-187; `none` if an assertion fails
or the species is no index of the list. -/
def Term.print (db : Registry K) (t : Term) : Option (List Char) :=
  if t.species < 0 then none
  else
    match db[t.species.toNat]? with
    | none => none
    | some p =>
      if t.n ≤ 0 ∨ t.n ≠ (t.src.length : ℤ) then none
      else
        let froms := (t.src.filter (0 ≤ ·)).map fun i => (Nat.repr i.toNat).toList
        some ((if t.n > 1 then (Nat.repr t.n.toNat).toList ++ [' '] else []) ++ p.name.toList ++
          (if froms = [] then [] else '[' :: joinWith [','] froms ++ [']']))

/-- `printset::add`, `/repo/src/chimp/interaction/Term.h` lines 93-97: insertion into a set ordered
by mass and name; `none` if the species is no index. -/
def printAdd [LinearOrder K] (db : Registry K) (t : Term) (s : List (Props K × Term)) :
    Option (List (Props K × Term)) :=
  if t.species < 0 then none
  else
    match db[t.species.toNat]? with
    | none => none
    | some p => some (ins p s)
where
  /-- `std::set::insert` -/
  ins (p : Props K) : List (Props K × Term) → List (Props K × Term)
    | [] => [(p, t)]
    | (q, u) :: l =>
      if p.lt q then (p, t) :: (q, u) :: l
      else if q.lt p then (q, u) :: ins p l
      else (q, u) :: l

/-- Adding all terms, `/repo/src/chimp/interaction/Term.h` lines 198-200. -/
def printAddAll [LinearOrder K] (db : Registry K) :
    List Term → List (Props K × Term) → Option (List (Props K × Term))
  | [], s => some s
  | t :: ts, s =>
    match printAdd db t s with
    | none => none
    | some s' => printAddAll db ts s'

/-- `printset::print`, `/repo/src/chimp/interaction/Term.h` lines 99-109, after `add`. -/
def printTerms [LinearOrder K] (db : Registry K) (ts : List Term) : Option (List Char) :=
  match printAddAll db ts [] with
  | none => none
  | some s => (s.mapM fun e : Props K × Term => e.2.print db).map (joinWith " + ".toList)

/-- `Input::print`, `/repo/src/chimp/interaction/Input.h` lines 73-88. -/
def inputPrint [LinearOrder K] (db : Registry K) (A B : Term) : Option (List Char) :=
  if A.species = B.species then printTerms db [Term.many A.species 2]
  else printTerms db [A, B]

/-- `Equation::print`, `/repo/src/chimp/interaction/Equation.cpp` lines 39-46. -/
def LEq.print [LinearOrder K] (db : Registry K) (e : LEq) : Option (List Char) :=
  match inputPrint db e.A e.B, printTerms db e.products with
  | some a, some b => some (a ++ "  -->  ".toList ++ b)
  | _, _ => none

end Chimp
