import Verif.Model.Session
import Verif.Model.Writer

/-!
# The XPath queries of the library

The library selects interactions with XPath expressions that it puts together as text
(`/repo/src/chimp/interaction/filter/EqIO.h`, `Elastic.h`, `Label.h`, `Section.h`, `/repo/src/chimp/RuntimeDB.cpp`).  Here is
the part of XPath 1.0 that they use: its syntax, the text of an expression, and the nodes it selects in a tree of elements
and text.

A node is named by the positions of the children that lead to it from the root element; that is also the document order.
`number` stands for the conversion of text to a number (`none` is NaN).

Simplified: node sets are lists, in which a node may be repeated when a path leads up (only membership is used then); the
document node above the root element is left out.
-/

namespace Chimp

/-! ### Syntax -/

/-- Predicates.  A path inside of a predicate is a list of names of children. -/
inductive XPred where
  /-- `count(a/b) = k` -/
  | count (p : List String) (k : ℕ)
  /-- `string(a/b)='s'` -/
  | str (p : List String) (s : String)
  /-- `string(a) = string(b)` -/
  | same (p q : List String)
  /-- `number(a)=n` -/
  | num (p : List String) (n : ℤ)
  /-- `@a='s'` -/
  | attr (a s : String)
  /-- `contains('txt', concat(':',text(),':'))`, with blanks in front -/
  | listed (blanks : ℕ) (txt : String)
  | and (a b : XPred)
  | or (a b : XPred)
  | not (a : XPred)
  /-- `a/b[q]` -/
  | has (p : List String) (q : XPred)

/-- Location steps. -/
inductive XStep where
  /-- `t[..][..]` -/
  | child (t : String) (ps : List XPred)
  /-- `..` -/
  | parent
  /-- `self::node()[..]` -/
  | self (ps : List XPred)

/-! ### Text -/

/-- `a/b` -/
def slashes : List String → String
  | [] => ""
  | [s] => s
  | s :: t :: p => s ++ "/" ++ slashes (t :: p)

def XPred.print : XPred → String
  | .count p k => "count(" ++ slashes p ++ ") = " ++ Nat.repr k
  | .str p s => "string(" ++ slashes p ++ ")='" ++ s ++ "'"
  | .same p q => "string(" ++ slashes p ++ ") = string(" ++ slashes q ++ ")"
  | .num p n => "number(" ++ slashes p ++ ")=" ++ Nat.repr n.toNat
  | .attr a s => "@" ++ a ++ "='" ++ s ++ "'"
  | .listed n txt => String.ofList (List.replicate n ' ') ++ "contains('" ++ txt ++ "', concat(':',text(),':'))"
  | .and a b => a.print ++ " and " ++ b.print
  | .or a b => "(" ++ a.print ++ " or " ++ b.print ++ ")"
  | .not a => "not(" ++ a.print ++ ")"
  | .has p q => slashes p ++ "[" ++ q.print ++ "]"

/-- Predicates behind a step. -/
def printPreds : List XPred → String
  | [] => ""
  | p :: ps => "[" ++ p.print ++ "]" ++ printPreds ps

def XStep.print : XStep → String
  | .child t ps => t ++ printPreds ps
  | .parent => ".."
  | .self ps => "self::node()" ++ printPreds ps

/-- A relative location path. -/
def printPath : List XStep → String
  | [] => ""
  | [s] => s.print
  | s :: t :: l => s.print ++ "/" ++ printPath (t :: l)

/-! ### Nodes -/

/-- The node at a position. -/
def Xml.get : Xml → List ℕ → Option Xml
  | x, [] => some x
  | .text _, _ :: _ => none
  | .elem _ _ ks, i :: a =>
    match ks[i]? with
    | none => none
    | some k => k.get a

mutual
/-- The positions of all nodes, in document order. -/
def Xml.addrs : Xml → List (List ℕ)
  | .text _ => [[]]
  | .elem _ _ ks => [] :: Xml.addrsFrom 0 ks
/-- The same for the children from position `i` on. -/
def Xml.addrsFrom : ℕ → List Xml → List (List ℕ)
  | _, [] => []
  | i, k :: ks => k.addrs.map (i :: ·) ++ Xml.addrsFrom (i + 1) ks
end

/-- The nodes that a path of names leads to. -/
def Xml.along : List String → Xml → List Xml
  | [], x => [x]
  | t :: p, x => (x.named t).flatMap (Xml.along p)

/-- `string()` of a node set: of the first node, empty if there is none. -/
def stringOf : List Xml → List Char
  | [] => []
  | x :: _ => x.str

/-- `text()`: the text nodes among the children. -/
def Xml.texts : Xml → List Xml
  | .text _ => []
  | .elem _ _ ks => ks.filter fun k => match k with | .text _ => true | .elem _ _ _ => false

/-- Whether a predicate holds for a node. -/
def XPred.holds (number : List Char → Option ℝ) : XPred → Xml → Prop
  | .count p k, x => (x.along p).length = k
  | .str p s, x => stringOf (x.along p) = s.toList
  | .same p q, x => stringOf (x.along p) = stringOf (x.along q)
  | .num p n, x => number (stringOf (x.along p)) = some (n : ℝ)
  | .attr a s, x => x.attr a = some s
  | .listed _ txt, x => containsChars (':' :: (stringOf x.texts ++ [':'])) txt.toList = true
  | .and a b, x => a.holds number x ∧ b.holds number x
  | .or a b, x => a.holds number x ∨ b.holds number x
  | .not a, x => ¬ a.holds number x
  | .has p q, x => ∃ y ∈ x.along p, q.holds number y

open Classical in
/-- The nodes that a step leads to. -/
noncomputable def XStep.run (number : List Char → Option ℝ) (root : Xml) : XStep → List ℕ → List (List ℕ)
  | .child t ps, a =>
    match root.get a with
    | some (.elem _ _ ks) => ((List.range ks.length).filter fun i =>
        ∃ y, ks[i]? = some y ∧ y.hasTag t = true ∧ ∀ p ∈ ps, p.holds number y).map fun i => a ++ [i]
    | _ => []
  | .parent, a => if a = [] then [] else [a.dropLast]
  | .self ps, a => if ∃ x, root.get a = some x ∧ ∀ p ∈ ps, p.holds number x then [a] else []

/-- The nodes that a path leads to. -/
noncomputable def runPath (number : List Char → Option ℝ) (root : Xml) : List XStep → List ℕ → List (List ℕ)
  | [], a => [a]
  | s :: p, a => (s.run number root a).flatMap (runPath number root p)

/-- `//t`: all elements of this name. -/
def Xml.everywhere (root : Xml) (t : String) : List (List ℕ) :=
  root.addrs.filter fun a => match root.get a with
    | some x => x.hasTag t
    | none => false

/-! ### The queries -/

/-- The predicate for one term, `/repo/src/chimp/interaction/filter/EqIO.h` lines 106-114. -/
def termPred (t : EqTerm) : XPred :=
  if t.n = 1 then .and (.str ["P"] t.name) (.or (.num ["n"] 1) (.str ["n"] ""))
  else if t.n > 1 then .and (.str ["P"] t.name) (.num ["n"] t.n)
  else .str ["P"] t.name

/-- The steps of `getXpathQuery`, `/repo/src/chimp/interaction/filter/EqIO.h` lines 90-120, for a set that is not empty;
`side` is `In` or `Out`. -/
def sidePath (side : String) (terms : List EqTerm) : List XStep :=
  [.child "Eq" [.count [side, "T"] terms.length], .child side []] ++
    (terms.filter fun t => t.n ≠ 0).flatMap (fun t => [.child "T" [termPred t], .parent]) ++ [.parent, .parent]

/-- The text that `getXpathQuery` writes, `/repo/src/chimp/interaction/filter/EqIO.h` lines 90-120. -/
def sideQuery (side : String) (terms : List EqTerm) : String :=
  if terms.length = 0 then ""
  else "Eq[count(" ++ side ++ "/T) = " ++ Nat.repr terms.length ++ "]/" ++ side ++
    terms.foldr (fun t q =>
      (if t.n = 0 then ""
       else "/T[string(P)='" ++ t.name ++ "'" ++
        (if t.n = 1 then " and (number(n)=1 or string(n)='')]/.."
         else if t.n > 1 then " and number(n)=" ++ Nat.repr t.n.toNat ++ "]/.."
         else "]/..")) ++ q) "" ++
    "/../.."

/-- `Elastic::elastic_predicate`, `/repo/src/chimp/interaction/filter/Elastic.h` lines 64-65. -/
def elasticPath : List XStep := [.child "Eq" [.same ["In"] ["Out"]], .parent]

/-- The query of `Label`, `/repo/src/chimp/interaction/filter/Label.h` line 56. -/
def labelPath (l : String) : List XStep := [.self [.attr "model" l]]

/-- The condition on the products, `/repo/src/chimp/RuntimeDB.cpp` lines 152-157; `txt` is `istr.str()`. -/
def productsPath (txt : String) : List XStep :=
  [.child "Eq" [], .child "Out" [.has ["T", "P"] (.listed 5 txt), .not (.has ["T", "P"] (.not (.listed 1 txt)))],
    .parent, .parent]

/-- The text of it. -/
def productsQuery (txt : String) : String :=
  "Eq/Out[" ++ "T/P[     contains('" ++ txt ++ "', concat(':',text(),':'))]" ++ "][not(" ++
    "T/P[not( contains('" ++ txt ++ "', concat(':',text(),':')))]" ++ ")]/../.."

/-- `Base::filter` asks for `xpath_query + "/Eq"`, `/repo/src/chimp/interaction/filter/Base.h` lines 70-80. -/
def thenEq (p : List XStep) : List XStep := p ++ [.child "Eq" []]

/-- What `findAllLHSRelatedInteractionCtx` asks for, `/repo/src/chimp/RuntimeDB.cpp` lines 123-126:
`//Interaction/cross_section/../` and the two paths. -/
noncomputable def reactantQuery (number : List Char → Option ℝ) (root : Xml) (terms : List EqTerm) (txt : String) :
    List (List ℕ) :=
  (root.everywhere "Interaction").flatMap
    (runPath number root (.child "cross_section" [] :: .parent :: (sidePath "In" terms ++ productsPath txt)))

/-- `/ParticleDB/s//Interaction` for a name `s`, `/repo/src/chimp/interaction/filter/Section.h` lines 105-107: the
interactions below the children `s` of the root element. -/
def sectionNodes (root : Xml) (s : String) : List (List ℕ) :=
  (root.everywhere "Interaction").filter fun a =>
    root.hasTag "ParticleDB" &&
      match a with
      | i :: _ :: _ => (match root.get [i] with | some k => k.hasTag s | none => false)
      | _ => false

/-! ### The document of the other models -/

/-- What the library reads from an `Interaction` element that has one equation with two sides; the model of the cross
section is that of the first one. -/
def xInter (parse : List Char → Option ℤ) (x : Xml) : Option XInter :=
  match readSide parse "In" x, readSide parse "Out" x with
  | some ins, some outs =>
    some { ins, outs, inText := String.ofList (stringOf (x.along ["Eq", "In"])),
           outText := String.ofList (stringOf (x.along ["Eq", "Out"])),
           hasCS := !(x.named "cross_section").isEmpty,
           csModel := ((x.named "cross_section").head?.bind (Xml.attr "model")).getD "",
           modelAttr := x.attr "model" }
  | _, _ => none

/-- The document as `Model/Filter` has it: its `Interaction` elements, in document order, and which of them are in a
section; `none` if one of them cannot be read. -/
def docOf (parse : List Char → Option ℤ) (root : Xml) : Option Doc :=
  match (root.everywhere "Interaction").mapM fun a => (root.get a).bind (xInter parse) with
  | none => none
  | some ns => some ⟨ns, fun s k => match (root.everywhere "Interaction")[k]? with
    | some a => decide (a ∈ sectionNodes root s)
    | none => false⟩

end Chimp
