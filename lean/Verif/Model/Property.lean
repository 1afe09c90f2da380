import Mathlib.Data.Real.Basic

/-!
# Sets of particle properties

`/repo/src/chimp/property/aggregate.h`, `detail/list.h`, `define.h`, `detail/check.h`, `DefaultSet.h`.

The properties of a species are one C++ class that inherits from a class for each property.  The template meta-functions
`Concat` and `Aggregate` compute this class; here they are functions on descriptions of classes.  What the compiler
checks (that a base class is not ambiguous) is a function too.
-/

namespace Chimp

variable {P V N E : Type}

/-- A class of properties: one property, `List<a, Null>` or `List<a, b>`,
`/repo/src/chimp/property/detail/list.h` lines 43-82. -/
inductive PTy (P : Type) where
  | prop (p : P)
  | last (a : PTy P)
  | list (a b : PTy P)
deriving DecidableEq

/-- `Concat< t, Null >`, same file lines 97-99 and 122-125. -/
def PTy.concatNull : PTy P → PTy P
  | .prop p => .last (.prop p)
  | t => t

/-- `Concat< t, u >` for `u` other than `Null`, same file lines 97-120; of the specialisations that match the compiler
takes the most special one.  The one of lines 117-120 is unfolded once. -/
def PTy.concat : PTy P → PTy P → PTy P
  | .last p, .prop q => .list p (.last (.prop q))
  | .list p l, .prop q => .list p (concat l (.last (.prop q)))
  | .last p, u => .list p u
  | .list p l, u => .list p (concat l u)
  | .prop p, u => .list (.prop p) u

/-- `Aggregate< t, ts... >`, `/repo/src/chimp/property/aggregate.h` lines 36-71.  The arguments after the last one
given are `Null`. -/
def aggregate (t : PTy P) : List (PTy P) → PTy P
  | [] => t.concatNull
  | u :: us => t.concat (aggregate u us)

/-- An object of a class of properties. -/
inductive PObj (P V : Type) where
  | prop (p : P) (v : V)
  | last (a : PObj P V)
  | list (a b : PObj P V)

/-- The class of an object. -/
def PObj.ty : PObj P V → PTy P
  | .prop p _ => .prop p
  | .last a => .last a.ty
  | .list a b => .list a.ty b.ty

/-- The default constructor; `d p` is the default value of a property, `/repo/src/chimp/property/define.h` line 64. -/
def PTy.mk' (d : P → V) : PTy P → PObj P V
  | .prop p => .prop p (d p)
  | .last a => .last (a.mk' d)
  | .list a b => .list (a.mk' d) (b.mk' d)

/-- How many subobjects of class `t` an object of class `u` has. -/
def PTy.bases [DecidableEq P] (t : PTy P) : PTy P → ℕ
  | .prop p => if t = .prop p then 1 else 0
  | .last a => (if t = .last a then 1 else 0) + t.bases a
  | .list a b => (if t = .list a b then 1 else 0) + t.bases a + t.bases b

/-- `o.T::operator=(v)` where `T` is the class of `v` and not an ambiguous base. -/
def PObj.put [DecidableEq P] : PObj P V → PObj P V → PObj P V
  | .prop p w, v => if v.ty = .prop p then v else .prop p w
  | .last a, v => if v.ty = .last a.ty then v else .last (a.put v)
  | .list a b, v => if v.ty = .list a.ty b.ty then v else .list (a.put v) (b.put v)

/-- Whether the compiler accepts `List::load`, `/repo/src/chimp/property/detail/list.h` lines 53-61 and 74-81: the
base classes assigned to exist and are not ambiguous. -/
def PTy.loads [DecidableEq P] : PTy P → Bool
  | .prop _ => true
  | .last a => a.loads && (a.bases (.last a) == 1)
  | .list a b => a.loads && (a.bases (.list a b) == 1) && b.loads && (b.bases (.list a b) == 1)

/-- `load`, same lines; `ld p` is that of a property. -/
def PTy.load [DecidableEq P] (d : P → V) (ld : P → N → Except E V) : PTy P → N → Except E (PObj P V)
  | .prop p, x => (ld p x).map (.prop p)
  | .last a, x =>
    match a.load d ld x with
    | .error e => .error e
    | .ok v => .ok (((PTy.last a).mk' d).put v)
  | .list a b, x =>
    match a.load d ld x with
    | .error e => .error e
    | .ok v =>
      match b.load d ld x with
      | .error e => .error e
      | .ok w => .ok ((((PTy.list a b).mk' d).put v).put w)

/-- `print`, same file lines 45-51 and 67-72; `pr p v` is that of a property. -/
def PObj.print (pr : P → V → String → String) (sep : String) : PObj P V → String
  | .prop p v => pr p v sep
  | .last a => a.print pr sep
  | .list a b => a.print pr sep ++ b.print pr sep

/-- `set_properties`, `/repo/src/chimp/property/aggregate.h` lines 408-729. -/
def setProperties [DecidableEq P] (o : PObj P V) (vs : List (PObj P V)) : PObj P V := vs.foldl PObj.put o

/-- Whether the compiler accepts it for an object of class `t` and arguments of classes `ts`. -/
def setsProperties [DecidableEq P] (t : PTy P) (ts : List (PTy P)) : Bool := ts.all fun u => u.bases t == 1

/-- `make_properties`, same file lines 81-400. -/
def makeProperties [DecidableEq P] (d : P → V) (v : PObj P V) (vs : List (PObj P V)) : PObj P V :=
  setProperties ((aggregate v.ty (vs.map PObj.ty)).mk' d) (v :: vs)

/-- Whether the compiler accepts it. -/
def makesProperties [DecidableEq P] (t : PTy P) (ts : List (PTy P)) : Bool := setsProperties (aggregate t ts) (t :: ts)

/-! ### The default set -/

/-- The properties of `DefaultSet`, `/repo/src/chimp/property/DefaultSet.h` lines 68-73. -/
inductive DProp where
  | name | mass | charge | polarizability
deriving DecidableEq

/-- `DefaultSet`, same lines. -/
def defaultSet : PTy DProp :=
  aggregate (.prop .name) [.prop .mass, .prop .charge, .prop .polarizability]

/-- The value of a property. -/
inductive DVal where
  | text (s : String)
  | num (x : ℝ)

/-- What is written at a place in the document: the text, and what it says as a quantity (its value in SI units and
its dimension) if it is one. -/
structure Written (D : Type) where
  text : String
  quantity : Option (ℝ × D)

/-- A `Particle` element: what is found by an XPath query. -/
structure ParticleNode (D : Type) where
  query : String → Option (Written D)

/-- The dimensions asked for. -/
structure Dims (D : Type) where
  mass : D
  charge : D
  polarizability : D

/-- Exceptions while loading properties. -/
inductive PErr where
  | noResults (xpath : String)
  | notAQuantity
  | dimension
deriving DecidableEq

/-- The XPath expressions, `/repo/src/chimp/property/name.h` lines 39-41, `mass.h` line 37, `charge.h` line 37 and
`polarizability.h` lines 55-59. -/
def DProp.xpath : DProp → String
  | .name => "@name"
  | .mass => "mass"
  | .charge => "charge"
  | .polarizability => "polarizability"

/-- The default values, same lines. -/
def DProp.dflt : DProp → DVal
  | .name => .text ""
  | _ => .num 0

/-- `parse_item( check<T, dimension> & )`, `/repo/src/chimp/property/detail/check.h` lines 61-72. -/
def DProp.parse {D : Type} [DecidableEq D] (dims : Dims D) (p : DProp) (w : Written D) : Except PErr DVal :=
  let num (dim : D) : Except PErr DVal :=
    match w.quantity with
    | none => .error .notAQuantity
    | some (x, d) => if d = dim then .ok (.num x) else .error .dimension
  match p with
  | .name => .ok (.text w.text)
  | .mass => num dims.mass
  | .charge => num dims.charge
  | .polarizability => num dims.polarizability

/-- `load` of a property, `/repo/src/chimp/property/define.h` lines 72-80.  Only the name is required. -/
def DProp.load {D : Type} [DecidableEq D] (dims : Dims D) (p : DProp) (x : ParticleNode D) : Except PErr DVal :=
  match x.query p.xpath with
  | some w => p.parse dims w
  | none => if p = .name then .error (.noResults p.xpath) else .ok p.dflt

end Chimp
