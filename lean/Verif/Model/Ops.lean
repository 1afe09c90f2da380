import Verif.Model.Filter
import Verif.Model.Kinematics

/-!
# Expressions written with products (`ops`)

Models `InElasticExpressions` and `Process`,
`/repo/src/chimp/interaction/model/detail/inelastic_helpers.h` lines 199-408 and 506-545: the functions
that may be called from expressions, with the static object through which they reach the target, the
reactants, the database and the scratch space.

The calculator itself is not part of the repository.  Its expressions are trees here; what it does apart
from the helpers is an arbitrary partial function of the values of the arguments.  Arguments are
evaluated from left to right, before the call.  `Quantity` is an arbitrary type with its conversions.
An exception ends the evaluation; what it leaves in memory is not modelled.
-/

namespace Chimp

variable {S W Q : Type}

/-- Conversions of `runtime::physical::Quantity`: from a number, `getCoeff<double>`, and `getCoeff<int>` (or
to the enumeration). -/
structure QLib (Q : Type) where
  ofReal : ℝ → Q
  coeff : Q → ℝ
  toInt : Q → ℤ

/-- The accessors `weight` and `setWeight` of a particle, `/repo/src/chimp/accessors.h` lines 105-121.  The
last weight set is the one that counts. -/
structure WeightAcc (W : Type) where
  get : W → ℝ
  set : W → ℝ → W
  set_set : ∀ w a b, set (set w a) b = set w b

/-- An expression. -/
inductive OExpr (Q : Type) where
  | num (x : ℝ)
  /-- one of the names `X`, …, `SPECIES_CHARGE` -/
  | item (name : String)
  /-- arithmetic and functions of the calculator -/
  | prim (f : List Q → Option Q) (args : List (OExpr Q))
  | P (n it : OExpr Q)
  | CM (i : OExpr Q)
  | CQ (i : OExpr Q)
  | setPosition (args : List (OExpr Q))
  | setVelocity (args : List (OExpr Q))
  | setWeight (w : OExpr Q)

/-- Why an evaluation fails. -/
inductive OpsErr where
  /-- `symbol_error` -/
  | symbol
  /-- an error of the calculator -/
  | calculator
  /-- a position that is not finite (infinity and not-a-number are not followed further) -/
  | nonfinite
  /-- undefined behaviour -/
  | ub
deriving DecidableEq

/-- `VALUE_TYPE`, `/repo/src/chimp/interaction/model/detail/inelastic_helpers.h` lines 205-212, under the
names of lines 395-402. -/
def opsItems : List (String × ℕ) :=
  [("X", 0), ("Y", 1), ("Z", 2), ("VX", 3), ("VY", 4), ("VZ", 5), ("WEIGHT", 6), ("SPECIES_CHARGE", 7)]

/-- The static object `InElasticExpressions::instance()`, same file lines 217-235: pointers, `none` for
`NULL`.  The target is given by its place in the vector of products; the reactants by their values, which
nothing changes during an evaluation; the database by the charges of its species (`none` past its
end). -/
structure OpsStuff (W : Type) where
  target : Option ℕ
  p0 : Option (Part W)
  p1 : Option (Part W)
  charge : Option (ℤ → Option ℝ)
  scratch : Option Scratch

/-- The object when the program starts, same file lines 226-227. -/
def OpsStuff.null : OpsStuff W := ⟨none, none, none, none, none⟩

/-- Three arguments as a vector, as in `QsetVelocity` and `QsetPosition`, same file lines 237-265. -/
def threeCoeffs (ql : QLib Q) : List Q → Option Vec
  | [a, b, c] => some ⟨ql.coeff a, ql.coeff b, ql.coeff c⟩
  | _ => none

/-- `QsetVelocity`, same file lines 237-249. -/
def opsSetVelocity (ql : QLib Q) (st : OpsStuff W) (vs : List Q) (mem : List (Part W)) :
    Except OpsErr (Q × List (Part W)) :=
  match threeCoeffs ql vs, st.target with
  | some v, some k => .ok (ql.ofReal 1, mem.modify k fun r => { r with vel := v })
  | _, _ => .error .symbol

/-- `QsetPosition`, same file lines 251-265. -/
def opsSetPosition (ql : QLib Q) (st : OpsStuff W) (vs : List Q) (mem : List (Part W)) :
    Except OpsErr (Q × List (Part W)) :=
  match threeCoeffs ql vs, st.target with
  | some x, some k => .ok (ql.ofReal 1, mem.modify k fun r => { r with pos := x })
  | _, _ => .error .symbol

/-- `QsetWeight`, same file lines 267-276. -/
def opsSetWeight (ql : QLib Q) (wa : WeightAcc W) (st : OpsStuff W) (v : Q) (mem : List (Part W)) :
    Except OpsErr (Q × List (Part W)) :=
  match st.target with
  | some k => .ok (ql.ofReal 1, mem.modify k fun r => { r with rest := wa.set r.rest (ql.coeff v) })
  | none => .error .symbol

/-- `QP`, same file lines 278-330. -/
def opsP (ql : QLib Q) (wa : WeightAcc W) (st : OpsStuff W) (n item : Q) : Except OpsErr Q :=
  let sel : Except OpsErr (Option (Part W)) :=
    if ql.toInt n = 0 then .ok st.p0 else if ql.toInt n = 1 then .ok st.p1 else .error .symbol
  match sel with
  | .error e => .error e
  | .ok none => .error .symbol
  | .ok (some p) =>
    match ql.toInt item with
    | 0 => .ok (ql.ofReal p.pos.x)
    | 1 => .ok (ql.ofReal p.pos.y)
    | 2 => .ok (ql.ofReal p.pos.z)
    | 3 => .ok (ql.ofReal p.vel.x)
    | 4 => .ok (ql.ofReal p.vel.y)
    | 5 => .ok (ql.ofReal p.vel.z)
    | 6 => .ok (ql.ofReal (wa.get p.rest))
    | 7 =>
      match st.charge with
      | none => .error .ub
      | some ch =>
        match ch p.species with
        | some c => .ok (ql.ofReal c)
        | none => .error .ub
    | _ => .error .symbol

/-- The component of a centre, same file lines 339-350 and 361-372. -/
def opsComponent (ql : QLib Q) (i : Q) (c : Vec) : Except OpsErr Q :=
  match ql.toInt i with
  | 0 => .ok (ql.ofReal c.x)
  | 1 => .ok (ql.ofReal c.y)
  | 2 => .ok (ql.ofReal c.z)
  | _ => .error .symbol

/-- `QCM`, same file lines 332-351. -/
def opsCM (ql : QLib Q) (st : OpsStuff W) (i : Q) : Except OpsErr Q :=
  match st.scratch with
  | none => .error .symbol
  | some sc => opsComponent ql i sc.cm

/-- `QCQ`, same file lines 354-373. -/
def opsCQ (ql : QLib Q) (st : OpsStuff W) (i : Q) : Except OpsErr Q :=
  match st.scratch with
  | none => .error .symbol
  | some sc =>
    match sc.cq with
    | none => .error .nonfinite
    | some c => opsComponent ql i c

mutual

/-- Evaluation of an expression: its value, and the products afterwards. -/
def OExpr.eval (ql : QLib Q) (wa : WeightAcc W) (st : OpsStuff W) :
    OExpr Q → List (Part W) → Except OpsErr (Q × List (Part W))
  | .num x, mem => .ok (ql.ofReal x, mem)
  | .item name, mem =>
    match opsItems.lookup name with
    | some k => .ok (ql.ofReal k, mem)
    | none => .error .symbol
  | .prim f args, mem =>
    match OExpr.evalAll ql wa st args mem with
    | .error e => .error e
    | .ok (vs, mem') =>
      match f vs with
      | some v => .ok (v, mem')
      | none => .error .calculator
  | .P n it, mem =>
    match OExpr.eval ql wa st n mem with
    | .error e => .error e
    | .ok (vn, m1) =>
      match OExpr.eval ql wa st it m1 with
      | .error e => .error e
      | .ok (vi, m2) => (opsP ql wa st vn vi).map fun v => (v, m2)
  | .CM i, mem =>
    match OExpr.eval ql wa st i mem with
    | .error e => .error e
    | .ok (v, m1) => (opsCM ql st v).map fun v => (v, m1)
  | .CQ i, mem =>
    match OExpr.eval ql wa st i mem with
    | .error e => .error e
    | .ok (v, m1) => (opsCQ ql st v).map fun v => (v, m1)
  | .setPosition args, mem =>
    match OExpr.evalAll ql wa st args mem with
    | .error e => .error e
    | .ok (vs, m1) => opsSetPosition ql st vs m1
  | .setVelocity args, mem =>
    match OExpr.evalAll ql wa st args mem with
    | .error e => .error e
    | .ok (vs, m1) => opsSetVelocity ql st vs m1
  | .setWeight w, mem =>
    match OExpr.eval ql wa st w mem with
    | .error e => .error e
    | .ok (v, m1) => opsSetWeight ql wa st v m1

/-- Evaluation of expressions in order. -/
def OExpr.evalAll (ql : QLib Q) (wa : WeightAcc W) (st : OpsStuff W) :
    List (OExpr Q) → List (Part W) → Except OpsErr (List Q × List (Part W))
  | [], mem => .ok ([], mem)
  | e :: es, mem =>
    match OExpr.eval ql wa st e mem with
    | .error x => .error x
    | .ok (v, m1) =>
      match OExpr.evalAll ql wa st es m1 with
      | .error x => .error x
      | .ok (vs, m2) => .ok (v :: vs, m2)

end

/-- `Process<true>::operator()`, same file lines 512-534, on the product at place `k`: the static object is set
first, whatever it was, and stays set. -/
def opsProcess (ql : QLib Q) (wa : WeightAcc W) (charge : ℤ → Option ℝ) (es : List (OExpr Q)) (k : ℕ)
    (p q : Part W) (sc : Scratch) (_st : OpsStuff W) (mem : List (Part W)) :
    Except OpsErr (OpsStuff W × List (Part W)) :=
  let st : OpsStuff W := ⟨some k, some p, some q, some charge, some sc⟩
  (OExpr.evalAll ql wa st es mem).map fun r => (st, r.2)

/-- `Process` called for the products in order, as at the end of `interact`: `InElastic_2X2.h` lines 214-216,
`InElastic_2X3.h` lines 254-257.  `base` is the number of products that were in the vector before. -/
def opsProcessAll (ql : QLib Q) (wa : WeightAcc W) (charge : ℤ → Option ℝ) (p q : Part W) (sc : Scratch) :
    List (List (OExpr Q)) → ℕ → OpsStuff W → List (Part W) → Except OpsErr (OpsStuff W × List (Part W))
  | [], _, st, mem => .ok (st, mem)
  | es :: ess, base, st, mem =>
    match opsProcess ql wa charge es base p q sc st mem with
    | .error e => .error e
    | .ok (st', mem') => opsProcessAll ql wa charge p q sc ess (base + 1) st' mem'

mutual

/-- The function is called somewhere in the expression. -/
def OExpr.calls (f : String) : OExpr Q → Bool
  | .num _ => false
  | .item _ => false
  | .prim _ args => OExpr.callsAny f args
  | .P n it => f == "P" || OExpr.calls f n || OExpr.calls f it
  | .CM i => f == "CM" || OExpr.calls f i
  | .CQ i => f == "CQ" || OExpr.calls f i
  | .setPosition args => f == "setPosition" || OExpr.callsAny f args
  | .setVelocity args => f == "setVelocity" || OExpr.callsAny f args
  | .setWeight w => f == "setWeight" || OExpr.calls f w

/-- The function is called in one of the expressions. -/
def OExpr.callsAny (f : String) : List (OExpr Q) → Bool
  | [] => false
  | e :: es => OExpr.calls f e || OExpr.callsAny f es

end

/-- `hasToken`, same file lines 486-497: the text that the calculator prints for all the expressions
contains the token.  How the calculator prints an expression is not part of the repository. -/
def hasToken (print : OExpr Q → String) (token : String) (ess : List (List (OExpr Q))) : Bool :=
  containsChars token.toList (ess.flatMap fun es => es.flatMap fun e => (print e).toList)

/-- The expressions of the products, same file lines 456-471: none for an empty text. -/
def opsExpressions (parse : String → List (OExpr Q)) (os : List String) : List (List (OExpr Q)) :=
  os.map fun o => if o = "" then [] else parse o

/-- The compiler of `ops` texts that `newLoad` takes, made from a parser and a printer: the functions it gives
run the expressions on a vector with one product; the centres are computed if the tokens `CM()` and `CQ()`
are found (`/repo/src/chimp/interaction/model/InElastic.h` lines 99-101).  A product whose expressions fail is
left as it is; the theorems about it say when they do not. -/
def opsCompiler (ql : QLib Q) (wa : WeightAcc W) (charge : ℤ → Option ℝ) (parse : String → List (OExpr Q))
    (print : OExpr Q → String) : OpsCompiler W where
  compile o := fun r p q sc =>
    match opsProcess ql wa charge (parse o) 0 p q sc .null [r] with
    | .ok (_, [r']) => (r'.pos, r'.vel, r'.rest)
    | _ => (r.pos, r.vel, r.rest)
  usesCM os := hasToken print "CM()" (opsExpressions parse os)
  usesCQ os := hasToken print "CQ()" (opsExpressions parse os)

end Chimp
