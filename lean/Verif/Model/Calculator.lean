import Verif.Model.Registry

/-!
# The units calculator, shared by all databases of a program

Models `/repo/src/chimp/physical_calc.cpp`, its uses in `/repo/src/chimp/RuntimeDB.cpp` lines 60-66
and 355-359, and `addInteractionHelpers` and the compilation of `ops` expressions in
`/repo/src/chimp/interaction/model/detail/inelastic_helpers.h` lines 376-405 and 447-470.

`runtime::physical::calc::Driver` is a singleton (`Driver::instance()`), and `added_helpers` is a
static variable of a class template, that is one for each type of database.  Both are state of the
process here, beside the databases.

Of the calculator itself, which is not part of the repository, only the symbol table is explicit; a
command, the value of a text and the compilation of an expression are arbitrary functions of it.
Reading the value of a text is assumed not to change the table.
-/

namespace Chimp

variable {τ V R : Type}

/-- What a symbol of the calculator stands for: one of the helpers for `ops` expressions, for one type
of database (the function pointers and numbers of
`/repo/src/chimp/interaction/model/detail/inelastic_helpers.h` lines 389-402), or something else. -/
inductive CalcSym (τ V : Type) where
  | helper (t : τ) (name : String)
  | other (v : V)

/-- `Driver::symbols`. -/
abbrev CalcSymbols (τ V : Type) := String → Option (CalcSym τ V)

/-- The calculator library: the entries that `addMathLib` and `addPhysicalUnits` write, `exec` (the new
table, and whether it returned rather than threw), the value of a text (with its errors), and the
compilation of an `ops` text (with its errors). -/
structure CalcLib (τ V R : Type) where
  math : CalcSymbols τ V
  units : CalcSymbols τ V
  exec : CalcSymbols τ V → String → CalcSymbols τ V × Bool
  value : CalcSymbols τ V → String → R
  compile : CalcSymbols τ V → String → R

/-- Assignments to entries of the table: those of `a` replace those of `s`. -/
def CalcSymbols.write (s a : CalcSymbols τ V) : CalcSymbols τ V := fun n => (a n).orElse fun _ => s n

/-- The names that `addInteractionHelpers` defines,
`/repo/src/chimp/interaction/model/detail/inelastic_helpers.h` lines 389-402. -/
def helperNames : List String :=
  ["setPosition", "setVelocity", "setWeight", "P", "CM", "CQ", "X", "Y", "Z", "VX", "VY", "VZ", "WEIGHT",
    "SPECIES_CHARGE"]

/-- The entries for these names, same lines. -/
def helperTable (t : τ) : CalcSymbols τ V := fun n => if n ∈ helperNames then some (.helper t n) else none

/-- A document, as far as the calculator is concerned: the texts of its `calc-commands/command`
elements in document order. -/
abbrev CalcDoc := List String

/-- The XPath expression of `execCalcCommands`, `/repo/src/chimp/physical_calc.cpp` lines 53-56; `none`
is the access before the first character of an empty string. -/
def commandsXPath (sec : String) : Option String :=
  match sec.toList.getLast? with
  | none => none
  | some c => some ((if c != '/' then sec ++ "/" else sec) ++ "calc-commands/command")

/-- The loop of `execCalcCommands`, same file lines 57-62: the table afterwards, and whether all commands
returned.  An exception ends it. -/
def execCalcCommands (lib : CalcLib τ V R) : CalcSymbols τ V → CalcDoc → CalcSymbols τ V × Bool
  | s, [] => (s, true)
  | s, c :: cs =>
    match lib.exec s c with
    | (s', true) => execCalcCommands lib s' cs
    | (s', false) => (s', false)

/-- `prepareCalculator`, same file lines 35-46. -/
def prepareCalculator (lib : CalcLib τ V R) (_old : CalcSymbols τ V) (doc : CalcDoc) : CalcSymbols τ V × Bool :=
  let cleared : CalcSymbols τ V := fun _ => none
  execCalcCommands lib ((cleared.write lib.math).write lib.units) doc

/-- The part of the state of the process that is concerned: the table of the calculator, the static
`added_helpers` of each type of database, and the types of the databases that exist. -/
structure CalcProc (τ V : Type) where
  symbols : CalcSymbols τ V
  added : τ → Bool
  dbs : ℕ → Option τ

/-- Calls in a program with several databases. -/
inductive CalcCall (τ : Type) where
  /-- constructor of database `k` of type `t` -/
  | construct (k : ℕ) (t : τ) (doc : CalcDoc)
  /-- `addXMLData` on database `k` -/
  | addXML (k : ℕ) (doc : CalcDoc)
  /-- database `k` reads a value (a property, a cross section, …) -/
  | value (k : ℕ) (text : String)
  /-- database `k` loads a product with this nonempty `ops` text -/
  | ops (k : ℕ) (text : String)
deriving DecidableEq

/-- What a call gives back. -/
inductive CalcOut (R : Type) where
  | done
  /-- an exception of a command -/
  | threw
  | result (r : R)
  /-- the call is on a database that does not exist: no program makes it -/
  | absent

/-- `addInteractionHelpers`, `/repo/src/chimp/interaction/model/detail/inelastic_helpers.h` lines
376-405. -/
def addInteractionHelpers [DecidableEq τ] (t : τ) (p : CalcProc τ V) : CalcProc τ V :=
  if p.added t then p
  else
    { p with symbols := p.symbols.write (helperTable t), added := fun u => if u = t then true else p.added u }

/-- One call.  The constructor is `/repo/src/chimp/RuntimeDB.cpp` lines 60-66 (if a command throws the
object does not come into being); `addXMLData` lines 355-359; `ops`
`/repo/src/chimp/interaction/model/detail/inelastic_helpers.h` lines 453-470. -/
def CalcProc.step [DecidableEq τ] (lib : CalcLib τ V R) (p : CalcProc τ V) : CalcCall τ → CalcProc τ V × CalcOut R
  | .construct k t doc =>
    let r := prepareCalculator lib p.symbols doc
    ({ p with symbols := r.1, dbs := fun j => if j = k then (if r.2 then some t else none) else p.dbs j },
      if r.2 then .done else .threw)
  | .addXML k doc =>
    match p.dbs k with
    | none => (p, .absent)
    | some _ =>
      let r := execCalcCommands lib p.symbols doc
      ({ p with symbols := r.1 }, if r.2 then .done else .threw)
  | .value k text =>
    match p.dbs k with
    | none => (p, .absent)
    | some _ => (p, .result (lib.value p.symbols text))
  | .ops k text =>
    match p.dbs k with
    | none => (p, .absent)
    | some t =>
      let p' := addInteractionHelpers t p
      (p', .result (lib.compile p'.symbols text))

/-- A sequence of calls, with what each gave. -/
def CalcProc.run [DecidableEq τ] (lib : CalcLib τ V R) : CalcProc τ V → List (CalcCall τ) →
    CalcProc τ V × List (CalcOut R)
  | p, [] => (p, [])
  | p, c :: cs =>
    let r := p.step lib c
    let q := CalcProc.run lib r.1 cs
    (q.1, r.2 :: q.2)

/-- The process when it starts. -/
def CalcProc.initial : CalcProc τ V := ⟨fun _ => none, fun _ => false, fun _ => none⟩

end Chimp
