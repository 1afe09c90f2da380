import Verif.Model.Session

/-!
# Writing through the references that a `RuntimeDB` returns

The access operators of `RuntimeDB` that are not `const` (`/repo/src/chimp/RuntimeDB.h` lines 282-331) return references
into the species list and into the table of interactions.  A program may assign to what they refer to.  A step of such
a program is a call of `Model/Session.lean` or a write.

Simplifications: a write is any function of the value that is referred to.  Steps happen one after the other, so the
case of a reference that is kept while the species list or the table is reallocated is left out.  The members of `Set` and
`Equation` are those of `WSet` and `WEq`.  If a write makes two species equal in mass and in name then `std::sort` may
leave them in either order; insertion sort stands for it here and no theorem about `init` speaks about that order.
-/

namespace Chimp

variable {W : Type}

/-- A step of a program that uses a database. -/
inductive Use (W : Type) where
  | call (c : Call)
  /-- `db[i] = ...`, `/repo/src/chimp/RuntimeDB.h` line 287 -/
  | species (i : ℤ) (f : Props ℝ → Props ℝ)
  /-- `db["n"] = ...`, `/repo/src/chimp/RuntimeDB.cpp` lines 299-307 -/
  | speciesNamed (n : String) (f : Props ℝ → Props ℝ)
  /-- `*db.findParticle("n") = ...`, `/repo/src/chimp/RuntimeDB.cpp` lines 207-219 -/
  | speciesFound (n : String) (f : Props ℝ → Props ℝ)
  /-- `db(i,j) = ...`, `/repo/src/chimp/RuntimeDB.cpp` lines 317-321 -/
  | set (i j : ℤ) (f : WSet W → WSet W)
  /-- `db("n","m") = ...`, `/repo/src/chimp/RuntimeDB.cpp` lines 338-351 -/
  | setNamed (n m : String) (f : WSet W → WSet W)

/-- What a step throws. -/
inductive UseErr where
  | call (e : SErr)
  /-- `std::runtime_error` of the access operators -/
  | notLoaded (text : String)

/-- `"particle species not loaded: '" + n + '\''`, `/repo/src/chimp/RuntimeDB.cpp` line 305. -/
def notLoadedText (n : String) : String := "particle species not loaded: '" ++ n ++ "'"

/-- A vector or a table is read out of range. -/
def SErr.isUndefined : SErr → Bool
  | .load .ub => true
  | .create .ub => true
  | .complete .ub => true
  | _ => false

/-- Assigning to `props[i]`; `none` if there is no such element (undefined in C++). -/
def Session.writeSpecies (s : Session W) (i : ℤ) (f : Props ℝ → Props ℝ) : Option (Session W) :=
  if 0 ≤ i ∧ i < s.props.length then some { s with props := s.props.modify i.toNat f } else none

/-- Assigning to `interactions(i,j)`; `none` if there is no such entry (undefined in C++). -/
def Session.writeSet (s : Session W) (i j : ℤ) (f : WSet W → WSet W) : Option (Session W) :=
  if (0 ≤ i ∧ i < s.table.side) ∧ 0 ≤ j ∧ j < s.table.side then
    some { s with table := s.table.modify i.toNat j.toNat f }
  else none

/-- The effect of a step and what it returns or throws; `none` if its behaviour is undefined. -/
noncomputable def Use.run (T : Tools W) (auto : Bool) (u : Use W) (s : Session W) : Option (Session W × Except UseErr ℕ) :=
  match u with
  | .call c =>
    match c.run T auto s with
    | (s', .ok n) => some (s', .ok n)
    | (s', .error e) => if e.isUndefined then none else some (s', .error (.call e))
  | .species i f => (s.writeSpecies i f).map fun s' => (s', .ok 0)
  | .speciesNamed n f =>
    if findParticle s.props n = s.props.length then some (s, .error (.notLoaded (notLoadedText n)))
    else (s.writeSpecies (findParticle s.props n) f).map fun s' => (s', .ok 0)
  | .speciesFound n f => (s.writeSpecies (findParticle s.props n) f).map fun s' => (s', .ok 0)
  | .set i j f => (s.writeSet i j f).map fun s' => (s', .ok 0)
  | .setNamed n m f =>
    let i := findParticleIndx s.props n
    let j := findParticleIndx s.props m
    if i = -1 then some (s, .error (.notLoaded (notLoadedText n)))
    else if j = -1 then some (s, .error (.notLoaded (notLoadedText m)))
    else (s.writeSet i j f).map fun s' => (s', .ok 0)

/-- A history of steps whose exceptions the user catches; `none` once a step is undefined. -/
noncomputable def runUses (T : Tools W) (auto : Bool) : List (Use W) → Session W → Option (Session W)
  | [], s => some s
  | u :: us, s =>
    match u.run T auto s with
    | none => none
    | some r => runUses T auto us r.1

end Chimp
