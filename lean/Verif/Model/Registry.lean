import Mathlib.Data.String.Basic
import Mathlib.Data.List.Sort

/-!
# Species registry

Models the species list of `RuntimeDB` (`/repo/src/chimp/RuntimeDB.cpp`) and the species
comparator (`/repo/src/chimp/property/Comparator.h`).

Simplifications: a species carries a name, a mass and a charge (the other properties, size and
polarizability, are never read by the modelled code); masses are elements of an arbitrary linear
order `K` instead of `double` (so NaN is excluded).  `std::string` comparison is the
lexicographic order of `String`.
-/

namespace Chimp

/-- Properties of one species.  `/repo/src/chimp/property/{name,mass,charge}.h`, aggregated by
`/repo/src/chimp/property/aggregate.h`; `size` and `polarizability` are left out because no modelled
function reads them. -/
structure Props (K : Type) where
  name : String
  mass : K
  charge : K
deriving DecidableEq

/-- `property::Comparator::operator()`, `/repo/src/chimp/property/Comparator.h` lines 38-43.  The same
test is `PropertyPtrComparator` (`/repo/src/chimp/interaction/detail/sort_terms.h` lines 36-45, which
calls this one) and `Term::printset::name_mass::operator<`
(`/repo/src/chimp/interaction/Term.h` lines 66-70). -/
def Props.lt {K : Type} [LinearOrder K] (a b : Props K) : Bool :=
  decide (a.mass < b.mass) || (decide (a.mass = b.mass) && decide (a.name < b.name))

/-- The species list, `RuntimeDB::props`. -/
abbrev Registry (K : Type) := List (Props K)

variable {K : Type}

/-- `RuntimeDB::findParticle`, `/repo/src/chimp/RuntimeDB.cpp` lines 192-219: position of the first entry
with that name, the length of the list standing for `props.end()`. -/
def findParticle : Registry K → String → ℕ
  | [], _ => 0
  | p :: ps, n => if n = p.name then 0 else findParticle ps n + 1

/-- `RuntimeDB::findParticleIndx`, `/repo/src/chimp/RuntimeDB.cpp` lines 222-229. -/
def findParticleIndx (r : Registry K) (n : String) : ℤ :=
  if findParticle r n = r.length then -1 else (findParticle r n : ℤ)

/-- `RuntimeDB::addParticleType(const Properties &)`, `/repo/src/chimp/RuntimeDB.cpp` lines 254-268.
The warning is not modelled. -/
def addParticleType (r : Registry K) (p : Props K) : Registry K :=
  if findParticle r p.name ≠ r.length then r else r ++ [p]

/-- `RuntimeDB::addParticleType(Iter, Iter)`, `/repo/src/chimp/RuntimeDB.cpp` lines 240-245. -/
def addParticleTypes (r : Registry K) (ps : List (Props K)) : Registry K :=
  ps.foldl addParticleType r

/-- `RuntimeDB::addParticleType(const std::string &)`, `/repo/src/chimp/RuntimeDB.cpp` lines 232-237,
with `Properties::load` already applied to the `Particle` elements of the document.  `xml find`
throws unless exactly one element matches.  A name with a quote character would change the XPath
expression; that is not modelled. -/
def addParticleByName (doc : List (Props K)) (r : Registry K) (n : String) :
    Except String (Registry K) :=
  match doc.filter (fun p => p.name = n) with
  | [p] => .ok (addParticleType r p)
  | [] => .error "no_results"
  | _ => .error "too_many_results"

/-- `RuntimeDB::operator[](const std::string &)`, `/repo/src/chimp/RuntimeDB.cpp` lines 288-307. -/
def lookupName (r : Registry K) (n : String) : Except String (Props K) :=
  match r[findParticle r n]? with
  | none => .error ("particle species not loaded: '" ++ n ++ "'")
  | some p => .ok p

/-- `std::sort(props.begin(), props.end(), property::Comparator())`,
`/repo/src/chimp/RuntimeDB.cpp` line 140.  Any sorting algorithm with this comparator gives the same
result on a list with distinct names (theorem `C03_sort_unique`), so insertion sort stands for
`std::sort`. -/
def sortProps [LinearOrder K] (r : Registry K) : Registry K :=
  r.insertionSort (fun a b => b.lt a = false)

/-- The operations that change the species list: adding a species, and
`initBinaryInteractions`, which sorts it (`/repo/src/chimp/RuntimeDB.cpp` lines 137-140). -/
inductive RegOp (K : Type) where
  | add (p : Props K)
  | init

/-- Effect of one operation on the species list. -/
def RegOp.apply [LinearOrder K] (r : Registry K) : RegOp K → Registry K
  | .add p => addParticleType r p
  | .init => sortProps r

/-- The species list after a history of operations on a fresh `RuntimeDB`. -/
def runReg [LinearOrder K] (h : List (RegOp K)) : Registry K :=
  h.foldl RegOp.apply []

/-- The side-`n` table of interaction sets: `RuntimeDB::InteractionTable`,
`/repo/src/chimp/RuntimeDB.h` lines 157-160, an `upper_triangle` with `SymmetryFix`.  By the contract of
that (external) container a cell is addressed by an unordered pair of indices below the side
length; any other access is undefined (`none`). -/
structure UTable (α : Type) where
  side : ℕ
  cell : ℕ → ℕ → α

/-- `RuntimeDB::operator()(int,int)`, `/repo/src/chimp/RuntimeDB.cpp` lines 310-321. -/
def UTable.get? {α : Type} (t : UTable α) (i j : ℕ) : Option α :=
  if i < t.side ∧ j < t.side then some (t.cell (min i j) (max i j)) else none

/-- Writing through the reference returned by `interactions(i,j)`. -/
def UTable.modify {α : Type} (t : UTable α) (i j : ℕ) (f : α → α) : UTable α :=
  { t with cell := fun a b =>
      if a = min i j ∧ b = max i j then f (t.cell a b) else t.cell a b }

/-- `RuntimeDB::operator()(string,string)`, `/repo/src/chimp/RuntimeDB.cpp` lines 324-351.  The outer
`Except` is the exception, the inner `Option` is `none` if the index pair is outside the table
(undefined in C++, e.g. before initialisation). -/
def lookupPair {α : Type} (r : Registry K) (t : UTable α) (n m : String) :
    Except String (Option α) :=
  let i := findParticleIndx r n
  let j := findParticleIndx r m
  if i = -1 then .error ("particle species not loaded: '" ++ n ++ "'")
  else if j = -1 then .error ("particle species not loaded: '" ++ m ++ "'")
  else .ok (t.get? i.toNat j.toNat)

end Chimp
