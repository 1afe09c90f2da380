import Verif.Model.TreeDB

/-!
# Properties of species read by the Python module

`/repo/python/chimp/property/__init__.py`: the functions that `python/chimp/interaction` sorts equations by.

Simplified: Python's `eval` of a text, in the names of the module `physical`, and `.coeff` of the result are any partial
function on texts.
-/

namespace Chimp

/-- `s.replace('::', '.')` -/
def dotted : List Char → List Char
  | ':' :: ':' :: s => '.' :: dotted s
  | c :: s => c :: dotted s
  | [] => []

/-- `getMass`, `getCharge` and `getPolarizability`, `/repo/python/chimp/property/__init__.py` lines 21-48: the first node
inside the elements `prop` of all `Particle` elements of this name; `none` is an exception, also if this node is not a
text. -/
def pyGet (pyEval : List Char → Option ℝ) (root : Xml) (prop n : String) : Option ℝ :=
  match (root.particles n).flatMap (fun a => match root.get a with
    | some x => (x.named prop).flatMap Xml.kids
    | none => []) with
  | .text s :: _ => pyEval (dotted s.toList)
  | _ => none

end Chimp
