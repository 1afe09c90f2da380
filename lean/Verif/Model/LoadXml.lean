import Verif.Model.Reading
import Verif.Model.Session

/-!
# Loading an equation from its XML element

`Equation::load` (`/repo/src/chimp/interaction/Equation.cpp` lines 63-165) on the tree of elements and text: the terms as in
`Model/Writer.lean`, the cross section as in `Model/Reading.lean`, the rest as in `Model/Whole.lean`.

Simplified: which of several faults of one element is reported is not claimed.
-/

namespace Chimp

variable {W : Type}

/-- What is read for the interaction model: `InElastic::new_load` reads `KineticEnergyChange`
(`/repo/src/chimp/interaction/model/InElastic.h` lines 116-124), `VSSElastic` its parameter
(`/repo/src/chimp/interaction/model/VSSElastic.h` lines 75-78), `Elastic` nothing. -/
noncomputable def Reader.inter (R : Reader) (model : String) (cs : CSDoc) (x : Xml) : Except ReadErr InterDoc :=
  if model = "vss_elastic" then
    match R.vssParamInv x with
    | .error e => .error e
    | .ok k => .ok { cs, vssParamInv := k }
  else if model = "inelastic" then
    match R.declared x with
    | .error e => .error e
    | .ok d => .ok { cs, declared := d }
  else .ok { cs }

/-- Why an `Interaction` element is not loaded. -/
inductive XLoadErr where
  /-- a query of the XML library -/
  | query
  | load (e : LoadErr)
  | read (e : ReadErr)
  | complete (e : WErr)

/-- `Equation::load( x, db )`, `/repo/src/chimp/interaction/Equation.cpp` lines 63-165; `parse` is the conversion of text
to integers by the XML library. -/
noncomputable def loadXml (R : Reader) (T : Tools W) (parse : List Char → Option ℤ) (db : Registry ℝ) (x : Xml) :
    Except XLoadErr (WEq W) :=
  match readInteraction parse x, x.named "cross_section" with
  | some n, [c] =>
    match loadEq db csNames modelNames n with
    | .error e => .error (.load e)
    | .ok e =>
      match R.crossSection c with
      | .error r => .error (.read r)
      | .ok cs =>
        match R.inter e.model cs x with
        | .error r => .error (.read r)
        | .ok d =>
          match completeEq T db e d with
          | .error z => .error (.complete z)
          | .ok w => .ok w
  | _, _ => .error .query

end Chimp
