import Verif.Model.Whole
import Verif.Model.Writer
import Verif.Model.VHSInfo

/-!
# Reading cross sections, with units

`Model/Whole.lean` starts from converted numbers.  Here the `cross_section` element is a tree of elements and text, and
the loaders query it, check dimensions and take the coefficient in SI units.

Simplified: `eval`, the calculator that turns text into a quantity, is an arbitrary function, and so are the parsers
for sets of pairs and the rule by which the parser for vectors chooses children: they belong to the libraries
`physical` and `xylose`.
-/

namespace Chimp

/-- The dimension of a quantity: powers of the base units. -/
structure SIDim where
  metre : ℤ := 0
  kilogram : ℤ := 0
  second : ℤ := 0
  ampere : ℤ := 0
  kelvin : ℤ := 0
deriving DecidableEq

namespace SIDim
/-- a plain number -/
def unity : SIDim := {}
/-- `m*m`, and `Angstrom*Angstrom` -/
def area : SIDim := { metre := 2 }
/-- `m/s` -/
def speed : SIDim := { metre := 1, second := -1 }
/-- `Joule`, and `eV` -/
def energy : SIDim := { metre := 2, kilogram := 1, second := -2 }
/-- `K` -/
def temperature : SIDim := { kelvin := 1 }
/-- `m*m*m/s` -/
def rate : SIDim := { metre := 3, second := -1 }
/-- `m*m*eV*eV` -/
def areaEnergy2 : SIDim := { metre := 6, kilogram := 2, second := -4 }
end SIDim

/-- `runtime::physical::Quantity`: the coefficient in SI units and the dimension. -/
structure Qty where
  coeff : ℝ
  dim : SIDim

/-- What can be thrown. -/
inductive ReadErr where
  | noResults (path : String)
  | tooManyResults (path : String)
  | notAQuantity
  | dimension
  | unknownModel
deriving DecidableEq

/-- What the loaders use from other libraries, and physical constants. -/
structure Reader where
  /-- the calculator on a text -/
  eval : List Char → Option Qty
  /-- `x.parse< data_set<Quantity,Quantity> >()` -/
  pairs : Xml → Except ReadErr (List (Qty × Qty))
  /-- which children `x.parse< std::vector<...> >()` takes -/
  takes : Xml → Bool
  KB : ℝ
  tiny : ℝ
  me : ℝ

/-- `x.query<Quantity>( path )` -/
def Reader.query (R : Reader) (x : Xml) (path : String) : Except ReadErr Qty :=
  match x.named path with
  | [] => .error (.noResults path)
  | [c] => match R.eval c.str with
    | none => .error .notAQuantity
    | some q => .ok q
  | _ => .error (.tooManyResults path)

/-- `q.assertMatch( d ).getCoeff<double>()` and `q.assertUnitless().getCoeff<double>()` -/
def Qty.coeffIn (q : Qty) (d : SIDim) : Except ReadErr ℝ := if q.dim = d then .ok q.coeff else .error .dimension

/-- A query followed by the check of the dimension. -/
def Reader.value (R : Reader) (x : Xml) (path : String) (d : SIDim) : Except ReadErr ℝ := do
  let q ← R.query x path
  q.coeffIn d

/-- `loadThreshold`, `/repo/src/chimp/interaction/cross_section/detail/generic.cpp` lines 45-55.  The conversion of a
speed is in `Chimp.loadThreshold`. -/
def Reader.threshold (R : Reader) (x : Xml) : Except ReadErr (Option ThrDoc) :=
  match R.query x "threshold" with
  | .error (.noResults _) => .ok none
  | .error e => .error e
  | .ok q =>
    if q.dim = .speed then .ok (some (.speed q.coeff))
    else do
      let e ← q.coeffIn .energy
      .ok (some (.energy e))

/-- One row, `/repo/src/chimp/interaction/cross_section/DATA.cpp` lines 55-62. -/
def readRow (r : Qty × Qty) : Except ReadErr RowDoc := do
  let v : ThrDoc ← if r.1.dim = .energy then .ok (.energy r.1.coeff)
    else do
      let c ← r.1.coeffIn .speed
      .ok (.speed c)
  let y ← r.2.coeffIn .area
  .ok (v, y)

/-- `parse_item`, `/repo/src/chimp/interaction/cross_section/detail/LotzDetails.cpp` lines 36-54. -/
noncomputable def Reader.lotzPar (R : Reader) (x : Xml) : Except ReadErr LotzPar := do
  let P ← R.value x "P" .energy
  let q ← R.value x "q" .unity
  let a ← R.value x "a" .areaEnergy2
  let b ← R.value x "b" .unity
  let c ← R.value x "c" .unity
  .ok (LotzPar.load R.me P q a b c)

/-- The children of an element. -/
def Xml.kids : Xml → List Xml
  | .text _ => []
  | .elem _ _ ks => ks

/-- The constructors of the six models on an element: `/repo/src/chimp/interaction/cross_section/Constant.h` lines
89-92 with `Constant.cpp` lines 45-48; `VHS.h` lines 92-98 with `detail/VHSInfo.cpp` lines 33-41; `Inverse.h` lines
90-95 with `detail/InverseInfo.cpp` lines 33-41; `Log.h` lines 91-96 with `detail/LogInfo.cpp` lines 33-38; `DATA.h`
lines 116-120; `Lotz.h` lines 110-111.  The model is chosen by the attribute (`Equation.cpp` lines 117-133). -/
noncomputable def Reader.crossSection (R : Reader) (x : Xml) : Except ReadErr CSDoc :=
  match x.attr "model" with
  | some "constant" => do
    let v ← R.value x "value" .area
    let t ← R.threshold x
    .ok (.constant v t)
  | some "vhs" => do
    let v ← R.value x "value" .area
    let T ← R.value x "T_ref" .temperature
    let w ← R.value x "visc_T_law" .unity
    let t ← R.threshold x
    .ok (.vhs (vhsInfo R.KB R.tiny v T w) t)
  | some "inverse" => do
    let k ← R.value x "value_vref" .rate
    let t ← R.threshold x
    .ok (.inverse k t)
  | some "log" => do
    let A ← R.value x "A" .area
    let B ← R.value x "B" .area
    let t ← R.threshold x
    .ok (.log A B t)
  | some "data" => do
    let ps ← R.pairs x
    let rows ← ps.mapM readRow
    .ok (.data rows)
  | some "lotz" => do
    let ss ← (x.kids.filter R.takes).mapM R.lotzPar
    .ok (.lotz ss)
  | _ => .error .unknownModel

/-- `loadKineticEnergyChange`, `/repo/src/chimp/interaction/model/detail/inelastic_helpers.cpp` lines 44-58: both
exceptions of the query are caught, others are not. -/
def Reader.declared (R : Reader) (x : Xml) : Except ReadErr (Option ℝ) :=
  match R.value x "KineticEnergyChange" .energy with
  | .ok e => .ok (some e)
  | .error (.noResults _) => .ok none
  | .error (.tooManyResults _) => .ok none
  | .error e => .error e

/-- `loadVSSParamInv`, `/repo/src/chimp/interaction/model/detail/vss_helpers.cpp` lines 40-44. -/
def Reader.vssParamInv (R : Reader) (x : Xml) : Except ReadErr ℝ := R.value x "vss_param_inv" .unity

/-! ### The Python class for Lotz cross sections -/

/-- `LotzParameter.getXML`: python/chimp/interaction/cross_section/__init__.py lines 56-63.  The values are strings. -/
def pyLotzParameter (P q a b c : String) : Xml :=
  .elem "LotzParameter" [] [.elem "P" [] [.text P], .elem "q" [] [.text q], .elem "a" [] [.text a],
    .elem "b" [] [.text b], .elem "c" [] [.text c]]

/-- The five values of a `LotzParameter`: same file lines 49-54. -/
structure PyLotz where
  P : String
  q : String
  a : String
  b : String
  c : String

/-- `Lotz.getXML`: same file lines 73-82. -/
def pyLotz (ps : List PyLotz) (ref : Option Xml) : Xml :=
  .elem "cross_section" [("model", "lotz")] ((ps.map fun p => pyLotzParameter p.P p.q p.a p.b p.c) ++ ref.toList)

end Chimp
