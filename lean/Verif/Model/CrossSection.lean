import Mathlib.Analysis.SpecialFunctions.Pow.Real
import Mathlib.Analysis.SpecialFunctions.Log.Base
import Mathlib.Data.List.Basic

/-!
# Cross sections

Models the classes of `/repo/src/chimp/interaction/cross_section`.  `double` is `ℝ`.  Values that would not be
finite (division by a zero speed, logarithm of a zero speed, square root of a negative number) are the
outcome `nonfinite`; exceptions are the other outcomes; undefined behaviour is `ub`.

Simplifications: quantities are numbers in SI units once parsed (energies and speeds in a document are told
apart by a constructor).  The tables are ordered lists with increasing speeds, which is what iterating over the
underlying map gives.  `xylose::fast_pow` is the real power function here.  The counter of extrapolations and the
messages are left out.  The tolerance of the Lotz root search is zero when it compares end points.
-/

namespace Chimp

open Classical

/-- How an evaluation or a construction can fail. -/
inductive XErr where
  /-- exception: threshold energy must be nonnegative -/
  | badThreshold
  /-- exception: empty table -/
  | emptyTable
  /-- exception: velocity out of range of the data -/
  | outOfRange
  /-- exception: root search failed -/
  | noRoot
  /-- infinite or not-a-number -/
  | nonfinite
  /-- undefined behaviour -/
  | ub
deriving DecidableEq

/-- The virtual interface `cross_section::Base`, `/repo/src/chimp/interaction/cross_section/Base.h`
lines 67-105. -/
structure XSec where
  /-- `operator()` -/
  sigma : ℝ → Except XErr ℝ
  /-- `getThresholdEnergy` -/
  thrE : ℝ
  /-- `findMaxSigmaV` -/
  maxSV : ℝ → Except XErr (ℝ × ℝ)

/-- A threshold as written in a document: an energy in joules or a speed. -/
inductive ThrDoc where
  | energy (e : ℝ)
  | speed (v : ℝ)

/-- `loadThreshold`, `/repo/src/chimp/interaction/cross_section/detail/generic.cpp` lines 45-55; `none` is a
document without the element and then the default 0 of the callers applies. -/
noncomputable def loadThreshold (mu : ℝ) : Option ThrDoc → ℝ
  | none => 0
  | some (.energy e) => e
  | some (.speed v) => 1 / 2 * mu * (v * v)

/-- `setThresholdEnergy`, `/repo/src/chimp/interaction/cross_section/Constant.h` lines 105-114 (the same in
`VHS.h` lines 103-112, `Inverse.h` lines 100-109, `Log.h` lines 101-110): `threshold_E` and
`threshold_v`. -/
noncomputable def setThreshold (mu e : ℝ) : Except XErr (ℝ × ℝ) :=
  if e < 0 then .error .badThreshold else .ok (e, Real.sqrt (e / (1 / 2 * mu)))

/-- `Constant`, `/repo/src/chimp/interaction/cross_section/Constant.h` lines 77-152. -/
noncomputable def mkConstant (value mu e : ℝ) : Except XErr XSec :=
  match setThreshold mu e with
  | .error x => .error x
  | .ok (tE, tv) => .ok
    { sigma := fun v => .ok (if v ≥ tv then value else 0)
      thrE := tE
      maxSV := fun vmax => .ok (if vmax ≥ tv then (value * vmax, vmax) else (0, 0)) }

/-- Parameters of the VHS model and the constants `K_B` and `numeric_limits<double>::min()`. -/
structure VHSParam where
  crossSection : ℝ
  Tref : ℝ
  viscTLaw : ℝ
  gammaViscInv : ℝ
  KB : ℝ
  tiny : ℝ

/-- `VHS::operator()`, `/repo/src/chimp/interaction/cross_section/VHS.h` lines 121-141. -/
noncomputable def vhsSigma (p : VHSParam) (mu tv v : ℝ) : ℝ :=
  if v < tv then 0
  else p.crossSection * ((2 * p.KB * p.Tref / (mu * v ^ 2 + p.tiny)) ^ (p.viscTLaw - 1 / 2))
    * p.gammaViscInv

/-- `VHS`, same file lines 90-161. -/
noncomputable def mkVHS (p : VHSParam) (mu e : ℝ) : Except XErr XSec :=
  match setThreshold mu e with
  | .error x => .error x
  | .ok (tE, tv) => .ok
    { sigma := fun v => .ok (vhsSigma p mu tv v)
      thrE := tE
      maxSV := fun vmax => .ok (if vmax ≥ tv then (vhsSigma p mu tv vmax * vmax, vmax) else (0, 0)) }

/-- `Inverse`, `/repo/src/chimp/interaction/cross_section/Inverse.h` lines 90-147. -/
noncomputable def mkInverse (valueVref mu e : ℝ) : Except XErr XSec :=
  match setThreshold mu e with
  | .error x => .error x
  | .ok (tE, tv) => .ok
    { sigma := fun v => if v < tv then .ok 0 else if v = 0 then .error .nonfinite else .ok (valueVref / v)
      thrE := tE
      maxSV := fun vmax => .ok (if vmax ≥ tv then (valueVref, tv) else (0, 0)) }

/-- `Log::operator()`, `/repo/src/chimp/interaction/cross_section/Log.h` lines 119-128. -/
noncomputable def logSigma (A B tv v : ℝ) : Except XErr ℝ :=
  if v < tv then .ok 0 else if v = 0 then .error .nonfinite else .ok (A - B * Real.logb 10 v)

/-- `Log`, same file lines 90-148. -/
noncomputable def mkLog (A B mu e : ℝ) : Except XErr XSec :=
  match setThreshold mu e with
  | .error x => .error x
  | .ok (tE, tv) => .ok
    { sigma := logSigma A B tv
      thrE := tE
      maxSV := fun vmax =>
        if vmax ≥ tv then
          match logSigma A B tv vmax with
          | .error x => .error x
          | .ok s => .ok (s * vmax, vmax)
        else .ok (0, 0) }

/-! ### Tabulated data -/

/-- The map from speed to cross section, in order. -/
abbrev XTable := List (ℝ × ℝ)

/-- `table.insert(...)`: an existing key keeps its value. -/
noncomputable def XTable.insert (t : XTable) (d : ℝ × ℝ) : XTable :=
  match t with
  | [] => [d]
  | x :: l =>
    if d.1 < x.1 then d :: x :: l
    else if x.1 < d.1 then x :: XTable.insert l d
    else x :: l

/-- A row of a table in a document: abscissa (energy or speed) and cross section. -/
abbrev RowDoc := ThrDoc × ℝ

/-- `loadCrossSectionData`, `/repo/src/chimp/interaction/cross_section/DATA.cpp` lines 46-68.  The rows come in the
order of the parsed set. -/
noncomputable def loadTable (mu : ℝ) (rows : List RowDoc) : XTable :=
  rows.foldl (fun t r => XTable.insert t
    (match r.1 with
      | .energy e => Real.sqrt (e / (1 / 2 * mu))
      | .speed v => v, r.2)) []

/-- `checkThreshold`, `/repo/src/chimp/interaction/cross_section/DATA.h` lines 232-265: removes leading zeros
while the next value is zero too.  When the last entry is removed `++ip1` moves an iterator past the end. -/
noncomputable def checkThreshold : XTable → Except XErr XTable
  | [] => .error .emptyTable
  | [d] => if d.2 = 0 then .error .ub else .ok [d]
  | d :: d' :: l => if d.2 = 0 ∧ d'.2 = 0 then checkThreshold (d' :: l) else .ok (d :: d' :: l)

/-- `detail::f`, `/repo/src/chimp/interaction/cross_section/detail/logE_E.h` lines 44-50. -/
noncomputable def extrapF (x C a b : ℝ) : ℝ := C * b * Real.log (a * x + b) / (a * x + b)

/-- Extrapolation coefficients. -/
structure Coeffs where
  C : ℝ
  a : ℝ
  b : ℝ
  v02 : ℝ

/-- The values taken by the loop variable `bi`, `/repo/src/chimp/interaction/cross_section/detail/logE_E.h`
line 75: from e in steps of 0.01 up to 100. -/
noncomputable def biValues : List ℝ :=
  ((List.range 10000).map fun k : ℕ => Real.exp 1 + (k : ℝ) / 100).filter fun b => decide (b ≤ 100)

/-- One step of that loop, lines 76-81: the best `b` and its error so far (`none` for the largest `double`). -/
noncomputable def biStep (C a x s2 : ℝ) (st : ℝ × Option ℝ) (bi : ℝ) : ℝ × Option ℝ :=
  let err := 1 - s2 / extrapF x C a bi
  match st.2 with
  | none => (bi, some err)
  | some lowest => if |err| < |lowest| then (bi, some err) else st

/-- `getCab_coeffs`, same file lines 53-85. -/
noncomputable def getCab (d0 d1 d2 : ℝ × ℝ) : Coeffs :=
  let Fp := 1 / 2 * ((d1.2 - d0.2) / (d1.1 ^ 2 - d0.1 ^ 2) + (d2.2 - d1.2) / (d2.1 ^ 2 - d1.1 ^ 2))
  if Fp ≥ 0 then ⟨0, 0, 0, 0⟩
  else
    let C := d1.2 / Real.log 30
    let a := 30 * Fp / (C * (1 - Real.log 30))
    let b := (biValues.foldl (biStep C a (d2.1 ^ 2 - d1.1 ^ 2) d2.2) (30, none)).1
    ⟨C, a, b, d1.1 ^ 2⟩

/-- `setCoeffs`, `/repo/src/chimp/interaction/cross_section/DATA.h` lines 267-304.  `allowed` is the outcome of the
environment variable and the option; the table is given in reverse. -/
noncomputable def setCoeffs (allowed : Bool) (revTable : XTable) : Coeffs :=
  if allowed then
    match revTable with
    | d2 :: d1 :: d0 :: _ => if d2.2 = 0 then ⟨0, 0, 0, 0⟩ else getCab d0 d1 d2
    | _ => ⟨0, 0, 0, 0⟩
  else ⟨0, 0, 0, 0⟩

/-- The lever rule, same file lines 341-350. -/
noncomputable def lever (i f : ℝ × ℝ) (v : ℝ) : ℝ :=
  let Linv := 1 / (f.1 - i.1)
  i.2 * Linv * (f.1 - v) + f.2 * Linv * (v - i.1)

/-- `eval`, same file lines 309-352, on the table split at `lower_bound(v)`: the entries below `v`, and the
others. -/
noncomputable def evalSplit (co : Coeffs) (v : ℝ) (below above : XTable) : Except XErr ℝ :=
  match below.getLast?, above with
  | none, [] => .error .ub
  | none, d :: _ => .ok (if d.1 = v then d.2 else 0)
  | some d, [] =>
    if d.2 = 0 then .ok 0
    else if co.C = 0 then .error .outOfRange
    else .ok (extrapF (v ^ 2 - co.v02) co.C co.a co.b)
  | some d, d' :: _ => .ok (lever d d' v)

/-- Entries before `table.lower_bound(v)`. -/
noncomputable def belowOf (t : XTable) (v : ℝ) : XTable := t.takeWhile fun d => decide (d.1 < v)

/-- Entries from `table.lower_bound(v)` on. -/
noncomputable def aboveOf (t : XTable) (v : ℝ) : XTable := t.dropWhile fun d => decide (d.1 < v)

/-- `DATA::operator()`, `/repo/src/chimp/interaction/cross_section/DATA.h` lines 137-140. -/
noncomputable def dataSigma (t : XTable) (co : Coeffs) (v : ℝ) : Except XErr ℝ :=
  evalSplit co v (belowOf t v) (aboveOf t v)

/-- Loop of `DATA::findMaxSigmaV`, same file lines 172-178. -/
noncomputable def maxLoop (l : XTable) (r : ℝ × ℝ) : ℝ × ℝ :=
  l.foldl (fun r d => if r.1 < d.1 * d.2 then (d.1 * d.2, d.1) else r) r

/-- `DATA::findMaxSigmaV`, same file lines 165-194. -/
noncomputable def dataMax (t : XTable) (co : Coeffs) (vmax : ℝ) : Except XErr (ℝ × ℝ) :=
  let r := maxLoop (belowOf t vmax) (0, 0)
  match dataSigma t co vmax with
  | .error x => .error x
  | .ok s => .ok (if r.1 < vmax * s then (vmax * s, vmax) else r)

/-- `DATA` from a table: `setTable` and `init`, same file lines 137-230. -/
noncomputable def mkData (allowed : Bool) (mu : ℝ) (table : XTable) : Except XErr XSec :=
  match checkThreshold table with
  | .error x => .error x
  | .ok t =>
    let co := setCoeffs allowed t.reverse
    .ok
      { sigma := dataSigma t co
        thrE := 1 / 2 * mu * (match t with | [] => 0 | d :: _ => d.1) ^ 2
        maxSV := dataMax t co }

/-! ### Averages -/

/-- `sqrt` with its domain. -/
noncomputable def sqrtE (x : ℝ) : Except XErr ℝ := if 0 ≤ x then .ok (Real.sqrt x) else .error .nonfinite

/-- `0.25 * SQR( sqrt(sigma0(v)) + sqrt(sigma1(v)) )`,
`/repo/src/chimp/interaction/cross_section/detail/AvgEasy.h` lines 91-95 and `AveragedDiameters.h` line 86. -/
noncomputable def avgSigma (s0 s1 : ℝ → Except XErr ℝ) (v : ℝ) : Except XErr ℝ := do
  let a ← s0 v
  let a ← sqrtE a
  let b ← s1 v
  let b ← sqrtE b
  return 1 / 4 * (a + b) ^ 2

/-- `AvgEasy`, `/repo/src/chimp/interaction/cross_section/detail/AvgEasy.h` lines 85-114. -/
noncomputable def mkAvgEasy (c0 c1 : XSec) : XSec :=
  { sigma := avgSigma c0.sigma c1.sigma
    thrE := min c0.thrE c1.thrE
    maxSV := fun vmax =>
      match avgSigma c0.sigma c1.sigma vmax with
      | .error x => .error x
      | .ok val => .ok (if val > 0 then (val * vmax, vmax) else (0, 0)) }

/-- The sampling loop of `AveragedDiameters`, `/repo/src/chimp/interaction/cross_section/AveragedDiameters.h`
lines 85-88.  The first argument bounds the number of iterations; `none` means that it was not enough. -/
noncomputable def sampleLoop (s0 s1 : ℝ → Except XErr ℝ) (dv : ℝ) :
    ℕ → ℝ → XTable → Option (Except XErr XTable)
  | 0, _, _ => none
  | fuel + 1, v, t =>
    if v > 0 then
      match avgSigma s0 s1 v with
      | .error x => some (.error x)
      | .ok s => sampleLoop s0 s1 dv fuel (v - dv) (XTable.insert t (v, s))
    else some (.ok t)

/-- `AveragedDiameters`, same file lines 75-92. -/
noncomputable def mkAveraged (allowed : Bool) (c0 c1 : XSec) (vmax dv mu : ℝ) (fuel : ℕ) :
    Option (Except XErr XSec) :=
  match sampleLoop c0.sigma c1.sigma dv fuel (vmax + 1 / 2 * dv) [] with
  | none => none
  | some (.error x) => some (.error x)
  | some (.ok t) => some (mkData allowed mu t)

/-! ### Lotz -/

/-- `LotzParameters`, `/repo/src/chimp/interaction/cross_section/detail/LotzDetails.h` lines 48-75. -/
structure LotzPar where
  P : ℝ
  beta : ℝ
  q : ℝ
  a : ℝ
  b : ℝ
  c : ℝ

/-- `parse_item`, `/repo/src/chimp/interaction/cross_section/detail/LotzDetails.cpp` lines 38-54, on parsed numbers;
`me` is the mass of the electron. -/
noncomputable def LotzPar.load (me P q a b c : ℝ) : LotzPar := ⟨P, me / (2 * P), q, a, b, c⟩

/-- One summand of `Lotz::operator()`, `/repo/src/chimp/interaction/cross_section/Lotz.h` lines 192-200. -/
noncomputable def lotzTerm (p : LotzPar) (v : ℝ) : ℝ :=
  p.a * p.q * Real.log (v * v * p.beta) / (p.P ^ 2 * (v * v * p.beta))
    * (1 - p.b * Real.exp (-p.c * (v * v * p.beta - 1)))

/-- `Lotz::operator()`, same file lines 183-203. -/
noncomputable def lotzSigma (ps : List LotzPar) (thr v : ℝ) : ℝ :=
  if v < thr then 0 else ps.foldl (fun s p => s + lotzTerm p v) 0

/-- One summand of `DSigmaVFunctor`, `/repo/src/chimp/interaction/cross_section/detail/LotzDetails.h`
lines 108-119. -/
noncomputable def dsvTerm (p : LotzPar) (v : ℝ) : ℝ :=
  p.a * p.q * Real.exp (p.c - p.c * (v * v * p.beta)) / (p.P ^ 2 * (v * v * p.beta))
    * (2 * p.b * (Real.log (v * v * p.beta) * (1 / 2 + p.c * (v * v * p.beta)) - 1)
      - Real.exp (-p.c + p.c * (v * v * p.beta)) * (Real.log (v * v * p.beta) - 2))

/-- `DSigmaVFunctor::operator()`, same file lines 98-122. -/
noncomputable def lotzDsv (ps : List LotzPar) (v : ℝ) : ℝ := ps.foldl (fun s p => s + dsvTerm p v) 0

/-- `boost::math::tools::toms748_solve` followed by the tolerance check: the upper end of the bracket, or `none`. -/
abbrev RootFinder := (ℝ → ℝ) → ℝ → ℝ → Option ℝ

/-- Smallest and largest `1/sqrt(beta)`, `/repo/src/chimp/interaction/cross_section/Lotz.h` lines 123-131. -/
noncomputable def lotzRange : List LotzPar → Option (ℝ × ℝ)
  | [] => none
  | p :: ps => some (ps.foldl (fun r p =>
      let vi := 1 / Real.sqrt p.beta
      (if vi < r.1 then vi else r.1, if vi > r.2 then vi else r.2))
      (1 / Real.sqrt p.beta, 1 / Real.sqrt p.beta))

/-- The loop that doubles `v_max`, same file lines 156-158. -/
noncomputable def doubleLoop (d : ℝ → ℝ) : ℕ → ℝ → ℝ
  | 0, v => v
  | n + 1, v => if d v > 0 then doubleLoop d n (v * 2) else v

/-- `Lotz`, same file lines 110-173, 208-211 and 222-229. -/
noncomputable def mkLotz (solve : RootFinder) (ps : List LotzPar) (mu : ℝ) : Except XErr XSec :=
  match lotzRange ps with
  | none => .error .nonfinite
  | some (vmin, vmax) =>
    match if vmin = vmax then some vmax else solve (lotzSigma ps 0) vmin vmax with
    | none => .error .noRoot
    | some thr =>
      match solve (lotzDsv ps) thr (doubleLoop (lotzDsv ps) 32 thr) with
      | none => .error .noRoot
      | some z => .ok
        { sigma := fun v => .ok (lotzSigma ps thr v)
          thrE := 1 / 2 * mu * thr ^ 2
          maxSV := fun vm => .ok (if vm > z then (z * lotzSigma ps thr z, z)
            else (vm * lotzSigma ps thr vm, vm)) }

end Chimp
