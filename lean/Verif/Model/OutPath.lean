import Mathlib.Algebra.Order.Field.Basic
import Mathlib.Algebra.BigOperators.Group.List.Lemmas
import Mathlib.Data.Rat.Defs
import Mathlib.Algebra.Order.Ring.Rat

/-!
# Choosing the outcome of a pair test

Models `interaction::Set::calculateOutPath` and `findMaxSigmaVProduct`
(`/repo/src/chimp/interaction/Set.h`).  `double` is an ordered field `K`.
-/

namespace Chimp

variable {K : Type} [Field K] [LinearOrder K]

/-- What `calculateOutPath` returns (`first`, `second`) and whether it went through the
`log_severe` line. -/
structure OutPath (K : Type) where
  first : ℤ
  second : K
  severe : Bool
deriving DecidableEq

/-- The loop that adds up the cross sections, `/repo/src/chimp/interaction/Set.h` lines 121-135.  The
running maximum `cs_max` is only used under the disabled `UPGRADE_MAX_SIGMA_V` and is left out. -/
def csTotal (cs : List K) : K := cs.foldl (· + ·) 0

/-- The selection loop, `/repo/src/chimp/interaction/Set.h` lines 151-161: first index at which the
running sum exceeds `r`, together with the cross section there. -/
def pickLoop (r : K) : List K → K → ℕ → Option (ℕ × K)
  | [], _, _ => none
  | c :: cs, tot, j => if tot + c > r then some (j, c) else pickLoop r cs (tot + c) (j + 1)

/-- `Set::calculateOutPath`, `/repo/src/chimp/interaction/Set.h` lines 115-166.  `cs` are the values of
the cross sections of the set's equations at the relative speed `v`; `u` is the value of
`rng.rand()` and `w` that of `rng.randExc()`. -/
def calculateOutPath (cs : List K) (maxSV v u w : K) : OutPath K :=
  if u * maxSV > csTotal cs * v then ⟨-1, 0, false⟩
  else
    match pickLoop (w * csTotal cs) cs 0 0 with
    | some (j, c) => ⟨j, c, false⟩
    | none => ⟨-1, 0, true⟩

/-- `Set::findMaxSigmaVProduct`, `/repo/src/chimp/interaction/Set.h` lines 95-103.  An equation is
represented by the function that returns `findMaxSigmaV(v).first`. -/
def findMaxSigmaVProduct (ms : List (K → K)) (vmax : K) : K :=
  ms.foldl (fun s m => s + m vmax) 0

end Chimp
