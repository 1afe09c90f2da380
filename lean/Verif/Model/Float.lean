import Verif.Model.Driver
import Mathlib.Data.Real.Archimedean

/-!
# The driver in floating-point arithmetic

`Model/OutPath.lean` and `Model/Driver.lean` compute with exact numbers.  Here the same functions are written once more
with every operation on `double` rounded.  A rounding takes a real number to a nearest number with `p` binary digits
(`p = 53` for `double`), ties in any direction.  The exponent is unbounded: overflow, underflow, infinities and NaN are
not represented.  Every operation is rounded on its own, so neither extended registers nor fused operations are used.
Conversions of sizes to `double` are exact.  With `id` in place of the rounding the functions are those of
`Model/Driver.lean` (`driverR_id`).
-/

namespace Chimp

/-- The numbers with `p` binary digits and any exponent.  `|m| = 2 ^ p` adds nothing, because then
`m * 2 ^ e = ± 2 ^ (p + e)`. -/
def FP (p : ℕ) : Set ℝ := {x | ∃ m e : ℤ, |m| ≤ 2 ^ p ∧ x = m * (2 : ℝ) ^ e}

/-- Rounding to a nearest number with `p` digits (the default mode of IEC 559, without a rule for ties). -/
structure Rounding (p : ℕ) where
  rd : ℝ → ℝ
  mem : ∀ x, rd x ∈ FP p
  near : ∀ x, ∀ z ∈ FP p, |x - rd x| ≤ |x - z|

variable {P S : Type} (rd : ℝ → ℝ)

/-- `csTotal`, `/repo/src/chimp/interaction/Set.h` lines 121-135. -/
def csTotalR (cs : List ℝ) : ℝ := cs.foldl (fun t c => rd (t + c)) 0

/-- `pickLoop`, `/repo/src/chimp/interaction/Set.h` lines 153-161. -/
noncomputable def pickLoopR (r : ℝ) : List ℝ → ℝ → ℕ → Option (ℕ × ℝ)
  | [], _, _ => none
  | c :: cs, tot, j => if rd (tot + c) > r then some (j, c) else pickLoopR r cs (rd (tot + c)) (j + 1)

/-- `Set::calculateOutPath`, `/repo/src/chimp/interaction/Set.h` lines 115-166. -/
noncomputable def calculateOutPathR (cs : List ℝ) (maxSV v u w : ℝ) : OutPath ℝ :=
  if rd (u * maxSV) > rd (csTotalR rd cs * v) then ⟨-1, 0, false⟩
  else
    match pickLoopR rd (rd (w * csTotalR rd cs)) cs 0 0 with
    | some (j, c) => ⟨j, c, false⟩
    | none => ⟨-1, 0, true⟩

/-- `Set::findMaxSigmaVProduct`, `/repo/src/chimp/interaction/Set.h` lines 95-103. -/
def findMaxSigmaVProductR (ms : List (ℝ → ℝ)) (vmax : ℝ) : ℝ := ms.foldl (fun s m => rd (s + m vmax)) 0

/-- `begin + static_cast<int>( sz * u )`, `/repo/src/chimp/interaction/selectRandomPair.h` lines 72-73, 77-78, 85. -/
noncomputable def pickPosR (lo sz : ℕ) (u : ℝ) : ℕ := lo + ⌊rd ((sz : ℝ) * u)⌋.toNat

/-- `selectB`, `/repo/src/chimp/interaction/selectRandomPair.h` lines 80-85. -/
noncomputable def selectBR (rng : RNG S ℝ) (lo sz pA : ℕ) : ℕ → S → Option (ℕ × S)
  | 0, _ => none
  | fuel + 1, s =>
    let (u, s') := rng.randExc s
    let pB := pickPosR rd lo sz u
    if pA = pB then selectBR rng lo sz pA fuel s' else some (pB, s')

/-- `selectRandomPair`, `/repo/src/chimp/interaction/selectRandomPair.h` lines 54-89. -/
noncomputable def selectRandomPairR (rng : RNG S ℝ) (allowSelf : Bool) (fuel : ℕ) (a b : ℕ × ℕ) (s : S) :
    Option (ℕ × ℕ × S) :=
  let (u, s1) := rng.randExc s
  let pA := pickPosR rd a.1 (rsize a) u
  if allowSelf then
    let (w, s2) := rng.randExc s1
    some (pA, pickPosR rd b.1 (rsize b) w, s2)
  else
    match selectBR rd rng b.1 (rsize b) pA fuel s1 with
    | none => none
    | some (pB, s2) => some (pA, pB, s2)

/-- `Set::interact`, `/repo/src/chimp/interaction/Set.h` lines 168-198. -/
noncomputable def setInteractR (env : DriverEnv P S ℝ) (rhs : List (Eqn P S ℝ)) (maxSV : ℝ) (a b : P) (s : S) :
    OutPath ℝ × P × P × List P × S :=
  let v := env.relSpeed a b
  let (u, s1) := env.rng.rand s
  let (w, s2) := env.rng.randExc s1
  let cs := rhs.map (fun e => e.sigma v)
  let path := calculateOutPathR rd cs maxSV v u w
  let s3 := if rd (u * maxSV) > rd (csTotalR rd cs * v) then s1 else s2
  performPath env rhs path a b s3

/-- One pair test, `/repo/src/chimp/interaction/Driver.h` lines 255-270. -/
noncomputable def pairTestR (env : DriverEnv P S ℝ) (A B : ℕ) (maxSV : ℝ) (p q : ℕ) (st : DState P S ℝ) :
    DState P S ℝ :=
  applyPair env.inplace A B p q
    (setInteractR rd env (env.rhs A B) maxSV (st.mem p) (st.mem q) st.gen) st

/-- The `while` loop, `/repo/src/chimp/interaction/Driver.h` lines 242-274. -/
noncomputable def testLoopR (env : DriverEnv P S ℝ) (fs : ℕ) (A B : ℕ) (maxSV : ℝ) :
    ℕ → ℝ → DState P S ℝ → Except DErr (DState P S ℝ)
  | 0, nt, st => if nt > 1 then .error .timeout else .ok st
  | fi + 1, nt, st =>
    if nt > 1 then
      if notEnough st A B then .ok st
      else
        match selectRandomPairR rd env.rng false fs (st.range A) (st.range B) st.gen with
        | none => .error .timeout
        | some (p, q, s') =>
          testLoopR env fs A B maxSV fi (rd (nt - 1)) (pairTestR rd env A B maxSV p q { st with gen := s' })
    else .ok st

/-- The estimate before promotion, `/repo/src/chimp/interaction/Driver.h` lines 199-209, one rounding for each
operator. -/
noncomputable def estimateTestsR (wA wB : ℝ) (na nb : ℕ) (dt maxSV volume : ℝ) (same : Bool) : ℝ :=
  let n := rd (rd (rd (rd (rd (rd (wA * wB) * na) * nb) * dt) * maxSV) / rd (volume * min wA wB))
  if same then rd (n * (1 / 2)) else n

/-- Promotion, `/repo/src/chimp/interaction/Driver.h` lines 212-218. -/
noncomputable def promoteR (n u : ℝ) : ℝ := if u < rd (n - (⌊n⌋ : ℝ)) then rd (n + 1) else n

/-- Body of the first double loop, `/repo/src/chimp/interaction/Driver.h` lines 176-222. -/
noncomputable def estimatePairR (env : DriverEnv P S ℝ) (st : DState P S ℝ) (A B : ℕ) :
    Except DErr (Option (TestData ℝ) × DState P S ℝ) :=
  if (env.rhs A B).length = 0 then .ok (none, st)
  else if rsize (st.range A) = 0 ∨ rsize (st.range B) = 0 then .error .ub
  else
    let m := findMaxSigmaVProductR rd ((env.rhs A B).map Eqn.maxSigmaV) (env.maxRelVel A B)
    let n := estimateTestsR rd (env.weight (st.mem (st.range A).1)) (env.weight (st.mem (st.range B).1))
      (rsize (st.range A)) (rsize (st.range B)) env.dt m env.volume (A == B)
    let (u, s') := env.rng.rand st.gen
    .ok (some ⟨promoteR rd n u, m⟩, { st with gen := s' })

/-- The first double loop. -/
noncomputable def estimateAllR (env : DriverEnv P S ℝ) :
    List (ℕ × ℕ) → DState P S ℝ →
      Except DErr (List ((ℕ × ℕ) × Option (TestData ℝ)) × DState P S ℝ)
  | [], st => .ok ([], st)
  | (A, B) :: ps, st =>
    match estimatePairR rd env st A B with
    | .error e => .error e
    | .ok (d, st1) =>
      match estimateAllR env ps st1 with
      | .error e => .error e
      | .ok (ds, st2) => .ok (((A, B), d) :: ds, st2)

/-- The second double loop, `/repo/src/chimp/interaction/Driver.h` lines 229-276. -/
noncomputable def collideAllR (env : DriverEnv P S ℝ) (fi fs : ℕ) :
    List ((ℕ × ℕ) × Option (TestData ℝ)) → DState P S ℝ → Except DErr (DState P S ℝ)
  | [], st => .ok st
  | ((_, _), none) :: ds, st => collideAllR env fi fs ds st
  | ((A, B), some d) :: ds, st =>
    match testLoopR rd env fs A B d.maxSV fi d.numberTests st with
    | .error e => .error e
    | .ok st1 => collideAllR env fi fs ds st1

/-- `Driver::operator()`, `/repo/src/chimp/interaction/Driver.h` lines 157-277. -/
noncomputable def driverR (env : DriverEnv P S ℝ) (fi fs : ℕ) (st : DState P S ℝ) :
    Except DErr (DState P S ℝ) :=
  match estimateAllR rd env (speciesPairs env.nSpecies) st with
  | .error e => .error e
  | .ok (ds, st1) => collideAllR rd env fi fs ds st1

end Chimp
