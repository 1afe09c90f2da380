import Verif.Model.FloatCross

/-!
# Logarithmic and Lotz cross sections in floating-point arithmetic

`Log` and `Lotz` of `Model/CrossSection.lean` with every operation on `double` rounded.  `lg10`, `lg` and `ex` are the
functions `log10`, `log` and `exp` of the library.  The root search is an arbitrary function, and so is the test of its
tolerance (`boost::math::tools::eps_tolerance`).
-/

namespace Chimp

variable (rd : ℝ → ℝ)

/-! ### Log -/

/-- `Log::operator()`, `/repo/src/chimp/interaction/cross_section/Log.h` lines 119-129. -/
noncomputable def logSigmaR (lg10 : ℝ → ℝ) (A B tv v : ℝ) : Except XErr ℝ :=
  if v < tv then .ok 0 else if v = 0 then .error .nonfinite else .ok (rd (A - rd (B * lg10 v)))

/-- `Log`, same file lines 90-149. -/
noncomputable def mkLogR (lg10 : ℝ → ℝ) (A B mu e : ℝ) : Except XErr XSec :=
  match setThresholdR rd mu e with
  | .error x => .error x
  | .ok (tE, tv) => .ok
    { sigma := logSigmaR rd lg10 A B tv
      thrE := tE
      maxSV := fun vmax =>
        if vmax ≥ tv then
          match logSigmaR rd lg10 A B tv vmax with
          | .error x => .error x
          | .ok s => .ok (rd (s * vmax), vmax)
        else .ok (0, 0) }

/-! ### Lotz -/

/-- `parse_item`, `/repo/src/chimp/interaction/cross_section/detail/LotzDetails.cpp` lines 38-54, on parsed numbers;
`me` is the mass of the electron. -/
noncomputable def LotzPar.loadR (me P q a b c : ℝ) : LotzPar := ⟨P, rd (me / rd (2 * P)), q, a, b, c⟩

/-- One summand of `Lotz::operator()`, `/repo/src/chimp/interaction/cross_section/Lotz.h` lines 192-200. -/
noncomputable def lotzTermR (lg ex : ℝ → ℝ) (p : LotzPar) (v2 : ℝ) : ℝ :=
  let x := rd (v2 * p.beta)
  rd (rd (rd (rd (p.a * p.q) * lg x) / rd (rd (p.P * p.P) * x))
    * rd (1 - rd (p.b * ex (rd (-p.c * rd (x - 1))))))

/-- `Lotz::operator()`, same file lines 183-203. -/
noncomputable def lotzSigmaR (lg ex : ℝ → ℝ) (ps : List LotzPar) (thr v : ℝ) : ℝ :=
  if v < thr then 0 else ps.foldl (fun s p => rd (s + lotzTermR rd lg ex p (rd (v * v)))) 0

/-- One summand of `DSigmaVFunctor`, `/repo/src/chimp/interaction/cross_section/detail/LotzDetails.h`
lines 108-119. -/
noncomputable def dsvTermR (lg ex : ℝ → ℝ) (p : LotzPar) (v2 : ℝ) : ℝ :=
  let x := rd (v2 * p.beta)
  let l := lg x
  let cx := rd (p.c * x)
  rd (rd (rd (rd (p.a * p.q) * ex (rd (p.c - cx))) / rd (rd (p.P * p.P) * x))
    * rd (rd (rd (2 * p.b) * rd (rd (l * rd (1 / 2 + cx)) - 1)) - rd (ex (rd (-p.c + cx)) * rd (l - 2))))

/-- `DSigmaVFunctor::operator()`, same file lines 98-122. -/
noncomputable def lotzDsvR (lg ex : ℝ → ℝ) (ps : List LotzPar) (v : ℝ) : ℝ :=
  ps.foldl (fun s p => rd (s + dsvTermR rd lg ex p (rd (v * v)))) 0

/-- `1. / std::sqrt( i->beta )`, `/repo/src/chimp/interaction/cross_section/Lotz.h` line 126. -/
noncomputable def shellSpeedR (p : LotzPar) : ℝ := rd (1 / rd (Real.sqrt p.beta))

/-- Smallest and largest of these, same file lines 123-131. -/
noncomputable def lotzRangeR : List LotzPar → Option (ℝ × ℝ)
  | [] => none
  | p :: ps => some (ps.foldl (fun r p =>
      let vi := shellSpeedR rd p
      (if vi < r.1 then vi else r.1, if vi > r.2 then vi else r.2))
      (shellSpeedR rd p, shellSpeedR rd p))

/-- The loop that doubles `v_max`, same file lines 156-158. -/
noncomputable def doubleLoopR (d : ℝ → ℝ) : ℕ → ℝ → ℝ
  | 0, v => v
  | n + 1, v => if d v > 0 then doubleLoopR d n (rd (v * 2)) else v

/-- `Lotz`, same file lines 110-173, 208-211 and 222-229. -/
noncomputable def mkLotzR (lg ex : ℝ → ℝ) (solve : RootFinder) (tol : ℝ → ℝ → Bool) (ps : List LotzPar) (mu : ℝ) :
    Except XErr XSec :=
  match lotzRangeR rd ps with
  | none => .error .nonfinite
  | some (vmin, vmax) =>
    match if tol vmin vmax then some vmax else solve (lotzSigmaR rd lg ex ps 0) vmin vmax with
    | none => .error .noRoot
    | some thr =>
      match solve (lotzDsvR rd lg ex ps) thr (doubleLoopR rd (lotzDsvR rd lg ex ps) 32 thr) with
      | none => .error .noRoot
      | some z => .ok
        { sigma := fun v => .ok (lotzSigmaR rd lg ex ps thr v)
          thrE := rd (rd (1 / 2 * mu) * rd (thr * thr))
          maxSV := fun vm => .ok (if vm > z then (rd (z * lotzSigmaR rd lg ex ps thr z), z)
            else (rd (vm * lotzSigmaR rd lg ex ps thr vm), vm)) }

end Chimp
