import Verif.Lemmas.Random
import Verif.Model.Whole

/-!
# The library's cross sections are measurable functions of the speed
-/

namespace Chimp

open MeasureTheory

/-- The value, 0 if there is none (as in `WEq.toEqn`). -/
def okVal (x : Except XErr ℝ) : ℝ :=
  match x with
  | .ok c => c
  | .error _ => 0

theorem measurable_evalSplit (co : Coeffs) (below above : XTable) :
    Measurable (fun v => okVal (evalSplit co v below above)) := by
  unfold evalSplit
  split
  · exact measurable_const
  · rename_i d _ _
    simp only [okVal]
    exact Measurable.ite (measurableSet_singleton d.1 |>.preimage measurable_id |> fun h => by
      convert h using 1; ext v; simp [eq_comm]) measurable_const measurable_const
  · rename_i d _
    split
    · exact measurable_const
    · split
      · exact measurable_const
      · simp only [okVal, extrapF]
        fun_prop
  · simp only [okVal, lever]
    fun_prop

theorem measurable_dataSigma (co : Coeffs) (t : XTable) : Measurable (fun v => okVal (dataSigma t co v)) := by
  have : ∀ (l pre : XTable), Measurable (fun v => okVal (evalSplit co v (pre ++ belowOf l v) (aboveOf l v))) := by
    intro l
    induction l with
    | nil => intro pre; simpa [belowOf, aboveOf] using measurable_evalSplit co pre []
    | cons d l ih =>
      intro pre
      have h : (fun v => okVal (evalSplit co v (pre ++ belowOf (d :: l) v) (aboveOf (d :: l) v))) =
          fun v => if d.1 < v then okVal (evalSplit co v ((pre ++ [d]) ++ belowOf l v) (aboveOf l v))
            else okVal (evalSplit co v pre (d :: l)) := by
        funext v
        by_cases hv : d.1 < v
        · simp [belowOf, aboveOf, hv]
        · simp [belowOf, aboveOf, hv]
      rw [h]
      exact Measurable.ite (measurableSet_lt measurable_const measurable_id) (ih _) (measurable_evalSplit co pre _)
  have h := this t []
  simp only [List.nil_append] at h
  exact h

theorem measurable_lotzSigma (ps : List LotzPar) (thr : ℝ) : Measurable (lotzSigma ps thr) := by
  unfold lotzSigma
  refine Measurable.ite (measurableSet_lt measurable_id measurable_const) measurable_const ?_
  have : ∀ (ps : List LotzPar) (f : ℝ → ℝ), Measurable f →
      Measurable (fun v => ps.foldl (fun s p => s + lotzTerm p v) (f v)) := by
    intro ps
    induction ps with
    | nil => intro f hf; exact hf
    | cons p ps ih =>
      intro f hf
      simp only [List.foldl_cons]
      refine ih _ (hf.add ?_)
      unfold lotzTerm
      fun_prop
  exact this ps _ measurable_const

/-- Every cross section the library loads is a measurable function. -/
theorem measurable_load {solve : RootFinder} {ex : Bool} {mu : ℝ} {d : CSDoc} {x : XSec}
    (h : d.load solve ex mu = .ok x) : Measurable (fun v => okVal (x.sigma v)) := by
  have hlt : ∀ t : ℝ, MeasurableSet {v : ℝ | v < t} := fun t => measurableSet_lt measurable_id measurable_const
  have hz : MeasurableSet {v : ℝ | v = 0} := measurableSet_singleton 0
  cases d with
  | constant v t =>
    simp only [CSDoc.load, mkConstant] at h
    split at h
    · cases h
    · cases h
      exact Measurable.ite (measurableSet_le measurable_const measurable_id) measurable_const measurable_const
  | vhs p t =>
    simp only [CSDoc.load, mkVHS] at h
    split at h
    · cases h
    · cases h
      simp only [okVal, vhsSigma]
      refine Measurable.ite (hlt _) measurable_const ?_
      fun_prop
  | inverse k t =>
    simp only [CSDoc.load, mkInverse] at h
    split at h
    · cases h
    · rename_i tE tv _
      cases h
      have : (fun v : ℝ => okVal (if v < tv then .ok 0 else if v = 0 then .error .nonfinite else .ok (k / v))) =
          fun v => if v < tv then 0 else if v = 0 then 0 else k / v := by
        funext v; split
        · rfl
        · split <;> rfl
      rw [this]
      refine Measurable.ite (hlt _) measurable_const (Measurable.ite hz measurable_const ?_)
      fun_prop
  | log A B t =>
    simp only [CSDoc.load, mkLog] at h
    split at h
    · cases h
    · rename_i tE tv _
      cases h
      have : (fun v : ℝ => okVal (logSigma A B tv v)) =
          fun v => if v < tv then 0 else if v = 0 then 0 else A - B * Real.logb 10 v := by
        funext v; unfold logSigma; split
        · rfl
        · split <;> rfl
      rw [this]
      refine Measurable.ite (hlt _) measurable_const (Measurable.ite hz measurable_const ?_)
      unfold Real.logb
      fun_prop
  | data rows =>
    simp only [CSDoc.load, mkData] at h
    split at h
    · cases h
    · cases h
      exact measurable_dataSigma _ _
  | lotz ps =>
    simp only [CSDoc.load, mkLotz] at h
    split at h
    · cases h
    · split at h
      · cases h
      · split at h
        · cases h
        · cases h
          exact measurable_lotzSigma _ _

end Chimp
