import Verif.Props.CrossSection
import Mathlib.Analysis.SpecialFunctions.Log.Deriv
import Mathlib.Analysis.SpecialFunctions.ExpDeriv
import Mathlib.Analysis.Calculus.Deriv.MeanValue
import Mathlib.Analysis.Complex.ExponentialBounds

/-!
# Lotz cross sections: C64 and C71
-/

namespace Chimp

/-! ### C64: the derivative -/

/-- The derivative of one summand. -/
theorem lotzTerm_deriv {p : LotzPar} (hb : 0 < p.beta) (hP : p.P ≠ 0) {v : ℝ} (hv : 0 < v) :
    HasDerivAt (fun v => v * lotzTerm p v) (dsvTerm p v) v := by
  have hx : 0 < v * v * p.beta := by positivity
  -- the square
  have h1 : HasDerivAt (fun v : ℝ => v * v * p.beta) (2 * v * p.beta) v := by
    have := ((hasDerivAt_id v).mul (hasDerivAt_id v)).mul_const p.beta
    refine this.congr_deriv ?_
    show (1 * v + v * 1) * p.beta = _
    ring
  have h2 : HasDerivAt (fun v : ℝ => Real.log (v * v * p.beta)) (2 * v * p.beta / (v * v * p.beta)) v :=
    h1.log hx.ne'
  have h3 : HasDerivAt (fun v : ℝ => Real.exp (-p.c * (v * v * p.beta - 1)))
      (Real.exp (-p.c * (v * v * p.beta - 1)) * (-p.c * (2 * v * p.beta))) v :=
    ((h1.sub_const 1).const_mul (-p.c)).exp
  have h4 : HasDerivAt (fun v : ℝ => p.P ^ 2 * (v * v * p.beta)) (p.P ^ 2 * (2 * v * p.beta)) v := h1.const_mul _
  have hne : p.P ^ 2 * (v * v * p.beta) ≠ 0 := by positivity
  have h5 := ((h2.const_mul (p.a * p.q)).div h4 hne).mul ((h3.const_mul p.b).const_sub 1)
  have h6 := (hasDerivAt_id v).mul h5
  refine h6.congr_deriv ?_
  have e1 : Real.exp (p.c - p.c * (v * v * p.beta)) = Real.exp (-p.c * (v * v * p.beta - 1)) := by
    congr 1; ring
  have e2 : Real.exp (-p.c + p.c * (v * v * p.beta)) = (Real.exp (-p.c * (v * v * p.beta - 1)))⁻¹ := by
    rw [← Real.exp_neg]; congr 1; ring
  unfold dsvTerm
  rw [e1, e2]
  have hE : Real.exp (-p.c * (v * v * p.beta - 1)) ≠ 0 := (Real.exp_pos _).ne'
  simp only [id, one_mul, Pi.mul_apply, Pi.div_apply]
  generalize Real.exp (-p.c * (v * v * p.beta - 1)) = E at *
  generalize Real.log (v * v * p.beta) = L at *
  have hb' := hb.ne'
  have hv' := hv.ne'
  field_simp
  ring

/-- The sum over the shells. -/
noncomputable def lotzSum (ps : List LotzPar) (v : ℝ) : ℝ := (ps.map fun p => lotzTerm p v).sum

theorem foldl_add_sum {α : Type} (f : α → ℝ) (l : List α) (s : ℝ) :
    l.foldl (fun s p => s + f p) s = s + (l.map f).sum := by
  induction l generalizing s with
  | nil => simp
  | cons a l ih => rw [List.foldl_cons, ih]; simp [add_assoc]

theorem lotzDsv_eq (ps : List LotzPar) (v : ℝ) : lotzDsv ps v = (ps.map fun p => dsvTerm p v).sum := by
  unfold lotzDsv; rw [foldl_add_sum]; simp

theorem lotzSigma_eq (ps : List LotzPar) (thr v : ℝ) :
    lotzSigma ps thr v = if v < thr then 0 else lotzSum ps v := by
  unfold lotzSigma lotzSum; rw [foldl_add_sum]; simp

/-- Positive and nonzero parameters, as any ionisation energy gives. -/
def LotzPar.Proper (p : LotzPar) : Prop := 0 < p.beta ∧ p.P ≠ 0

/-- **C64**: the function used to find the maximum is the derivative of `v` times the sum over the shells. -/
theorem C64_derivative {ps : List LotzPar} (hps : ∀ p ∈ ps, p.Proper) {v : ℝ} (hv : 0 < v) :
    HasDerivAt (fun v => v * (ps.map fun p => lotzTerm p v).sum) (lotzDsv ps v) v := by
  rw [lotzDsv_eq]
  induction ps with
  | nil => simpa using hasDerivAt_const v (0 : ℝ)
  | cons p ps ih =>
    have h1 := lotzTerm_deriv (hps p (by simp)).1 (hps p (by simp)).2 hv
    have h2 := ih fun q hq => hps q (by simp [hq])
    have := h1.add h2
    simp only [List.map_cons, List.sum_cons]
    refine this.congr_of_eventuallyEq (Filter.Eventually.of_forall fun w => ?_)
    simp only [Pi.add_apply]
    ring

/-- What a successful construction means. -/
theorem mkLotz_ok {solve : RootFinder} {ps : List LotzPar} {mu : ℝ} {x : XSec} (h : mkLotz solve ps mu = .ok x) :
    ∃ vmin vmax thr z, lotzRange ps = some (vmin, vmax) ∧
      (if vmin = vmax then thr = vmax else solve (lotzSigma ps 0) vmin vmax = some thr) ∧
      solve (lotzDsv ps) thr (doubleLoop (lotzDsv ps) 32 thr) = some z ∧
      x.thrE = 1 / 2 * mu * thr ^ 2 ∧ (∀ v, x.sigma v = .ok (lotzSigma ps thr v)) ∧
      ∀ vm, x.maxSV vm = .ok (if vm > z then (z * lotzSigma ps thr z, z) else (vm * lotzSigma ps thr vm, vm)) := by
  unfold mkLotz at h
  split at h
  · cases h
  · rename_i vmin vmax hr
    split at h
    · cases h
    · rename_i thr ht
      split at h
      · cases h
      · rename_i z hz
        cases h
        refine ⟨vmin, vmax, thr, z, hr, ?_, hz, rfl, fun _ => rfl, fun _ => rfl⟩
        split
        · rename_i he
          rw [if_pos he] at ht
          exact (Option.some.inj ht).symm
        · rename_i he
          rw [if_neg he] at ht
          exact ht

/-- **C64**, on the constructed cross section: above the threshold the function is the derivative of
`v sigma(v)`. -/
theorem C64_crossSection {solve : RootFinder} {ps : List LotzPar} {mu : ℝ} {x : XSec} (hps : ∀ p ∈ ps, p.Proper)
    (h : mkLotz solve ps mu = .ok x) :
    ∃ (thr : ℝ) (f : ℝ → ℝ), x.thrE = 1 / 2 * mu * thr ^ 2 ∧ (∀ v, x.sigma v = .ok (f v)) ∧ (∀ v, v < thr → f v = 0) ∧
      ∀ v, 0 < v → thr < v → HasDerivAt (fun w => w * f w) (lotzDsv ps v) v := by
  obtain ⟨vmin, vmax, thr, z, -, -, -, h1, h2, -⟩ := mkLotz_ok h
  refine ⟨thr, lotzSigma ps thr, h1, h2, fun v hv => by rw [lotzSigma_eq, if_pos hv], fun v hv hlt => ?_⟩
  refine (C64_derivative hps hv).congr_of_eventuallyEq ?_
  filter_upwards [lt_mem_nhds hlt] with w hw
  rw [lotzSigma_eq, if_neg (not_lt.2 hw.le)]
  rfl

/-! ### C71: the maximum -/

/-- An exact root search: the result is a root and not below the lower end. -/
def RootFinder.Exact (solve : RootFinder) : Prop := ∀ f a b z, solve f a b = some z → f z = 0 ∧ a ≤ z

/-- A product rising up to `z` and falling from there on. -/
theorem rising_falling {ps : List LotzPar} (hps : ∀ p ∈ ps, p.Proper) {thr z : ℝ} (hthr : 0 < thr)
    (hz : thr ≤ z) (hup : ∀ v, thr < v → v < z → 0 ≤ lotzDsv ps v) (hdown : ∀ v, z < v → lotzDsv ps v ≤ 0) :
    (∀ a b, thr ≤ a → a ≤ b → b ≤ z → a * lotzSum ps a ≤ b * lotzSum ps b) ∧
    (∀ a b, z ≤ a → a ≤ b → b * lotzSum ps b ≤ a * lotzSum ps a) := by
  have hd : ∀ v, 0 < v → HasDerivAt (fun v => v * lotzSum ps v) (lotzDsv ps v) v := fun v hv => C64_derivative hps hv
  constructor
  · intro a b ha hab hb
    have hm : MonotoneOn (fun v => v * lotzSum ps v) (Set.Icc thr z) := by
      apply monotoneOn_of_deriv_nonneg (convex_Icc _ _)
      · intro v hv
        exact (hd v (hthr.trans_le hv.1)).continuousAt.continuousWithinAt
      · intro v hv
        rw [interior_Icc] at hv
        exact (hd v (hthr.trans hv.1)).differentiableAt.differentiableWithinAt
      · intro v hv
        rw [interior_Icc] at hv
        rw [(hd v (hthr.trans hv.1)).deriv]
        exact hup v hv.1 hv.2
    exact hm ⟨ha, hab.trans hb⟩ ⟨ha.trans hab, hb⟩ hab
  · intro a b ha hab
    have hz0 : 0 < z := hthr.trans_le hz
    have hm : AntitoneOn (fun v => v * lotzSum ps v) (Set.Ici z) := by
      apply antitoneOn_of_deriv_nonpos (convex_Ici _)
      · intro v hv
        exact (hd v (hz0.trans_le hv)).continuousAt.continuousWithinAt
      · intro v hv
        rw [interior_Ici] at hv
        exact (hd v (hz0.trans hv)).differentiableAt.differentiableWithinAt
      · intro v hv
        rw [interior_Ici] at hv
        rw [(hd v (hz0.trans hv)).deriv]
        exact hdown v hv
    exact hm ha (ha.trans hab) hab

theorem lotzRange_pos {ps : List LotzPar} (hps : ∀ p ∈ ps, p.Proper) {vmin vmax : ℝ}
    (h : lotzRange ps = some (vmin, vmax)) : 0 < vmin ∧ 0 < vmax := by
  cases ps with
  | nil => cases h
  | cons p ps =>
    have key : ∀ (l : List LotzPar), (∀ q ∈ l, q.Proper) → ∀ r : ℝ × ℝ, 0 < r.1 → 0 < r.2 →
        0 < (l.foldl (fun r p =>
          let vi := 1 / Real.sqrt p.beta
          (if vi < r.1 then vi else r.1, if vi > r.2 then vi else r.2)) r).1 ∧
        0 < (l.foldl (fun r p =>
          let vi := 1 / Real.sqrt p.beta
          (if vi < r.1 then vi else r.1, if vi > r.2 then vi else r.2)) r).2 := by
      intro l
      induction l with
      | nil => intro _ r h1 h2; exact ⟨h1, h2⟩
      | cons q l ih =>
        intro hl r h1 h2
        rw [List.foldl_cons]
        have hq : 0 < 1 / Real.sqrt q.beta := by
          have := Real.sqrt_pos.2 (hl q (by simp)).1
          positivity
        apply ih (fun q hq => hl q (by simp [hq]))
        · dsimp only; split <;> assumption
        · dsimp only; split <;> assumption
    unfold lotzRange at h
    have hp : 0 < 1 / Real.sqrt p.beta := by
      have := Real.sqrt_pos.2 (hps p (by simp)).1
      positivity
    have := key ps (fun q hq => hps q (by simp [hq])) (1 / Real.sqrt p.beta, 1 / Real.sqrt p.beta) hp hp
    rw [Option.some.inj h] at this
    exact this

/-- With one shell the sum vanishes at its threshold. -/
theorem lotzTerm_threshold {p : LotzPar} (hb : 0 < p.beta) : lotzTerm p (1 / Real.sqrt p.beta) = 0 := by
  unfold lotzTerm
  have : 1 / Real.sqrt p.beta * (1 / Real.sqrt p.beta) * p.beta = 1 := by
    rw [div_mul_div_comm, Real.mul_self_sqrt hb.le]
    field_simp
  rw [this]
  simp

/-- The bound from the signs of the derivative on the two sides of the root found. -/
theorem lotz_bound_of_signs {ps : List LotzPar} (hps : ∀ p ∈ ps, p.Proper) {x : XSec} {thr z : ℝ} (hthr0 : 0 < thr)
    (hzle : thr ≤ z) (hup : ∀ v, thr < v → v < z → 0 ≤ lotzDsv ps v) (hdown : ∀ v, z < v → lotzDsv ps v ≤ 0)
    (h2 : ∀ v, x.sigma v = .ok (lotzSigma ps thr v))
    (h3 : ∀ vm, x.maxSV vm = .ok (if vm > z then (z * lotzSigma ps thr z, z) else (vm * lotzSigma ps thr vm, vm)))
    (hnn : ∀ v s, 0 ≤ v → x.sigma v = .ok s → 0 ≤ s) {vmax : ℝ} (hv : 0 ≤ vmax) :
    SigmaVBound x vmax ∧ SigmaVAttained x vmax := by
  obtain ⟨mono, anti⟩ := rising_falling hps hthr0 hzle hup hdown
  have hnn' : ∀ v, 0 ≤ v → 0 ≤ lotzSigma ps thr v := fun v hv => hnn v _ hv (h2 v)
  have hval : ∀ v, thr ≤ v → lotzSigma ps thr v = lotzSum ps v := fun v hv => by
    rw [lotzSigma_eq, if_neg (not_lt.2 hv)]
  have hzero : ∀ v, v < thr → lotzSigma ps thr v = 0 := fun v hv => by rw [lotzSigma_eq, if_pos hv]
  have hzpos : 0 < z := hthr0.trans_le hzle
  by_cases hc : vmax > z
  · have hm := h3 vmax
    rw [if_pos hc] at hm
    refine ⟨⟨_, _, hm, fun v s h0 hle hs => ?_⟩, ⟨_, _, _, hm, hzpos.le, hc.le, h2 z, mul_comm _ _⟩⟩
    rw [h2] at hs
    cases hs
    rcases lt_or_ge v thr with hvt | hvt
    · rw [hzero v hvt, zero_mul]
      exact mul_nonneg hzpos.le (hnn' z hzpos.le)
    · rw [hval v hvt, hval z hzle, mul_comm]
      rcases le_total v z with hvz | hvz
      · exact mono v z hvt hvz le_rfl
      · exact anti z v le_rfl hvz
  · have hm := h3 vmax
    rw [if_neg hc] at hm
    refine ⟨⟨_, _, hm, fun v s h0 hle hs => ?_⟩, ⟨_, _, _, hm, hv, le_rfl, h2 vmax, mul_comm _ _⟩⟩
    rw [h2] at hs
    cases hs
    rcases lt_or_ge v thr with hvt | hvt
    · rw [hzero v hvt, zero_mul]
      exact mul_nonneg hv (hnn' vmax hv)
    · rw [hval v hvt, hval vmax (hvt.trans hle), mul_comm]
      exact mono v vmax hvt hle (not_lt.1 hc)

/-- **C71**: if the derivative is not negative up to the root found and not positive beyond it, and the cross section
is not negative at the root, the reported maximum is a bound and is attained, for every `vmax`. -/
theorem C71_bound {solve : RootFinder} (hsolve : solve.Exact) {ps : List LotzPar} {mu : ℝ} {x : XSec}
    (hps : ∀ p ∈ ps, p.Proper) (h : mkLotz solve ps mu = .ok x)
    (hsign : ∀ z, 0 < z → lotzDsv ps z = 0 → (∀ v, 0 < v → v < z → 0 ≤ lotzDsv ps v) ∧ ∀ v, z < v → lotzDsv ps v ≤ 0)
    (hnn : ∀ v s, 0 ≤ v → x.sigma v = .ok s → 0 ≤ s) {vmax : ℝ} (hv : 0 ≤ vmax) :
    SigmaVBound x vmax ∧ SigmaVAttained x vmax := by
  obtain ⟨vmin, vtop, thr, z, hr, hthr, hz, -, h2, h3⟩ := mkLotz_ok h
  obtain ⟨p1, p2⟩ := lotzRange_pos hps hr
  have hthr0 : 0 < thr := by
    split at hthr
    · rw [hthr]; exact p2
    · exact p1.trans_le (hsolve _ _ _ _ hthr).2
  obtain ⟨hz0, hzle⟩ := hsolve _ _ _ _ hz
  obtain ⟨hup, hdown⟩ := hsign z (hthr0.trans_le hzle) hz0
  exact lotz_bound_of_signs hps hthr0 hzle (fun v h1 h2 => hup v (hthr0.trans h1) h2) hdown h2 h3 hnn hv

/-- Weight of a shell without the exponential correction. -/
noncomputable def LotzPar.weight (p : LotzPar) : ℝ := p.a * p.q / (p.P ^ 2 * p.beta)

/-- Shells without the exponential correction and with positive coefficients. -/
def LotzPar.Plain (p : LotzPar) : Prop := p.Proper ∧ p.b = 0 ∧ 0 < p.a * p.q

theorem plain_term {p : LotzPar} (hp : p.Plain) {v : ℝ} (hv : 0 < v) :
    lotzTerm p v = (p.weight * Real.log p.beta + p.weight * (2 * Real.log v)) / v ^ 2 ∧
    dsvTerm p v = (2 * p.weight - (p.weight * Real.log p.beta + p.weight * (2 * Real.log v))) / v ^ 2 := by
  obtain ⟨⟨hb, hP⟩, hb0, -⟩ := hp
  have hlog : Real.log (v * v * p.beta) = 2 * Real.log v + Real.log p.beta := by
    rw [Real.log_mul (by positivity) hb.ne', Real.log_mul hv.ne' hv.ne']; ring
  have e1 : Real.exp (p.c - p.c * (v * v * p.beta)) * Real.exp (-p.c + p.c * (v * v * p.beta)) = 1 := by
    rw [← Real.exp_add, ← Real.exp_zero]; congr 1; ring
  unfold lotzTerm dsvTerm LotzPar.weight
  rw [hb0, hlog]
  have hb' := hb.ne'
  have hv' := hv.ne'
  constructor
  · field_simp; ring
  · have : p.a * p.q * Real.exp (p.c - p.c * (v * v * p.beta)) / (p.P ^ 2 * (v * v * p.beta))
        * (2 * 0 * ((2 * Real.log v + Real.log p.beta) * (1 / 2 + p.c * (v * v * p.beta)) - 1)
          - Real.exp (-p.c + p.c * (v * v * p.beta)) * (2 * Real.log v + Real.log p.beta - 2)) =
        p.a * p.q / (p.P ^ 2 * (v * v * p.beta)) *
        (Real.exp (p.c - p.c * (v * v * p.beta)) * Real.exp (-p.c + p.c * (v * v * p.beta)))
          * (2 - (2 * Real.log v + Real.log p.beta)) := by ring
    rw [this, e1]
    field_simp; ring

theorem plain_sums {ps : List LotzPar} (hps : ∀ p ∈ ps, p.Plain) {v : ℝ} (hv : 0 < v) :
    lotzSum ps v = ((ps.map fun p => p.weight * Real.log p.beta).sum
      + (ps.map LotzPar.weight).sum * (2 * Real.log v)) / v ^ 2 ∧
    lotzDsv ps v = (2 * (ps.map LotzPar.weight).sum - ((ps.map fun p => p.weight * Real.log p.beta).sum
      + (ps.map LotzPar.weight).sum * (2 * Real.log v))) / v ^ 2 := by
  rw [lotzDsv_eq]
  unfold lotzSum
  induction ps with
  | nil => simp
  | cons p ps ih =>
    obtain ⟨i1, i2⟩ := ih fun q hq => hps q (by simp [hq])
    obtain ⟨t1, t2⟩ := plain_term (hps p (by simp)) hv
    simp only [List.map_cons, List.sum_cons]
    rw [i1, i2, t1, t2]
    constructor <;> ring

theorem plain_weight_pos {ps : List LotzPar} (hne : ps ≠ []) (hps : ∀ p ∈ ps, p.Plain) :
    0 < (ps.map LotzPar.weight).sum := by
  have hw : ∀ p ∈ ps, 0 < p.weight := by
    intro p hp
    obtain ⟨⟨hb, hP⟩, -, ha⟩ := hps p hp
    unfold LotzPar.weight
    have : 0 < p.P ^ 2 := by positivity
    positivity
  have hsum : ∀ l : List LotzPar, (∀ p ∈ l, 0 < p.weight) → 0 ≤ (l.map LotzPar.weight).sum := by
    intro l hl
    apply List.sum_nonneg
    intro r hr
    obtain ⟨p, hp, rfl⟩ := List.mem_map.1 hr
    exact (hl p hp).le
  cases ps with
  | nil => exact absurd rfl hne
  | cons p ps =>
    simp only [List.map_cons, List.sum_cons]
    have h1 := hw p (by simp)
    have h2 := hsum ps fun q hq => hw q (by simp [hq])
    linarith

/-- Above its threshold a sum of plain shells is not negative. -/
theorem plain_nonneg {solve : RootFinder} (hsolve : solve.Exact) {ps : List LotzPar} {mu : ℝ} {x : XSec}
    (hps : ∀ p ∈ ps, p.Plain) (h : mkLotz solve ps mu = .ok x) {v s : ℝ} (hs : x.sigma v = .ok s) :
    0 ≤ s := by
  have hprop : ∀ p ∈ ps, p.Proper := fun p hp => (hps p hp).1
  obtain ⟨vmin, vtop, thr, z, hr, hthr, hz, -, h2, -⟩ := mkLotz_ok h
  obtain ⟨p1, p2⟩ := lotzRange_pos hprop hr
  have hne : ps ≠ [] := by rintro rfl; cases hr
  have hW := plain_weight_pos hne hps
  rw [h2] at hs
  cases hs
  rw [lotzSigma_eq]
  split
  · exact le_rfl
  · rename_i hlt
    have hlt := not_lt.1 hlt
    -- the sum at the threshold
    have hthr0 : 0 < thr := by
      split at hthr
      · rw [hthr]; exact p2
      · exact p1.trans_le (hsolve _ _ _ _ hthr).2
    have hat : 0 ≤ lotzSum ps thr := by
      split at hthr
      · -- all thresholds are equal
        rename_i heq
        have hall : ∀ p ∈ ps, 1 / Real.sqrt p.beta = thr := by
          cases ps with
          | nil => exact absurd rfl hne
          | cons q ps =>
            have key : ∀ (l : List LotzPar) (r : ℝ × ℝ), r.1 ≤ r.2 →
                let o := l.foldl (fun r p =>
                  let vi := 1 / Real.sqrt p.beta
                  (if vi < r.1 then vi else r.1, if vi > r.2 then vi else r.2)) r
                o.1 ≤ r.1 ∧ r.2 ≤ o.2 ∧ ∀ p ∈ l, o.1 ≤ 1 / Real.sqrt p.beta ∧ 1 / Real.sqrt p.beta ≤ o.2 := by
              intro l
              induction l with
              | nil => intro r _; exact ⟨le_rfl, le_rfl, by simp⟩
              | cons p l ih =>
                intro r hr
                rw [List.foldl_cons]
                dsimp only
                have a1 : (if 1 / Real.sqrt p.beta < r.1 then 1 / Real.sqrt p.beta else r.1) ≤ r.1 := by
                  split <;> [exact (by assumption : _ < _).le; exact le_rfl]
                have a2 : r.2 ≤ (if 1 / Real.sqrt p.beta > r.2 then 1 / Real.sqrt p.beta else r.2) := by
                  split <;> [exact (by assumption : _ > _).le; exact le_rfl]
                have a3 : (if 1 / Real.sqrt p.beta < r.1 then 1 / Real.sqrt p.beta else r.1) ≤ 1 / Real.sqrt p.beta := by
                  split <;> [exact le_rfl; exact not_lt.1 (by assumption)]
                have a4 : 1 / Real.sqrt p.beta ≤ (if 1 / Real.sqrt p.beta > r.2 then 1 / Real.sqrt p.beta else r.2) := by
                  split <;> [exact le_rfl; exact not_lt.1 (by assumption)]
                obtain ⟨b1, b2, b3⟩ := ih (_, _) (a1.trans (hr.trans a2))
                refine ⟨b1.trans a1, a2.trans b2, fun p' hp' => ?_⟩
                rcases List.mem_cons.1 hp' with rfl | hp'
                · exact ⟨b1.trans a3, a4.trans b2⟩
                · exact b3 p' hp'
            have := key ps (1 / Real.sqrt q.beta, 1 / Real.sqrt q.beta) le_rfl
            unfold lotzRange at hr
            dsimp only at this
            rw [Option.some.inj hr] at this
            obtain ⟨c1, c2, c3⟩ := this
            dsimp only at c1 c2 c3
            intro p hp
            rcases List.mem_cons.1 hp with rfl | hp
            · linarith
            · have := c3 p hp
              linarith [this.1, this.2]
        have : lotzSum ps thr = 0 := by
          unfold lotzSum
          apply List.sum_eq_zero
          intro r hr
          obtain ⟨p, hp, rfl⟩ := List.mem_map.1 hr
          rw [← hall p hp]
          exact lotzTerm_threshold (hprop p hp).1
        rw [this]
      · have := (hsolve _ _ _ _ hthr).1
        rw [lotzSigma_eq, if_neg (not_lt.2 hthr0.le)] at this
        rw [this]
    have hv0 : 0 < v := hthr0.trans_le hlt
    rw [(plain_sums hps hthr0).1] at hat
    rw [(plain_sums hps hv0).1]
    have hnum : 0 ≤ (ps.map fun p => p.weight * Real.log p.beta).sum
        + (ps.map LotzPar.weight).sum * (2 * Real.log thr) := by
      by_contra hc
      have := div_neg_of_neg_of_pos (not_le.1 hc) (show 0 < thr ^ 2 by positivity)
      linarith
    have hlog : Real.log thr ≤ Real.log v := Real.log_le_log hthr0 hlt
    have : (ps.map LotzPar.weight).sum * (2 * Real.log thr) ≤ (ps.map LotzPar.weight).sum * (2 * Real.log v) := by
      gcongr
    apply div_nonneg _ (by positivity)
    linarith

/-- **C71**, shells without exponential correction (any number of shells, any positive coefficients): the cross
section is never negative, and the reported maximum is a bound and attained. -/
theorem C71_plain {solve : RootFinder} (hsolve : solve.Exact) {ps : List LotzPar} {mu : ℝ} {x : XSec}
    (hps : ∀ p ∈ ps, p.Plain) (h : mkLotz solve ps mu = .ok x) {vmax : ℝ} (hv : 0 ≤ vmax) :
    (∀ v s, x.sigma v = .ok s → 0 ≤ s) ∧ SigmaVBound x vmax ∧ SigmaVAttained x vmax := by
  have hne : ps ≠ [] := by
    rintro rfl
    obtain ⟨_, _, _, _, hr, -⟩ := mkLotz_ok h
    cases hr
  have hW := plain_weight_pos hne hps
  refine ⟨fun v s hs => plain_nonneg hsolve hps h hs,
    C71_bound hsolve (fun p hp => (hps p hp).1) h ?_ (fun v s _ hs => plain_nonneg hsolve hps h hs) hv⟩
  intro z hz0 hz
  rw [(plain_sums hps hz0).2, div_eq_zero_iff] at hz
  have hz := hz.resolve_right (by positivity)
  constructor
  · intro v hv0 hvz
    rw [(plain_sums hps hv0).2]
    have := Real.log_le_log hv0 hvz.le
    have : (ps.map LotzPar.weight).sum * (2 * Real.log v) ≤ (ps.map LotzPar.weight).sum * (2 * Real.log z) := by
      gcongr
    apply div_nonneg _ (by positivity)
    linarith
  · intro v hzv
    rw [(plain_sums hps (hz0.trans hzv)).2]
    have := Real.log_le_log hz0 hzv.le
    have : (ps.map LotzPar.weight).sum * (2 * Real.log z) ≤ (ps.map LotzPar.weight).sum * (2 * Real.log v) := by
      gcongr
    apply div_nonpos_of_nonpos_of_nonneg _ (by positivity)
    linarith

/-- **C71**, one shell: the threshold energy in the centre of mass is the ionisation energy times the reduced mass over
the electron mass, and without the exponential correction the reported speed is the one where an electron has e²
times the ionisation energy. -/
theorem C71_single {solve : RootFinder} (hsolve : solve.Exact) {me P q a b c mu : ℝ} (hme : 0 < me) (hP : 0 < P)
    {x : XSec} (h : mkLotz solve [LotzPar.load me P q a b c] mu = .ok x) :
    x.thrE = P * mu / me ∧
    (b = 0 → 0 < a * q → ∃ z, 1 / 2 * me * z ^ 2 = Real.exp 1 ^ 2 * P ∧
      ∀ vmax, z < vmax → ∃ M, x.maxSV vmax = .ok (M, z)) := by
  obtain ⟨vmin, vtop, thr, z, hr, hthr, hz, h1, h2, h3⟩ := mkLotz_ok h
  have hbeta : 0 < me / (2 * P) := by positivity
  have hr' := Option.some.inj hr
  simp only [LotzPar.load, List.foldl_nil, Prod.mk.injEq] at hr'
  obtain ⟨e1, e2⟩ := hr'
  rw [if_pos (by rw [← e1, ← e2])] at hthr
  have hthr2 : thr ^ 2 = 2 * P / me := by
    rw [hthr, ← e2, div_pow, Real.sq_sqrt hbeta.le]
    field_simp
  have hthr0 : 0 < thr := by
    rw [hthr, ← e2]
    have := Real.sqrt_pos.2 hbeta
    positivity
  refine ⟨by rw [h1, hthr2]; field_simp, fun hb ha => ?_⟩
  obtain ⟨hz0, hzle⟩ := hsolve _ _ _ _ hz
  have hzpos : 0 < z := hthr0.trans_le hzle
  refine ⟨z, ?_, fun vmax hv => ⟨_, by rw [h3, if_pos hv]⟩⟩
  have hpl : ∀ p ∈ [LotzPar.load me P q a b c], p.Plain := by
    intro p hp
    rw [List.mem_singleton] at hp
    subst hp
    exact ⟨⟨hbeta, hP.ne'⟩, hb, ha⟩
  have hW := plain_weight_pos (by simp) hpl
  rw [(plain_sums hpl hzpos).2, div_eq_zero_iff] at hz0
  have hz0 := hz0.resolve_right (by positivity)
  simp only [List.map_cons, List.map_nil, List.sum_cons, List.sum_nil, add_zero] at hz0 hW
  have hl : Real.log (z ^ 2 * (me / (2 * P))) = 2 := by
    rw [Real.log_mul (by positivity) hbeta.ne', Real.log_pow]
    have : (LotzPar.load me P q a b c).weight *
        (2 - (Real.log (me / (2 * P)) + 2 * Real.log z)) = 0 := by
      rw [← hz0]
      have : (LotzPar.load me P q a b c).beta = me / (2 * P) := rfl
      rw [this]; ring
    rcases mul_eq_zero.1 this with h | h
    · exact absurd h hW.ne'
    · push_cast; linarith
  have h4 : z ^ 2 * (me / (2 * P)) = Real.exp 2 := by
    have := Real.exp_log (show 0 < z ^ 2 * (me / (2 * P)) by positivity)
    rw [hl] at this
    exact this.symm
  have h5 : Real.exp 2 = Real.exp 1 ^ 2 := by rw [← Real.exp_nat_mul]; norm_num
  rw [← h5, ← h4]
  field_simp

/-- An exact root search that knows one root. -/
noncomputable def oneRoot (r : ℝ) : RootFinder := by
  classical exact fun f a _ => if f r = 0 ∧ a ≤ r then some r else none

theorem oneRoot_exact (r : ℝ) : (oneRoot r).Exact := by
  intro f a b z h
  unfold oneRoot at h
  split at h
  · cases h; assumption
  · cases h

/-- Non-vacuity: one shell with `beta = 1`; the maximum is at e. -/
example : ∃ x, mkLotz (oneRoot (Real.exp 1)) [LotzPar.load 2 1 1 1 0 0] 3 = .ok x ∧
    x.thrE = 3 / 2 ∧ SigmaVBound x 100 ∧ SigmaVAttained x 100 := by
  have hpl : ∀ p ∈ [LotzPar.load 2 1 1 1 0 0], p.Plain := by
    intro p hp
    rw [List.mem_singleton] at hp
    subst hp
    exact ⟨⟨by norm_num [LotzPar.load], by norm_num [LotzPar.load]⟩, rfl, by norm_num [LotzPar.load]⟩
  have hx : ∃ x, mkLotz (oneRoot (Real.exp 1)) [LotzPar.load 2 1 1 1 0 0] 3 = .ok x := by
    have hr : lotzRange [LotzPar.load 2 1 1 1 0 0] = some (1, 1) := by norm_num [lotzRange, LotzPar.load]
    have hroot : lotzDsv [LotzPar.load 2 1 1 1 0 0] (Real.exp 1) = 0 := by
      rw [(plain_sums hpl (Real.exp_pos 1)).2]
      simp [LotzPar.load]
      ring
    have hle : (1 : ℝ) ≤ Real.exp 1 := by
      have := Real.add_one_le_exp (1 : ℝ); linarith
    unfold mkLotz
    rw [hr]
    simp [oneRoot, hroot, hle]
  obtain ⟨x, hx⟩ := hx
  refine ⟨x, hx, ?_, (C71_plain (oneRoot_exact _) hpl hx (by norm_num)).2⟩
  rw [(C71_single (oneRoot_exact _) (by norm_num) (by norm_num) hx).1]
  norm_num

/-- A root search that finds a root of every continuous function that changes sign in the interval. -/
def RootFinder.Bracketing (solve : RootFinder) : Prop :=
  ∀ (f : ℝ → ℝ) (a b : ℝ), a < b → ContinuousOn f (Set.Icc a b) → f a * f b ≤ 0 →
    ∃ z, solve f a b = some z ∧ f z = 0 ∧ a ≤ z ∧ z ≤ b

/-- The two ends of the range of thresholds. -/
theorem lotzRange_spec {ps : List LotzPar} {vmin vmax : ℝ} (h : lotzRange ps = some (vmin, vmax)) :
    vmin ≤ vmax ∧ ∀ p ∈ ps, vmin ≤ 1 / Real.sqrt p.beta ∧ 1 / Real.sqrt p.beta ≤ vmax := by
  cases ps with
  | nil => cases h
  | cons q ps =>
    have key : ∀ (l : List LotzPar) (r : ℝ × ℝ), r.1 ≤ r.2 →
        let o := l.foldl (fun r p =>
          let vi := 1 / Real.sqrt p.beta
          (if vi < r.1 then vi else r.1, if vi > r.2 then vi else r.2)) r
        o.1 ≤ r.1 ∧ r.2 ≤ o.2 ∧ ∀ p ∈ l, o.1 ≤ 1 / Real.sqrt p.beta ∧ 1 / Real.sqrt p.beta ≤ o.2 := by
      intro l
      induction l with
      | nil => intro r _; exact ⟨le_rfl, le_rfl, by simp⟩
      | cons p l ih =>
        intro r hr
        rw [List.foldl_cons]
        dsimp only
        have a1 : (if 1 / Real.sqrt p.beta < r.1 then 1 / Real.sqrt p.beta else r.1) ≤ r.1 := by
          split <;> [exact (by assumption : _ < _).le; exact le_rfl]
        have a2 : r.2 ≤ (if 1 / Real.sqrt p.beta > r.2 then 1 / Real.sqrt p.beta else r.2) := by
          split <;> [exact (by assumption : _ > _).le; exact le_rfl]
        have a3 : (if 1 / Real.sqrt p.beta < r.1 then 1 / Real.sqrt p.beta else r.1) ≤ 1 / Real.sqrt p.beta := by
          split <;> [exact le_rfl; exact not_lt.1 (by assumption)]
        have a4 : 1 / Real.sqrt p.beta ≤ (if 1 / Real.sqrt p.beta > r.2 then 1 / Real.sqrt p.beta else r.2) := by
          split <;> [exact le_rfl; exact not_lt.1 (by assumption)]
        obtain ⟨b1, b2, b3⟩ := ih (_, _) (a1.trans (hr.trans a2))
        refine ⟨b1.trans a1, a2.trans b2, fun p' hp' => ?_⟩
        rcases List.mem_cons.1 hp' with rfl | hp'
        · exact ⟨b1.trans a3, a4.trans b2⟩
        · exact b3 p' hp'
    have := key ps (1 / Real.sqrt q.beta, 1 / Real.sqrt q.beta) le_rfl
    unfold lotzRange at h
    dsimp only at this
    rw [Option.some.inj h] at this
    obtain ⟨c1, c2, c3⟩ := this
    dsimp only at c1 c2 c3
    refine ⟨c1.trans c2, fun p hp => ?_⟩
    rcases List.mem_cons.1 hp with rfl | hp
    · exact ⟨c1, c2⟩
    · exact c3 p hp

/-- The two ends of the range are thresholds of shells. -/
theorem lotzRange_attained {ps : List LotzPar} {vmin vmax : ℝ} (h : lotzRange ps = some (vmin, vmax)) :
    (∃ p ∈ ps, vmin = 1 / Real.sqrt p.beta) ∧ ∃ p ∈ ps, vmax = 1 / Real.sqrt p.beta := by
  cases ps with
  | nil => cases h
  | cons q ps =>
    have key : ∀ (l : List LotzPar) (r : ℝ × ℝ) (Q : ℝ → Prop), Q r.1 → Q r.2 → (∀ p ∈ l, Q (1 / Real.sqrt p.beta)) →
        Q (l.foldl (fun r p =>
          let vi := 1 / Real.sqrt p.beta
          (if vi < r.1 then vi else r.1, if vi > r.2 then vi else r.2)) r).1 ∧
        Q (l.foldl (fun r p =>
          let vi := 1 / Real.sqrt p.beta
          (if vi < r.1 then vi else r.1, if vi > r.2 then vi else r.2)) r).2 := by
      intro l
      induction l with
      | nil => intro r Q h1 h2 _; exact ⟨h1, h2⟩
      | cons p l ih =>
        intro r Q h1 h2 hl
        rw [List.foldl_cons]
        have hp := hl p (by simp)
        apply ih _ _ _ _ fun p hp => hl p (by simp [hp])
        · dsimp only; split <;> assumption
        · dsimp only; split <;> assumption
    have := key ps (1 / Real.sqrt q.beta, 1 / Real.sqrt q.beta) (fun v => ∃ p ∈ q :: ps, v = 1 / Real.sqrt p.beta)
      ⟨q, by simp, rfl⟩ ⟨q, by simp, rfl⟩ fun p hp => ⟨p, by simp [hp], rfl⟩
    unfold lotzRange at h
    rw [Option.some.inj h] at this
    exact this

/-- The sign of a plain shell below and above its own threshold. -/
theorem plain_term_sign {p : LotzPar} (hp : p.Plain) {v : ℝ} (hv : 0 < v) :
    (v ≤ 1 / Real.sqrt p.beta → lotzTerm p v ≤ 0) ∧ (1 / Real.sqrt p.beta ≤ v → 0 ≤ lotzTerm p v) := by
  obtain ⟨⟨hb, hP⟩, hb0, ha⟩ := hp
  have hs : 0 < Real.sqrt p.beta := Real.sqrt_pos.2 hb
  have hsq : Real.sqrt p.beta * Real.sqrt p.beta = p.beta := Real.mul_self_sqrt hb.le
  have hx : 0 < v * v * p.beta := by positivity
  have hden : 0 < p.P ^ 2 * (v * v * p.beta) := by positivity
  have e : v * v * p.beta = (v * Real.sqrt p.beta) * (v * Real.sqrt p.beta) := by linear_combination -(v * v) * hsq
  have hval : lotzTerm p v = p.a * p.q * Real.log (v * v * p.beta) / (p.P ^ 2 * (v * v * p.beta)) := by
    unfold lotzTerm; rw [hb0]; ring
  have h0 : 0 < v * Real.sqrt p.beta := by positivity
  rw [hval]
  constructor
  · intro h
    rw [le_div_iff₀ hs] at h
    have : Real.log (v * v * p.beta) ≤ 0 := Real.log_nonpos hx.le (by rw [e]; nlinarith)
    exact div_nonpos_of_nonpos_of_nonneg (by nlinarith) hden.le
  · intro h
    rw [div_le_iff₀ hs] at h
    have : 0 ≤ Real.log (v * v * p.beta) := Real.log_nonneg (by rw [e]; nlinarith)
    exact div_nonneg (by positivity) hden.le

/-- A plain shell vanishes only at its own threshold. -/
theorem plain_term_zero {p : LotzPar} (hp : p.Plain) {v : ℝ} (hv : 0 < v) (h : lotzTerm p v = 0) :
    v = 1 / Real.sqrt p.beta := by
  obtain ⟨⟨hb, hP⟩, hb0, ha⟩ := hp
  have hs : 0 < Real.sqrt p.beta := Real.sqrt_pos.2 hb
  have hsq : Real.sqrt p.beta * Real.sqrt p.beta = p.beta := Real.mul_self_sqrt hb.le
  have hx : 0 < v * v * p.beta := by positivity
  have hden : 0 < p.P ^ 2 * (v * v * p.beta) := by positivity
  have hval : lotzTerm p v = p.a * p.q * Real.log (v * v * p.beta) / (p.P ^ 2 * (v * v * p.beta)) := by
    unfold lotzTerm; rw [hb0]; ring
  rw [hval, div_eq_zero_iff] at h
  have h := (mul_eq_zero.1 (h.resolve_right hden.ne')).resolve_left ha.ne'
  have h1 : v * v * p.beta = 1 := by
    have := Real.exp_log hx
    rw [h, Real.exp_zero] at this
    exact this.symm
  have h2 : (v * Real.sqrt p.beta) * (v * Real.sqrt p.beta) = 1 := by
    linear_combination v * v * hsq + h1
  rw [eq_div_iff hs.ne']
  have h3 : 0 < v * Real.sqrt p.beta := by positivity
  nlinarith

/-- Multiples of the threshold of plain shells: the derivative there. -/
theorem plain_dsv_multiple {ps : List LotzPar} (hps : ∀ p ∈ ps, p.Plain) {thr m : ℝ} (ht : 0 < thr) (hm : 0 < m)
    (h0 : lotzSum ps thr = 0) :
    lotzDsv ps (m * thr) = (ps.map LotzPar.weight).sum * (2 - 2 * Real.log m) / (m * thr) ^ 2 := by
  rw [(plain_sums hps ht).1, div_eq_zero_iff] at h0
  have h0 := h0.resolve_right (by positivity)
  rw [(plain_sums hps (by positivity)).2, Real.log_mul hm.ne' ht.ne']
  congr 1
  linear_combination -h0

/-- **C71**, construction: with a root search that finds sign changes, a Lotz cross section of any nonempty list of
plain shells is constructed; the sum of the shells vanishes at its threshold, which lies between the thresholds of the
shells, and the product of speed and cross section is largest at e times the threshold speed. -/
theorem C71_succeeds {solve : RootFinder} (hsolve : solve.Bracketing) {ps : List LotzPar} (mu : ℝ)
    (hne : ps ≠ []) (hps : ∀ p ∈ ps, p.Plain) :
    ∃ x thr, mkLotz solve ps mu = .ok x ∧ 0 < thr ∧ x.thrE = 1 / 2 * mu * thr ^ 2 ∧
      (∃ p ∈ ps, 1 / Real.sqrt p.beta ≤ thr) ∧ (∃ p ∈ ps, thr ≤ 1 / Real.sqrt p.beta) ∧
      (∀ v, thr ≤ v → x.sigma v = .ok (ps.map fun p => lotzTerm p v).sum) ∧ x.sigma thr = .ok 0 ∧
      ∀ vmax, Real.exp 1 * thr < vmax → ∃ M, x.maxSV vmax = .ok (M, Real.exp 1 * thr) := by
  have hprop : ∀ p ∈ ps, p.Proper := fun p hp => (hps p hp).1
  have hW := plain_weight_pos hne hps
  obtain ⟨⟨vmin, vmax⟩, hr⟩ : ∃ r, lotzRange ps = some r := by
    cases ps with
    | nil => exact absurd rfl hne
    | cons p ps => exact ⟨_, rfl⟩
  obtain ⟨p1, p2⟩ := lotzRange_pos hprop hr
  obtain ⟨hle, hmem⟩ := lotzRange_spec hr
  -- the threshold
  obtain ⟨thr, hthr, hthr1, hthr2, hsum⟩ : ∃ thr,
      (if vmin = vmax then some vmax else solve (lotzSigma ps 0) vmin vmax) = some thr ∧
      vmin ≤ thr ∧ thr ≤ vmax ∧ lotzSum ps thr = 0 := by
    by_cases he : vmin = vmax
    · refine ⟨vmax, by rw [if_pos he], hle, le_rfl, ?_⟩
      apply List.sum_eq_zero
      intro r hr
      obtain ⟨p, hp, rfl⟩ := List.mem_map.1 hr
      have := hmem p hp
      rw [show vmax = 1 / Real.sqrt p.beta from le_antisymm (he ▸ this.1) this.2]
      exact lotzTerm_threshold (hprop p hp).1
    · rw [if_neg he]
      have hs : ∀ v, 0 < v → lotzSigma ps 0 v = lotzSum ps v := fun v hv => by
        rw [lotzSigma_eq, if_neg (not_lt.2 hv.le)]
      have n1 : lotzSum ps vmin ≤ 0 := by
        unfold lotzSum
        have : ∀ r ∈ ps.map fun p => lotzTerm p vmin, r ≤ 0 := by
          intro r hr
          obtain ⟨p, hp, rfl⟩ := List.mem_map.1 hr
          exact (plain_term_sign (hps p hp) p1).1 (hmem p hp).1
        have key : ∀ l : List ℝ, (∀ r ∈ l, r ≤ 0) → l.sum ≤ 0 := by
          intro l
          induction l with
          | nil => simp
          | cons r l ih =>
            intro h
            rw [List.sum_cons]
            have h1 := h r (by simp)
            have h2 := ih fun r hr => h r (by simp [hr])
            linarith
        exact key _ this
      have n2 : 0 ≤ lotzSum ps vmax := by
        unfold lotzSum
        apply List.sum_nonneg
        intro r hr
        obtain ⟨p, hp, rfl⟩ := List.mem_map.1 hr
        exact (plain_term_sign (hps p hp) p2).2 (hmem p hp).2
      have hcont : ContinuousOn (lotzSigma ps 0) (Set.Icc vmin vmax) := by
        have : ContinuousOn (fun v => v * lotzSum ps v / v) (Set.Icc vmin vmax) := by
          apply ContinuousOn.div _ continuousOn_id
          · intro v hv; exact (p1.trans_le hv.1).ne'
          · intro v hv
            exact (C64_derivative hprop (p1.trans_le hv.1)).continuousAt.continuousWithinAt
        refine this.congr fun v hv => ?_
        have h0 : 0 < v := p1.trans_le hv.1
        rw [hs v h0]
        field_simp
      obtain ⟨z, hz, hz0, hz1, hz2⟩ := hsolve _ vmin vmax (lt_of_le_of_ne hle he) hcont
        (by rw [hs _ p1, hs _ p2]; exact mul_nonpos_of_nonpos_of_nonneg n1 n2)
      exact ⟨z, hz, hz1, hz2, by rw [← hs z (p1.trans_le hz1)]; exact hz0⟩
  have ht0 : 0 < thr := p1.trans_le hthr1
  have hd : ∀ m, 0 < m → lotzDsv ps (m * thr) = _ := fun m hm => plain_dsv_multiple hps ht0 hm hsum
  -- the doubling loop stops at four times the threshold
  have l2 : Real.log 2 < 1 := by
    rw [Real.log_lt_iff_lt_exp (by norm_num)]; have := Real.exp_one_gt_d9; linarith
  have l4 : 1 < Real.log 4 := by
    rw [Real.lt_log_iff_exp_lt (by norm_num)]; have := Real.exp_one_lt_d9; linarith
  have q1 : lotzDsv ps thr > 0 := by
    have := hd 1 one_pos
    rw [one_mul, Real.log_one] at this
    rw [this]
    have : 0 < thr ^ 2 := by positivity
    simp only [mul_zero, sub_zero]
    positivity
  have q2 : lotzDsv ps (thr * 2) > 0 := by
    rw [mul_comm, hd 2 two_pos]
    have : 0 < 2 - 2 * Real.log 2 := by linarith
    positivity
  have q4 : lotzDsv ps (thr * 2 * 2) < 0 := by
    rw [show thr * 2 * 2 = 4 * thr by ring, hd 4 (by norm_num)]
    have h1 : 2 - 2 * Real.log 4 < 0 := by linarith
    exact div_neg_of_neg_of_pos (mul_neg_of_pos_of_neg hW h1) (by positivity)
  have hdl : doubleLoop (lotzDsv ps) 32 thr = thr * 2 * 2 := by
    show doubleLoop (lotzDsv ps) (29 + 1 + 1 + 1) thr = _
    rw [doubleLoop, if_pos q1, doubleLoop, if_pos q2, doubleLoop, if_neg (not_lt.2 q4.le)]
  have hcontd : ContinuousOn (lotzDsv ps) (Set.Icc thr (thr * 2 * 2)) := by
    have : ContinuousOn (fun v => (2 * (ps.map LotzPar.weight).sum - ((ps.map fun p => p.weight * Real.log p.beta).sum
      + (ps.map LotzPar.weight).sum * (2 * Real.log v))) / v ^ 2) (Set.Icc thr (thr * 2 * 2)) := by
      have hl : ContinuousOn Real.log (Set.Icc thr (thr * 2 * 2)) :=
        Real.continuousOn_log.mono fun v hv => (ht0.trans_le hv.1).ne'
      apply ContinuousOn.div
      · exact continuousOn_const.sub (continuousOn_const.add (continuousOn_const.mul (continuousOn_const.mul hl)))
      · exact continuousOn_pow 2
      · intro v hv; have := ht0.trans_le hv.1; positivity
    exact this.congr fun v hv => (plain_sums hps (ht0.trans_le hv.1)).2
  obtain ⟨z, hz, hz0, hz1, hz2⟩ := hsolve _ thr (thr * 2 * 2) (by linarith) hcontd
    (mul_nonpos_of_nonneg_of_nonpos (le_of_lt q1) q4.le)
  have hzpos : 0 < z := ht0.trans_le hz1
  have hze : z = Real.exp 1 * thr := by
    have h1 : z = z / thr * thr := by field_simp
    have hm : 0 < z / thr := by positivity
    have h2 := hd _ hm
    rw [← h1, hz0, eq_comm, div_eq_zero_iff] at h2
    have h2 := h2.resolve_right (by positivity)
    have h3 : Real.log (z / thr) = 1 := by
      rcases mul_eq_zero.1 h2 with h | h
      · exact absurd h hW.ne'
      · linarith
    have h4 := Real.exp_log hm
    rw [h3] at h4
    rw [h4]; exact h1
  refine ⟨{ sigma := fun v => .ok (lotzSigma ps thr v)
            thrE := 1 / 2 * mu * thr ^ 2
            maxSV := fun vm => .ok (if vm > z then (z * lotzSigma ps thr z, z)
              else (vm * lotzSigma ps thr vm, vm)) }, thr, ?_, ht0, rfl, ?_, ?_, ?_, ?_, ?_⟩
  · unfold mkLotz
    rw [hr]
    simp only [hthr, hdl, hz]
  · by_contra hc
    push Not at hc
    -- all shells start above: the sum would be negative
    have hneg : ∀ p ∈ ps, lotzTerm p thr < 0 := by
      intro p hp
      refine lt_of_le_of_ne ((plain_term_sign (hps p hp) ht0).1 (hc p hp).le) fun h => ?_
      exact absurd (plain_term_zero (hps p hp) ht0 h) (hc p hp).ne
    have : lotzSum ps thr < 0 := by
      unfold lotzSum
      have := List.sum_lt_sum_of_ne_nil hne (fun p => lotzTerm p thr) (fun _ => 0) hneg
      simpa using this
    linarith
  · by_contra hc
    push Not at hc
    have hpos : ∀ p ∈ ps, 0 < lotzTerm p thr := by
      intro p hp
      refine lt_of_le_of_ne ((plain_term_sign (hps p hp) ht0).2 (hc p hp).le) fun h => ?_
      exact absurd (plain_term_zero (hps p hp) ht0 h.symm) (hc p hp).ne'
    have : 0 < lotzSum ps thr := by
      unfold lotzSum
      have := List.sum_lt_sum_of_ne_nil hne (fun _ => 0) (fun p => lotzTerm p thr) hpos
      simpa using this
    linarith
  · intro v hv
    show Except.ok (lotzSigma ps thr v) = _
    rw [lotzSigma_eq, if_neg (not_lt.2 hv)]; rfl
  · show Except.ok (lotzSigma ps thr thr) = _
    rw [lotzSigma_eq, if_neg (lt_irrefl _), hsum]
  · intro vm hvm
    rw [← hze] at hvm ⊢
    exact ⟨z * lotzSigma ps thr z, by simp only [if_pos hvm]⟩

/-- An ideal root search: any root in the interval. -/
noncomputable def idealRoot : RootFinder := by
  classical exact fun f a b => if h : ∃ z, f z = 0 ∧ a ≤ z ∧ z ≤ b then some h.choose else none

theorem idealRoot_good : idealRoot.Exact ∧ idealRoot.Bracketing := by
  constructor
  · intro f a b z h
    unfold idealRoot at h
    split at h
    · rename_i hz
      cases h
      exact ⟨hz.choose_spec.1, hz.choose_spec.2.1⟩
    · cases h
  · intro f a b hab hf hs
    have hex : ∃ z, f z = 0 ∧ a ≤ z ∧ z ≤ b := by
      rcases le_total (f a) 0 with h | h
      · rcases eq_or_lt_of_le h with h0 | h0
        · exact ⟨a, h0, le_rfl, hab.le⟩
        · obtain ⟨z, hz, h0⟩ := intermediate_value_Icc hab.le hf (show (0 : ℝ) ∈ Set.Icc (f a) (f b) from
            ⟨h, by by_contra hc; nlinarith⟩)
          exact ⟨z, h0, hz.1, hz.2⟩
      · rcases eq_or_lt_of_le h with h0 | h0
        · exact ⟨a, h0.symm, le_rfl, hab.le⟩
        · obtain ⟨z, hz, h0⟩ := intermediate_value_Icc' hab.le hf (show (0 : ℝ) ∈ Set.Icc (f b) (f a) from
            ⟨by by_contra hc; nlinarith, h⟩)
          exact ⟨z, h0, hz.1, hz.2⟩
    refine ⟨hex.choose, ?_, hex.choose_spec⟩
    unfold idealRoot
    rw [dif_pos hex]

/-- Non-vacuity: two shells with different thresholds. -/
example : ∃ x, mkLotz idealRoot [LotzPar.load 2 1 1 1 0 0, LotzPar.load 2 9 2 1 0 0] 3 = .ok x ∧
    SigmaVBound x 100 := by
  have hpl : ∀ p ∈ [LotzPar.load 2 1 1 1 0 0, LotzPar.load 2 9 2 1 0 0], p.Plain := by
    intro p hp
    rcases List.mem_cons.1 hp with rfl | hp
    · exact ⟨⟨by norm_num [LotzPar.load], by norm_num [LotzPar.load]⟩, rfl, by norm_num [LotzPar.load]⟩
    · rw [List.mem_singleton] at hp
      subst hp
      exact ⟨⟨by norm_num [LotzPar.load], by norm_num [LotzPar.load]⟩, rfl, by norm_num [LotzPar.load]⟩
  obtain ⟨x, -, hx, -⟩ := C71_succeeds idealRoot_good.2 3 (by simp) hpl
  exact ⟨x, hx, (C71_plain idealRoot_good.1 hpl hx (by norm_num)).2.1⟩

end Chimp
