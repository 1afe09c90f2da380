import Verif.Model.VHSInfo
import Verif.Lemmas.CrossMeasurable
import Verif.Props.Thermal

/-!
# C107: rate coefficients of a thermal gas

The rate coefficient of an interaction is the mean of `σ(v) v` over the pairs of a gas.  For particles in thermal
equilibrium (`ThermalPair` of `Props/Thermal.lean`) it is computed here for cross sections as they are loaded, and
compared with the laws that give the stored parameters their meaning.
-/

namespace Chimp
open MeasureTheory ProbabilityTheory Set
open scoped NNReal ENNReal

/-- The mean of `σ(v) v` over pairs with velocities `X` and `Y`. -/
noncomputable def meanRate {Ω : Type*} [MeasurableSpace Ω] (P : Measure Ω) (X Y : Fin 3 → Ω → ℝ) (x : XSec) : ℝ :=
  ∫ ω, okVal (x.sigma (relSpeed X Y ω)) * relSpeed X Y ω ∂P

/-! ### Moments of the distribution of speeds -/

/-- A moment of the distribution of speeds, without its norm. -/
noncomputable def speedMom (s q : ℝ) : ℝ := ∫ y in Ioi (0 : ℝ), y ^ q * Real.exp (-y ^ 2 / (2 * s))

theorem speed_exp (s y : ℝ) : Real.exp (-y ^ 2 / (2 * s)) = Real.exp (-(1 / (2 * s)) * y ^ (2 : ℝ)) := by
  rw [Real.rpow_two]
  congr 1
  ring

theorem speedMom_integrable {s q : ℝ} (hs : 0 < s) (hq : -1 < q) :
    IntegrableOn (fun y : ℝ => y ^ q * Real.exp (-y ^ 2 / (2 * s))) (Ioi 0) := by
  simp_rw [speed_exp s]
  exact integrableOn_rpow_mul_exp_neg_mul_rpow hq two_pos (by positivity)

theorem speedMom_eq {s q : ℝ} (hs : 0 < s) (hq : -1 < q) :
    speedMom s q = (2 * s) ^ ((q + 1) / 2) / 2 * Real.Gamma ((q + 1) / 2) := by
  unfold speedMom
  simp_rw [speed_exp s]
  rw [integral_rpow_mul_exp_neg_mul_rpow two_pos hq (by positivity), one_div (2 * s), Real.inv_rpow (by positivity),
    neg_div, Real.rpow_neg (by positivity), inv_inv]
  ring

private theorem mom_three {s : ℝ} (hs : 0 < s) : speedMom s 3 = 2 * s ^ 2 := by
  rw [speedMom_eq hs (by norm_num), show (3 + 1 : ℝ) / 2 = ((1 : ℕ) : ℝ) + 1 by norm_num, Real.Gamma_nat_eq_factorial,
    show ((1 : ℕ) : ℝ) + 1 = ((2 : ℕ) : ℝ) by norm_num, Real.rpow_natCast]
  norm_num
  ring

/-- Two moments apart by two. -/
theorem speedMom_step {s q : ℝ} (hs : 0 < s) (hq : -1 < q) : speedMom s (q + 2) = s * (q + 1) * speedMom s q := by
  rw [speedMom_eq hs hq, speedMom_eq hs (by linarith), show (q + 2 + 1) / 2 = (q + 1) / 2 + 1 by ring,
    Real.Gamma_add_one (by linarith), Real.rpow_add_one (by positivity)]
  ring

section
variable {Ω : Type*} [MeasurableSpace Ω] {P : Measure Ω} {kB T m₁ m₂ : ℝ} {X Y : Fin 3 → Ω → ℝ}

/-- The mean of `g(v) v`, relative to the mean of `v`. -/
private theorem mean_ratio (h : ThermalPair P kB T m₁ m₂ X Y) (hk : 0 < kB) (hT : 0 < T) (h₁ : 0 < m₁) (h₂ : 0 < m₂)
    {g : ℝ → ℝ} (hg : Measurable g) :
    ∫ ω, g (relSpeed X Y ω) * relSpeed X Y ω ∂P =
      (∫ y in Ioi (0 : ℝ), g y * (y ^ (3 : ℝ) * Real.exp (-y ^ 2 / (2 * (kB * T / pairMass m₁ m₂))))) /
        (2 * (kB * T / pairMass m₁ m₂) ^ 2) * ∫ ω, relSpeed X Y ω ∂P := by
  have hm := pairMass_pos h₁ h₂
  set s := kB * T / pairMass m₁ m₂ with hsdef
  have hs : 0 < s := by positivity
  have hc : ((s.toNNReal : ℝ≥0) : ℝ) = s := Real.coe_toNNReal _ hs.le
  have key : ∀ f : ℝ → ℝ, Measurable f → ∫ ω, f (relSpeed X Y ω) * relSpeed X Y ω ∂P =
      4 * Real.pi * (√(2 * Real.pi * s))⁻¹ ^ 3 *
        ∫ y in Ioi (0 : ℝ), f y * (y ^ (3 : ℝ) * Real.exp (-y ^ 2 / (2 * s))) := by
    intro f hf
    rw [h.mean hk hT h₁ h₂ (g := fun y => f y * y) (hf.mul measurable_id),
      pi_gaussian_speed (Real.toNNReal_pos.2 hs).ne' (fun y => f y * y), hc]
    congr 1
    refine setIntegral_congr_fun measurableSet_Ioi fun y _ => ?_
    simp only [Real.rpow_ofNat]
    ring
  have h1 := key (fun _ => 1) measurable_const
  simp only [one_mul] at h1
  rw [key g hg, h1]
  have h3 := mom_three hs
  rw [speedMom] at h3
  rw [h3]
  field_simp

/-! ### Constant cross sections -/

/-- The tail of the third moment. -/
private theorem tail_three {s a : ℝ} (hs : 0 < s) (ha : 0 ≤ a) :
    ∫ y in Ioi a, y ^ (3 : ℝ) * Real.exp (-y ^ 2 / (2 * s)) = s * (a ^ 2 + 2 * s) * Real.exp (-a ^ 2 / (2 * s)) := by
  have hd : ∀ y ∈ Ioi a, HasDerivAt (fun y : ℝ => -(s * (y ^ 2 + 2 * s) * Real.exp (-y ^ 2 / (2 * s))))
      (y ^ (3 : ℝ) * Real.exp (-y ^ 2 / (2 * s))) y := by
    intro y _
    have h1 : HasDerivAt (fun y : ℝ => -y ^ 2 / (2 * s)) (-(2 * y) / (2 * s)) y := by
      simpa using ((hasDerivAt_pow 2 y).neg).div_const (2 * s)
    have h2 : HasDerivAt (fun y : ℝ => s * (y ^ 2 + 2 * s)) (s * (2 * y)) y := by
      simpa using ((hasDerivAt_pow 2 y).add_const (2 * s)).const_mul s
    have h3 := (h2.mul h1.exp).neg
    refine h3.congr_deriv ?_
    simp only [Real.rpow_ofNat]
    field_simp
    ring
  have hc : ContinuousWithinAt (fun y : ℝ => -(s * (y ^ 2 + 2 * s) * Real.exp (-y ^ 2 / (2 * s)))) (Ici a) a :=
    (by fun_prop : Continuous fun y : ℝ => -(s * (y ^ 2 + 2 * s) * Real.exp (-y ^ 2 / (2 * s)))).continuousWithinAt
  have hint : IntegrableOn (fun y : ℝ => y ^ (3 : ℝ) * Real.exp (-y ^ 2 / (2 * s))) (Ioi a) :=
    (speedMom_integrable hs (by norm_num)).mono_set (Ioi_subset_Ioi ha)
  have ht : Filter.Tendsto (fun y : ℝ => -(s * (y ^ 2 + 2 * s) * Real.exp (-y ^ 2 / (2 * s)))) Filter.atTop (nhds 0) := by
    have hu : Filter.Tendsto (fun y : ℝ => y ^ 2 / (2 * s)) Filter.atTop Filter.atTop :=
      (Filter.tendsto_pow_atTop two_ne_zero).atTop_div_const (by positivity)
    have e0 := Real.tendsto_pow_mul_exp_neg_atTop_nhds_zero 0
    have e1 := Real.tendsto_pow_mul_exp_neg_atTop_nhds_zero 1
    have e2 := ((e1.add e0).comp hu).const_mul (-(2 * s ^ 2))
    simp only [add_zero, mul_zero] at e2
    refine e2.congr fun y => ?_
    simp only [Function.comp, pow_one, pow_zero, one_mul]
    rw [show -(y ^ 2 / (2 * s)) = -y ^ 2 / (2 * s) by ring]
    field_simp
  rw [integral_Ioi_of_hasDerivAt_of_tendsto hc hd hint ht]
  ring

/-- **C107**  Arrhenius' law: a constant cross section with threshold energy `E` has the rate coefficient
`σ ⟨v⟩ (1 + E / kT) exp(-E / kT)`. -/
theorem C107_constant (h : ThermalPair P kB T m₁ m₂ X Y) (hk : 0 < kB) (hT : 0 < T) (h₁ : 0 < m₁) (h₂ : 0 < m₂)
    (solve : RootFinder) (ex : Bool) {value : ℝ} {thr : Option ThrDoc} {x : XSec}
    (hx : CSDoc.load solve ex (pairMass m₁ m₂) (.constant value thr) = .ok x) :
    meanRate P X Y x = value * (∫ ω, relSpeed X Y ω ∂P) *
      ((1 + x.thrE / (kB * T)) * Real.exp (-x.thrE / (kB * T))) := by
  have hm := pairMass_pos h₁ h₂
  rw [CSDoc.load, mkConstant, setThreshold] at hx
  split at hx
  · simp at hx
  · rename_i tE tv hE
    split_ifs at hE with hneg
    simp only [Except.ok.injEq, Prod.mk.injEq] at hE hx
    obtain ⟨rfl, htv⟩ := hE
    subst hx
    push Not at hneg
    set E := loadThreshold (pairMass m₁ m₂) thr
    have htv0 : 0 ≤ tv := htv ▸ Real.sqrt_nonneg _
    have htv2 : tv ^ 2 = 2 * E / pairMass m₁ m₂ := by
      rw [← htv, Real.sq_sqrt (by positivity)]
      field_simp
    rw [meanRate, mean_ratio h hk hT h₁ h₂ (g := fun v => okVal (.ok (if v ≥ tv then value else 0)))
      (by
        simp only [okVal]
        exact Measurable.ite measurableSet_Ici measurable_const measurable_const)]
    simp only [okVal]
    have hs : 0 < kB * T / pairMass m₁ m₂ := by positivity
    have e1 : ∫ y in Ioi (0 : ℝ), (if y ≥ tv then value else 0) *
        (y ^ (3 : ℝ) * Real.exp (-y ^ 2 / (2 * (kB * T / pairMass m₁ m₂)))) =
        value * ∫ y in Ioi tv, y ^ (3 : ℝ) * Real.exp (-y ^ 2 / (2 * (kB * T / pairMass m₁ m₂))) := by
      rw [← integral_const_mul, ← integral_Ici_eq_integral_Ioi (x := tv),
        ← integral_Ici_eq_integral_Ioi (x := (0 : ℝ)),
        ← integral_indicator measurableSet_Ici, ← integral_indicator measurableSet_Ici]
      congr 1
      funext y
      simp only [indicator, mem_Ici, ge_iff_le]
      by_cases h1 : tv ≤ y
      · rw [if_pos (htv0.trans h1), if_pos h1, if_pos h1]
      · simp [h1]
    rw [e1, tail_three hs htv0, htv2]
    rw [show -(2 * E / pairMass m₁ m₂) / (2 * (kB * T / pairMass m₁ m₂)) = -E / (kB * T) by field_simp]
    field_simp
    ring

/-! ### Inverse cross sections -/

/-- Pairs without relative motion have probability zero. -/
theorem never_equal (h : ThermalPair P kB T m₁ m₂ X Y) (hk : 0 < kB) (hT : 0 < T) (h₁ : 0 < m₁) (h₂ : 0 < m₂) :
    ∀ᵐ ω ∂P, 0 < relSpeed X Y ω := by
  have hm := pairMass_pos h₁ h₂
  have hs : 0 < kB * T / pairMass m₁ m₂ := by positivity
  have hc := h.component hk hT h₁ h₂ 0
  have := nullSingletonClass_gaussianReal (μ := 0) (Real.toNNReal_pos.2 hs).ne'
  have h0 : P {ω | X 0 ω - Y 0 ω = 0} = 0 := by
    have := Measure.map_apply_of_aemeasurable (h.measZ 0) (measurableSet_singleton (0 : ℝ))
    rw [hc, measure_singleton] at this
    exact this.symm
  have h0' : ∀ᵐ ω ∂P, X 0 ω - Y 0 ω ≠ 0 := by
    rw [ae_iff]
    simpa using h0
  filter_upwards [h0'] with ω hω
  refine Real.sqrt_pos.2 ?_
  rw [Fin.sum_univ_three]
  have := sq_pos_of_ne_zero hω
  positivity

/-- **C107**  An inverse cross section (`σ = k / v`) with threshold energy `E` has the rate coefficient `k` times the
fraction of the pairs that have the energy `E` in their relative motion.  Without threshold that is `k` at every
temperature. -/
theorem C107_inverse (h : ThermalPair P kB T m₁ m₂ X Y) (hk : 0 < kB) (hT : 0 < T) (h₁ : 0 < m₁) (h₂ : 0 < m₂)
    (solve : RootFinder) (ex : Bool) {k : ℝ} {thr : Option ThrDoc} {x : XSec}
    (hx : CSDoc.load solve ex (pairMass m₁ m₂) (.inverse k thr) = .ok x) :
    meanRate P X Y x = k * P.real {ω | x.thrE ≤ pairMass m₁ m₂ / 2 * relSpeed X Y ω ^ 2} ∧
      (thr = none → meanRate P X Y x = k) := by
  have hm := pairMass_pos h₁ h₂
  have := h.axes.isProbabilityMeasure
  rw [CSDoc.load, mkInverse] at hx
  split at hx
  · simp at hx
  · rename_i tE tv hE
    rw [setThreshold] at hE
    split_ifs at hE with hneg
    simp only [Except.ok.injEq, Prod.mk.injEq] at hE hx
    obtain ⟨rfl, htv⟩ := hE
    subst hx
    push Not at hneg
    set E := loadThreshold (pairMass m₁ m₂) thr with hEdef
    have hiff : ∀ ω, E ≤ pairMass m₁ m₂ / 2 * relSpeed X Y ω ^ 2 ↔ tv ≤ relSpeed X Y ω := by
      intro ω
      rw [← htv, Real.sqrt_le_left (show 0 ≤ relSpeed X Y ω from Real.sqrt_nonneg _), div_le_iff₀ (by positivity)]
      constructor <;> intro h <;> linarith
    have hmeas : NullMeasurableSet {ω | tv ≤ relSpeed X Y ω} P := by
      have h1 : AEMeasurable (relSpeed X Y) P := by
        unfold relSpeed
        have := h.measZ
        fun_prop
      exact nullMeasurableSet_le aemeasurable_const h1
    have main : meanRate P X Y ⟨fun v => if v < tv then .ok 0 else if v = 0 then .error .nonfinite else .ok (k / v), E,
        fun vmax => .ok (if vmax ≥ tv then (k, tv) else (0, 0))⟩ = k * P.real {ω | tv ≤ relSpeed X Y ω} := by
      rw [meanRate]
      have e1 : ∀ᵐ ω ∂P, okVal (if relSpeed X Y ω < tv then .ok 0 else if relSpeed X Y ω = 0 then .error .nonfinite
          else .ok (k / relSpeed X Y ω)) * relSpeed X Y ω =
          {ω | tv ≤ relSpeed X Y ω}.indicator (fun _ => k) ω := by
        filter_upwards [never_equal h hk hT h₁ h₂] with ω hω
        by_cases hlt : relSpeed X Y ω < tv
        · simp [hlt, okVal]
        · rw [if_neg hlt, if_neg hω.ne', indicator_of_mem (show ω ∈ {ω | tv ≤ relSpeed X Y ω} from not_lt.1 hlt)]
          simp only [okVal]
          field_simp
      rw [integral_congr_ae e1, integral_indicator₀ hmeas, setIntegral_const, smul_eq_mul, mul_comm]
    refine ⟨?_, fun hn => ?_⟩
    · simp only [hiff]
      exact main
    · rw [main]
      have h0 : tv = 0 := by
        rw [← htv, hEdef, hn, loadThreshold]
        simp
      rw [show {ω | tv ≤ relSpeed X Y ω} = univ from by
        ext ω
        simp [h0, relSpeed]]
      simp

/-! ### VHS -/

private theorem guard_bounds {a t u : ℝ} (ha : 0 ≤ a) (ht : 0 ≤ t) (hu : 0 < u) :
    u ^ (-a) * (1 - a * (t / u)) ≤ (u + t) ^ (-a) ∧ (u + t) ^ (-a) ≤ u ^ (-a) := by
  refine ⟨?_, Real.rpow_le_rpow_of_nonpos hu (by linarith) (by linarith)⟩
  have h1 : u + t = u * (1 + t / u) := by field_simp
  have hp : 0 < 1 + t / u := by positivity
  rw [h1, Real.mul_rpow hu.le hp.le]
  refine mul_le_mul_of_nonneg_left ?_ (by positivity)
  rw [Real.rpow_def_of_pos hp]
  have h2 := Real.log_le_sub_one_of_pos hp
  have h3 := Real.add_one_le_exp (Real.log (1 + t / u) * -a)
  nlinarith

theorem measurable_vhsSigma (p : VHSParam) (μ tv : ℝ) : Measurable (vhsSigma p μ tv) := by
  unfold vhsSigma
  refine Measurable.ite measurableSet_Iio measurable_const ?_
  fun_prop

/-- A VHS cross section without threshold loads. -/
theorem load_vhs (solve : RootFinder) (ex : Bool) (μ : ℝ) (p : VHSParam) :
    ∃ x, CSDoc.load solve ex μ (.vhs p none) = .ok x ∧ x.sigma = fun v => .ok (vhsSigma p μ 0 v) := by
  refine ⟨⟨fun v => .ok (vhsSigma p μ 0 v), 0, fun vmax =>
    .ok (if vmax ≥ 0 then (vhsSigma p μ 0 vmax * vmax, vmax) else (0, 0))⟩, ?_, rfl⟩
  simp only [CSDoc.load, mkVHS, setThreshold, loadThreshold, lt_irrefl, if_false, zero_div, Real.sqrt_zero]

/-- The common factor of all values of a VHS cross section. -/
private theorem vhs_value {kB tiny value Tref w μ v : ℝ} (hk : 0 < kB) (hR : 0 < Tref) (ht : 0 ≤ tiny) (hm : 0 < μ)
    (hv : 0 < v) :
    vhsSigma (vhsInfo kB tiny value Tref w) μ 0 v =
      value * (2 * kB * Tref) ^ (w - 1 / 2) / Real.Gamma (5 / 2 - w) * (μ * v ^ 2 + tiny) ^ (-(w - 1 / 2)) := by
  have hp : 0 < μ * v ^ 2 + tiny := by positivity
  rw [vhsSigma, if_neg (not_lt.2 hv.le), vhsInfo]
  simp only
  rw [Real.div_rpow (by positivity) hp.le, Real.rpow_neg hp.le]
  ring

/-- Moments weighted with a VHS cross section, up to the effect of the guard. -/
theorem vhs_moment {kB tiny value Tref w μ s n : ℝ} (hk : 0 < kB) (ht : 0 ≤ tiny) (hv : 0 ≤ value) (hR : 0 < Tref)
    (hm : 0 < μ) (hs : 0 < s) (hw : 1 / 2 ≤ w) (hw' : w < 5 / 2) (hn : 2 * (w - 1 / 2) < n - 1) :
    let c := value * (2 * kB * Tref) ^ (w - 1 / 2) / Real.Gamma (5 / 2 - w) * μ ^ (-(w - 1 / 2))
    let I := ∫ y in Ioi (0 : ℝ), vhsSigma (vhsInfo kB tiny value Tref w) μ 0 y *
      (y ^ n * Real.exp (-y ^ 2 / (2 * s)))
    c * (speedMom s (n - 2 * (w - 1 / 2)) -
        (w - 1 / 2) * (tiny / μ) * speedMom s (n - 2 - 2 * (w - 1 / 2))) ≤ I ∧
      I ≤ c * speedMom s (n - 2 * (w - 1 / 2)) := by
  intro c' I
  have hσ : ∀ y, 0 < y → vhsSigma (vhsInfo kB tiny value Tref w) μ 0 y = _ := fun y hy =>
    vhs_value (w := w) (value := value) hk hR ht hm hy
  set a := w - 1 / 2 with ha
  have ha0 : 0 ≤ a := by linarith
  have hG : 0 < Real.Gamma (5 / 2 - w) := Real.Gamma_pos_of_pos (by linarith)
  set c := value * (2 * kB * Tref) ^ a / Real.Gamma (5 / 2 - w) with hc
  have hc0 : 0 ≤ c := by positivity
  have hpow : ∀ y : ℝ, 0 < y → (μ * y ^ 2) ^ (-a) * y ^ n = μ ^ (-a) * y ^ (n - 2 * a) := by
    intro y hy
    rw [Real.mul_rpow hm.le (by positivity), ← Real.rpow_two, ← Real.rpow_mul hy.le, mul_assoc,
      ← Real.rpow_add hy]
    congr 2
    ring
  have hpow' : ∀ y : ℝ, 0 < y → y ^ (n - 2 * a) / y ^ 2 = y ^ (n - 2 - 2 * a) := by
    intro y hy
    rw [← Real.rpow_two, ← Real.rpow_sub hy]
    congr 1
    ring
  have i3 := speedMom_integrable hs (q := n - 2 * a) (by linarith)
  have i1 := speedMom_integrable hs (q := n - 2 - 2 * a) (by linarith)
  have hle : ∀ y, 0 < y → vhsSigma (vhsInfo kB tiny value Tref w) μ 0 y * (y ^ n * Real.exp (-y ^ 2 / (2 * s))) ≤
      c * μ ^ (-a) * (y ^ (n - 2 * a) * Real.exp (-y ^ 2 / (2 * s))) := by
    intro y hy
    rw [hσ y hy]
    calc _ ≤ c * (μ * y ^ 2) ^ (-a) * (y ^ n * Real.exp (-y ^ 2 / (2 * s))) :=
          mul_le_mul_of_nonneg_right (mul_le_mul_of_nonneg_left
            (guard_bounds ha0 ht (by positivity)).2 hc0) (by positivity)
      _ = c * ((μ * y ^ 2) ^ (-a) * y ^ n) * Real.exp (-y ^ 2 / (2 * s)) := by ring
      _ = _ := by rw [hpow y hy]; ring
  have ivhs : IntegrableOn (fun y => vhsSigma (vhsInfo kB tiny value Tref w) μ 0 y *
      (y ^ n * Real.exp (-y ^ 2 / (2 * s)))) (Ioi 0) := by
    refine Integrable.mono' (i3.const_mul (c * μ ^ (-a))) ?_ ?_
    · refine Measurable.aestronglyMeasurable ?_
      have hmeas := measurable_vhsSigma (vhsInfo kB tiny value Tref w) μ 0
      fun_prop
    · filter_upwards [self_mem_ae_restrict measurableSet_Ioi] with y hy
      have hy : 0 < y := hy
      rw [Real.norm_of_nonneg (by rw [hσ y hy]; positivity)]
      exact hle y hy
  constructor
  · rw [speedMom, speedMom, ← integral_const_mul, ← integral_sub i3 (i1.const_mul _), ← integral_const_mul]
    refine setIntegral_mono_on ((i3.sub (i1.const_mul _)).const_mul _) ivhs measurableSet_Ioi fun y hy => ?_
    have hy : 0 < y := hy
    rw [hσ y hy]
    calc _ = c * ((μ * y ^ 2) ^ (-a) * (1 - a * (tiny / (μ * y ^ 2)))) * (y ^ n * Real.exp (-y ^ 2 / (2 * s))) := by
          rw [show c * ((μ * y ^ 2) ^ (-a) * (1 - a * (tiny / (μ * y ^ 2)))) *
            (y ^ n * Real.exp (-y ^ 2 / (2 * s))) = c * ((μ * y ^ 2) ^ (-a) * y ^ n) *
              (1 - a * (tiny / (μ * y ^ 2))) * Real.exp (-y ^ 2 / (2 * s)) by ring, hpow y hy, ← hpow' y hy]
          change c * μ ^ (-a) * _ = _
          field_simp
      _ ≤ _ := mul_le_mul_of_nonneg_right (mul_le_mul_of_nonneg_left
            (guard_bounds ha0 ht (by positivity)).1 hc0) (by positivity)
  · rw [speedMom, ← integral_const_mul]
    exact setIntegral_mono_on ivhs (i3.const_mul _) measurableSet_Ioi fun y hy => hle y hy

/-- **C107**  The meaning of `value`, `T_ref` and `visc_T_law`: in a gas of temperature `T` the rate coefficient of a
VHS cross section without threshold is `value (T_ref / T)^(visc_T_law - 1/2) ⟨v⟩`, so that `value` is the cross
section of the hard spheres with the same rate at `T_ref`.  The guard against a division by zero (`tiny`) lowers it by
a fraction of at most `(visc_T_law - 1/2) / (3/2 - visc_T_law) * tiny / (2 kT)`. -/
theorem C107_vhs (h : ThermalPair P kB T m₁ m₂ X Y) (hk : 0 < kB) (hT : 0 < T) (h₁ : 0 < m₁) (h₂ : 0 < m₂)
    (solve : RootFinder) (ex : Bool) {tiny value Tref w : ℝ} (ht : 0 ≤ tiny) (hv : 0 ≤ value) (hR : 0 < Tref)
    (hw : 1 / 2 ≤ w) (hw' : w < 3 / 2) :
    ∃ x, CSDoc.load solve ex (pairMass m₁ m₂) (.vhs (vhsInfo kB tiny value Tref w) none) = .ok x ∧
      value * (Tref / T) ^ (w - 1 / 2) * (∫ ω, relSpeed X Y ω ∂P) *
          (1 - (w - 1 / 2) / (3 / 2 - w) * (tiny / (2 * (kB * T)))) ≤ meanRate P X Y x ∧
      meanRate P X Y x ≤ value * (Tref / T) ^ (w - 1 / 2) * ∫ ω, relSpeed X Y ω ∂P := by
  have hm := pairMass_pos h₁ h₂
  set μ := pairMass m₁ m₂ with hμ
  obtain ⟨x, hx, hxs⟩ := load_vhs solve ex μ (vhsInfo kB tiny value Tref w)
  refine ⟨x, hx, ?_⟩
  set s := kB * T / μ with hsdef
  have hs : 0 < s := by positivity
  obtain ⟨hlower, hupper⟩ := vhs_moment (n := 3) hk ht hv hR hm hs hw (by linarith) (by linarith)
  set a := w - 1 / 2 with ha
  have ha1 : a < 1 := by linarith
  have hG : 0 < Real.Gamma (5 / 2 - w) := Real.Gamma_pos_of_pos (by linarith)
  set c := value * (2 * kB * Tref) ^ a / Real.Gamma (5 / 2 - w) * μ ^ (-a) with hc
  simp only [meanRate, hxs]
  rw [mean_ratio h hk hT h₁ h₂ (g := fun v => okVal (.ok (vhsSigma (vhsInfo kB tiny value Tref w) μ 0 v)))
    (measurable_vhsSigma _ _ _)]
  rw [← hsdef]
  have hV : 0 ≤ ∫ ω, relSpeed X Y ω ∂P := integral_nonneg fun ω => Real.sqrt_nonneg _
  set V := ∫ ω, relSpeed X Y ω ∂P
  simp only [okVal]
  have hM3 := speedMom_step hs (q := 1 - 2 * a) (by linarith)
  rw [show 1 - 2 * a + 2 = 3 - 2 * a by ring] at hM3
  rw [show (3 : ℝ) - 2 - 2 * a = 1 - 2 * a by ring] at hlower
  have hM3' : c * speedMom s (3 - 2 * a) = value * (Tref / T) ^ a * (2 * s ^ 2) := by
    rw [speedMom_eq hs (by linarith), show (3 - 2 * a + 1) / 2 = 2 - a by ring, hc,
      show 5 / 2 - w = 2 - a by rw [ha]; ring, Real.rpow_sub (by positivity : 0 < 2 * s) 2 a, Real.rpow_two, hsdef,
      Real.div_rpow hR.le hT.le, Real.rpow_neg hm.le]
    rw [show 2 * (kB * T / μ) = 2 * kB * T / μ by ring, Real.div_rpow (by positivity) hm.le,
      Real.mul_rpow (by positivity) hT.le, Real.mul_rpow (by positivity) hR.le]
    have g0 : Real.Gamma (2 - a) ≠ 0 := by rw [show 2 - a = 5 / 2 - w by rw [ha]; ring]; exact hG.ne'
    have g1 : 0 < (2 * kB) ^ a := by positivity
    have g2 : 0 < T ^ a := by positivity
    have g3 : 0 < μ ^ a := by positivity
    field_simp
  have hs2 : 0 < 2 * s ^ 2 := by positivity
  have h1a : 0 < 1 - a := by linarith
  have hm1 : speedMom s (1 - 2 * a) = speedMom s (3 - 2 * a) / (s * (2 * (1 - a))) := by
    rw [hM3, show 1 - 2 * a + 1 = 2 * (1 - a) by ring]
    field_simp
  constructor
  · have e : value * (Tref / T) ^ a * V * (1 - a / (3 / 2 - w) * (tiny / (2 * (kB * T)))) =
        (c * (speedMom s (3 - 2 * a) - a * (tiny / μ) * speedMom s (1 - 2 * a))) / (2 * s ^ 2) * V := by
      rw [hm1, show speedMom s (3 - 2 * a) - a * (tiny / μ) * (speedMom s (3 - 2 * a) / (s * (2 * (1 - a)))) =
        speedMom s (3 - 2 * a) * (1 - a * (tiny / μ) / (s * (2 * (1 - a)))) by ring, ← mul_assoc c, hM3', hsdef,
        show 3 / 2 - w = 1 - a by rw [ha]; ring]
      field_simp
    rw [e]
    gcongr
  · rw [show value * (Tref / T) ^ a * V = (value * (Tref / T) ^ a * (2 * s ^ 2)) / (2 * s ^ 2) * V by field_simp, ← hM3']
    gcongr

/-- **C107**  Nothing checks `visc_T_law`: between `5/2` and `7/2` the gamma function is negative, and a VHS cross
section with a positive `value` loads without error and is negative at every speed. -/
theorem C107_vhs_negative (solve : RootFinder) (ex : Bool) {μ tiny value Tref w : ℝ} (hk : 0 < kB) (hm : 0 < μ)
    (ht : 0 ≤ tiny) (hv : 0 < value) (hR : 0 < Tref) (hw : 5 / 2 < w) (hw' : w < 7 / 2) :
    ∃ x, CSDoc.load solve ex μ (.vhs (vhsInfo kB tiny value Tref w) none) = .ok x ∧
      ∀ v, 0 < v → ∃ σ, x.sigma v = .ok σ ∧ σ < 0 := by
  obtain ⟨x, hx, hxs⟩ := load_vhs solve ex μ (vhsInfo kB tiny value Tref w)
  refine ⟨x, hx, fun v hv0 => ⟨_, by rw [hxs], ?_⟩⟩
  rw [vhs_value hk hR ht hm hv0]
  have hG : Real.Gamma (5 / 2 - w) < 0 := by
    have h1 := Real.Gamma_add_one (show 5 / 2 - w ≠ 0 by linarith)
    have h2 := Real.Gamma_pos_of_pos (show 0 < 5 / 2 - w + 1 by linarith)
    nlinarith
  refine mul_neg_of_neg_of_pos (div_neg_of_pos_of_neg (by positivity) hG) (by positivity)

end

/-! ### Examples -/

/-- Non-trivial case: argon-like particles of masses one and three at twice the reference temperature, with viscosity
exponent one and no guard: the rate is that of hard spheres with `1 / √2` of the reference cross section; with a
constant cross section and a threshold of `kT` the rate falls to `2 / e`. -/
example : ∃ (P : Measure (Fin 3 → ℝ × ℝ)) (X Y : Fin 3 → (Fin 3 → ℝ × ℝ) → ℝ) (x y : XSec),
    ThermalPair P 1 600 1 3 X Y ∧
    CSDoc.load (fun _ _ _ => none) false (pairMass 1 3) (.vhs (vhsInfo 1 0 5 300 1) none) = .ok x ∧
    meanRate P X Y x = 5 * √(1 / 2) * ∫ ω, relSpeed X Y ω ∂P ∧
    CSDoc.load (fun _ _ _ => none) false (pairMass 1 3) (.constant 5 (some (.energy 600))) = .ok y ∧
    meanRate P X Y y = 5 * (∫ ω, relSpeed X Y ω ∂P) * (2 * Real.exp (-1)) := by
  have h := thermalPair_exists 1 600 1 3
  obtain ⟨x, hx, h1, h2⟩ := C107_vhs h one_pos (by norm_num) one_pos (by norm_num) (fun _ _ _ => none) false
    (tiny := 0) (value := 5) (Tref := 300) (w := 1) le_rfl (by norm_num) (by norm_num) (by norm_num) (by norm_num)
  obtain ⟨y, hy, hyE⟩ : ∃ y, CSDoc.load (fun _ _ _ => none) false (pairMass 1 3) (.constant 5 (some (.energy 600))) = .ok y ∧
      y.thrE = 600 := by
    refine ⟨⟨fun v => .ok (if v ≥ √(600 / (1 / 2 * pairMass 1 3)) then 5 else 0), 600, fun vmax =>
      .ok (if vmax ≥ √(600 / (1 / 2 * pairMass 1 3)) then (5 * vmax, vmax) else (0, 0))⟩, ?_, rfl⟩
    rw [CSDoc.load, mkConstant, setThreshold, loadThreshold, if_neg (by norm_num)]
  refine ⟨_, _, _, x, y, h, hx, le_antisymm ?_ ?_, hy, ?_⟩
  · refine h2.trans (le_of_eq ?_)
    rw [show (300 / 600 : ℝ) = 1 / 2 by norm_num, show (1 : ℝ) - 1 / 2 = 1 / 2 by norm_num, Real.sqrt_eq_rpow]
  · refine (le_of_eq ?_).trans h1
    rw [show (300 / 600 : ℝ) = 1 / 2 by norm_num, show (1 : ℝ) - 1 / 2 = 1 / 2 by norm_num, Real.sqrt_eq_rpow]
    simp
  · rw [C107_constant h one_pos (by norm_num) one_pos (by norm_num) _ _ hy, hyE]
    norm_num

end Chimp
