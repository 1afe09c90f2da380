import Verif.Model.Thermal
import Mathlib.Probability.Distributions.Gaussian.Real
import Mathlib.Probability.Independence.Basic
import Mathlib.MeasureTheory.Integral.Gamma
import Mathlib.Analysis.Real.Pi.Bounds
import Mathlib.Analysis.Complex.ExponentialBounds
import Mathlib.MeasureTheory.Integral.Pi
import Mathlib.MeasureTheory.Measure.Lebesgue.VolumeOfBalls
import Mathlib.MeasureTheory.Measure.Haar.InnerProductSpace

/-!
# C86: thermal speed estimates

The specification is a pair of particles in thermal equilibrium: six independent Gaussian velocity
components with Maxwell's variances.  The mean relative speed, the mean square of the relative
velocity and the fraction of fast pairs are computed from that distribution and compared with the
values of the functions of `v_rel_fnc.h`.
-/

namespace Chimp
open MeasureTheory ProbabilityTheory
open scoped NNReal ENNReal

/-- Three independent Gaussian components have the product of the densities as density. -/
theorem pi_gaussian_density {v : ℝ≥0} (hv : v ≠ 0) :
    Measure.pi (fun _ : Fin 3 => gaussianReal 0 v) =
      (volume : Measure (Fin 3 → ℝ)).withDensity
        (fun x => ENNReal.ofReal (∏ i, gaussianPDFReal 0 v (x i))) := by
  refine Measure.pi_eq fun s hs => ?_
  have hms : MeasurableSet (Set.univ.pi s) := MeasurableSet.univ_pi hs
  rw [withDensity_apply _ hms, ← lintegral_indicator hms]
  have hind : ∀ x : Fin 3 → ℝ, (Set.univ.pi s).indicator
      (fun x => ENNReal.ofReal (∏ i, gaussianPDFReal 0 v (x i))) x =
      ENNReal.ofReal (∏ i, (s i).indicator (gaussianPDFReal 0 v) (x i)) := by
    intro x
    by_cases h : x ∈ Set.univ.pi s
    · rw [Set.indicator_of_mem h]
      congr 1
      refine Finset.prod_congr rfl fun i _ => ?_
      rw [Set.indicator_of_mem (h i (Set.mem_univ i))]
    · rw [Set.indicator_of_notMem h]
      have : ∃ i, x i ∉ s i := by
        by_contra hc
        push Not at hc
        exact h fun i _ => hc i
      obtain ⟨i, hi⟩ := this
      rw [Finset.prod_eq_zero (Finset.mem_univ i) (Set.indicator_of_notMem hi _),
        ENNReal.ofReal_zero]
  rw [lintegral_congr hind]
  have hint : ∀ i, Integrable ((s i).indicator (gaussianPDFReal 0 v)) :=
    fun i => (integrable_gaussianPDFReal 0 v).indicator (hs i)
  rw [volume_pi, ← ofReal_integral_eq_lintegral_ofReal
    (Integrable.fintype_prod (f := fun i => (s i).indicator (gaussianPDFReal 0 v)) hint)
    (Filter.Eventually.of_forall fun x => Finset.prod_nonneg fun i _ =>
      Set.indicator_nonneg (fun y _ => gaussianPDFReal_nonneg 0 v y) _)]
  rw [integral_fintype_prod_eq_prod
    (f := fun i => (s i).indicator (gaussianPDFReal 0 v)),
    ENNReal.ofReal_prod_of_nonneg fun i _ => integral_nonneg fun y =>
      Set.indicator_nonneg (fun y _ => gaussianPDFReal_nonneg 0 v y) _]
  refine Finset.prod_congr rfl fun i _ => ?_
  rw [gaussianReal_apply_eq_integral 0 hv, integral_indicator (hs i)]

/-- The mean of a function of the speed, for three independent Gaussian components. -/
theorem pi_gaussian_speed {v : ℝ≥0} (hv : v ≠ 0) (g : ℝ → ℝ) :
    ∫ x, g (√(∑ i, x i ^ 2)) ∂(Measure.pi (fun _ : Fin 3 => gaussianReal 0 v)) =
      4 * Real.pi * (√(2 * Real.pi * v))⁻¹ ^ 3 *
        ∫ y in Set.Ioi (0 : ℝ), y ^ 2 * (g y * Real.exp (-y ^ 2 / (2 * v))) := by
  rw [pi_gaussian_density hv, integral_withDensity_eq_integral_toReal_smul
    (by
      refine ENNReal.measurable_ofReal.comp (Finset.measurable_prod _ fun i _ => ?_)
      exact (measurable_gaussianPDFReal 0 v).comp (measurable_pi_apply i))
    (Filter.Eventually.of_forall fun x => ENNReal.ofReal_lt_top)]
  have h1 : ∀ x : Fin 3 → ℝ,
      (ENNReal.ofReal (∏ i, gaussianPDFReal 0 v (x i))).toReal • g (√(∑ i, x i ^ 2)) =
      (√(2 * Real.pi * v))⁻¹ ^ 3 * (g (√(∑ i, x i ^ 2)) *
        Real.exp (-(√(∑ i, x i ^ 2)) ^ 2 / (2 * v))) := by
    intro x
    rw [ENNReal.toReal_ofReal (Finset.prod_nonneg fun i _ => gaussianPDFReal_nonneg 0 v _),
      smul_eq_mul, Real.sq_sqrt (Finset.sum_nonneg fun i _ => sq_nonneg _)]
    simp only [gaussianPDFReal, Fin.prod_univ_three, Fin.sum_univ_three, sub_zero]
    rw [show -(x 0 ^ 2 + x 1 ^ 2 + x 2 ^ 2) / (2 * (v : ℝ)) =
      -x 0 ^ 2 / (2 * v) + -x 1 ^ 2 / (2 * v) + -x 2 ^ 2 / (2 * v) by ring,
      Real.exp_add, Real.exp_add]
    ring
  rw [integral_congr_ae (Filter.Eventually.of_forall h1), integral_const_mul]
  have h3 : ∫ x : Fin 3 → ℝ, g (√(∑ i, x i ^ 2)) *
        Real.exp (-(√(∑ i, x i ^ 2)) ^ 2 / (2 * v)) =
      ∫ x : EuclideanSpace ℝ (Fin 3), (fun r => g r * Real.exp (-r ^ 2 / (2 * v))) ‖x‖ := by
    rw [← (PiLp.volume_preserving_ofLp (Fin 3)).integral_comp
      (MeasurableEquiv.toLp 2 (Fin 3 → ℝ)).symm.measurableEmbedding]
    refine integral_congr_ae (Filter.Eventually.of_forall fun x => ?_)
    simp only [EuclideanSpace.norm_eq, Real.norm_eq_abs, sq_abs]
  rw [h3, integral_fun_norm_addHaar volume (fun r => g r * Real.exp (-r ^ 2 / (2 * v)))]
  simp only [finrank_euclideanSpace, Fintype.card_fin, Measure.real, EuclideanSpace.volume_ball_fin_three]
  simp only [ENNReal.ofReal_one, one_pow, one_mul, nsmul_eq_mul, smul_eq_mul]
  rw [ENNReal.toReal_ofReal (by positivity)]
  push_cast
  ring

/-- The mean speed for three independent Gaussian components of variance `v`. -/
theorem pi_gaussian_mean {v : ℝ≥0} (hv : v ≠ 0) :
    ∫ x, √(∑ i, x i ^ 2) ∂(Measure.pi (fun _ : Fin 3 => gaussianReal 0 v)) =
      √(8 * v / Real.pi) := by
  have hvp : (0 : ℝ) < v := by positivity
  rw [pi_gaussian_speed hv (fun y => y)]
  have h1 : ∫ y in Set.Ioi (0 : ℝ), y ^ 2 * (y * Real.exp (-y ^ 2 / (2 * v))) =
      ∫ y in Set.Ioi (0 : ℝ), y ^ (3 : ℝ) * Real.exp (-(1 / (2 * v)) * y ^ (2 : ℝ)) := by
    refine setIntegral_congr_fun measurableSet_Ioi fun y _ => ?_
    simp only [Real.rpow_ofNat]
    rw [show -(1 / (2 * (v : ℝ))) * y ^ 2 = -y ^ 2 / (2 * v) by ring]
    ring
  rw [h1, integral_rpow_mul_exp_neg_mul_rpow (by norm_num) (by norm_num) (by positivity)]
  rw [show (3 + 1 : ℝ) / 2 = ((1 : ℕ) : ℝ) + 1 by norm_num, Real.Gamma_nat_eq_factorial,
    show -(3 + 1 : ℝ) / 2 = -((2 : ℕ) : ℝ) by norm_num, Real.rpow_neg (by positivity),
    Real.rpow_natCast]
  set s := √(2 * Real.pi * (v : ℝ)) with hs
  have hsp : 0 < s := Real.sqrt_pos.2 (by positivity)
  have hs2 : s ^ 2 = 2 * Real.pi * v := Real.sq_sqrt (by positivity)
  rw [eq_comm, Real.sqrt_eq_iff_mul_self_eq (by positivity) (by positivity)]
  have h6 : s⁻¹ ^ 6 = (2 * Real.pi * (v : ℝ))⁻¹ ^ 3 := by
    rw [← hs2]
    simp only [inv_pow]
    ring
  have : ∀ c : ℝ, (4 * Real.pi * s⁻¹ ^ 3 * c) * (4 * Real.pi * s⁻¹ ^ 3 * c) =
      16 * Real.pi ^ 2 * c ^ 2 * s⁻¹ ^ 6 := fun c => by ring
  rw [this, h6]
  have hpi : Real.pi ≠ 0 := Real.pi_ne_zero
  field_simp
  norm_num

/-- Each component of a Gaussian has its variance as mean square. -/
theorem gaussian_mean_sq (v : ℝ≥0) : ∫ x, x ^ 2 ∂(gaussianReal 0 v) = v := by
  have h := variance_fun_id_gaussianReal (μ := 0) (v := v)
  rw [variance_eq_integral measurable_id'.aemeasurable] at h
  simpa using h

/-- The tail of the speed integral lies between two closed forms. -/
theorem gaussian_tail {v a : ℝ} (hv : 0 < v) (ha : 0 < a) (hva : v ≤ a ^ 2) :
    v * a * Real.exp (-a ^ 2 / (2 * v)) ≤
        ∫ y in Set.Ioi a, y ^ 2 * Real.exp (-y ^ 2 / (2 * v)) ∧
      ∫ y in Set.Ioi a, y ^ 2 * Real.exp (-y ^ 2 / (2 * v)) ≤
        (v * a + v ^ 2 / a) * Real.exp (-a ^ 2 / (2 * v)) := by
  have hb : 0 < 1 / (2 * v) := by positivity
  have hexp : Filter.Tendsto (fun x : ℝ => Real.exp (-(1 / 2) * x)) Filter.atTop (nhds 0) :=
    Real.tendsto_exp_atBot.comp
      (Filter.tendsto_id.const_mul_atTop_of_neg (neg_lt_zero.mpr one_half_pos))
  have hlim : ∀ s : ℝ, Filter.Tendsto
      (fun y : ℝ => y ^ s * Real.exp (-(1 / (2 * v)) * y ^ 2)) Filter.atTop (nhds 0) :=
    fun s => (rpow_mul_exp_neg_mul_sq_isLittleO_exp_neg hb s).trans_tendsto hexp
  have hform : ∀ y : ℝ, -y ^ 2 / (2 * v) = -(1 / (2 * v)) * y ^ 2 := fun y => by ring
  have hl1 : Filter.Tendsto (fun y : ℝ => -(v * y * Real.exp (-y ^ 2 / (2 * v))))
      Filter.atTop (nhds 0) := by
    have := ((hlim 1).const_mul v).neg
    simp only [mul_zero, neg_zero, Real.rpow_one] at this
    refine this.congr fun y => ?_
    rw [hform]
    ring
  have hl2 : Filter.Tendsto
      (fun y : ℝ => -((v * y + v ^ 2 / y) * Real.exp (-y ^ 2 / (2 * v))))
      Filter.atTop (nhds 0) := by
    have := hl1.add ((hlim (-1)).const_mul (-v ^ 2))
    simp only [mul_zero, add_zero] at this
    refine this.congr fun y => ?_
    rw [Real.rpow_neg_one, hform]
    ring
  have hde : ∀ y : ℝ, HasDerivAt (fun y : ℝ => Real.exp (-y ^ 2 / (2 * v)))
      (Real.exp (-y ^ 2 / (2 * v)) * (-y / v)) y := by
    intro y
    have h := (((hasDerivAt_id y).pow 2).neg.div_const (2 * v)).exp
    refine h.congr_deriv ?_
    simp only [id, Pi.pow_apply, Pi.neg_apply]
    congr 1
    field_simp
    norm_num
  have hd1 : ∀ y ∈ Set.Ici a, HasDerivAt (fun y : ℝ => -(v * y * Real.exp (-y ^ 2 / (2 * v))))
      ((y ^ 2 - v) * Real.exp (-y ^ 2 / (2 * v))) y := by
    intro y hy
    have h := ((((hasDerivAt_id y).const_mul v)).mul (hde y)).neg
    refine h.congr_deriv ?_
    simp only [id]
    field_simp
    ring
  have hd2 : ∀ y ∈ Set.Ici a, HasDerivAt
      (fun y : ℝ => -((v * y + v ^ 2 / y) * Real.exp (-y ^ 2 / (2 * v))))
      ((y ^ 2 + v ^ 2 / y ^ 2) * Real.exp (-y ^ 2 / (2 * v))) y := by
    intro y hy
    have hy0 : y ≠ 0 := (lt_of_lt_of_le ha hy).ne'
    have h := ((((hasDerivAt_id y).const_mul v).add
      ((hasDerivAt_inv hy0).const_mul (v ^ 2))).mul (hde y)).neg
    refine (h.congr_deriv ?_).congr_of_eventuallyEq
      (Filter.Eventually.of_forall fun z => ?_)
    · simp only [id, Pi.add_apply]
      field_simp
      ring
    · simp only [id, Pi.neg_apply, Pi.mul_apply, Pi.add_apply, div_eq_mul_inv]
  have hp1 : ∀ y ∈ Set.Ioi a, 0 ≤ (y ^ 2 - v) * Real.exp (-y ^ 2 / (2 * v)) := by
    intro y hy
    have : a ^ 2 ≤ y ^ 2 := pow_le_pow_left₀ ha.le (le_of_lt hy) 2
    exact mul_nonneg (by linarith) (Real.exp_pos _).le
  have hp2 : ∀ y ∈ Set.Ioi a,
      0 ≤ (y ^ 2 + v ^ 2 / y ^ 2) * Real.exp (-y ^ 2 / (2 * v)) := by
    intro y hy
    positivity
  have hi1 := integrableOn_Ioi_deriv_of_nonneg' hd1 hp1 hl1
  have hi2 := integrableOn_Ioi_deriv_of_nonneg' hd2 hp2 hl2
  have he1 := integral_Ioi_of_hasDerivAt_of_nonneg' hd1 hp1 hl1
  have he2 := integral_Ioi_of_hasDerivAt_of_nonneg' hd2 hp2 hl2
  rw [zero_sub, neg_neg] at he1 he2
  have hi : IntegrableOn (fun y => y ^ 2 * Real.exp (-y ^ 2 / (2 * v))) (Set.Ioi a) := by
    refine Integrable.mono' hi2 (by fun_prop) ?_
    refine (ae_restrict_iff' measurableSet_Ioi).2 (Filter.Eventually.of_forall fun y hy => ?_)
    rw [Real.norm_of_nonneg (by positivity)]
    exact mul_le_mul_of_nonneg_right (le_add_of_nonneg_right (by positivity)) (Real.exp_pos _).le
  constructor
  · rw [← he1]
    refine setIntegral_mono_on hi1 hi measurableSet_Ioi fun y _ => ?_
    exact mul_le_mul_of_nonneg_right (by linarith) (Real.exp_pos _).le
  · rw [← he2]
    refine setIntegral_mono_on hi hi2 measurableSet_Ioi fun y _ => ?_
    exact mul_le_mul_of_nonneg_right (le_add_of_nonneg_right (by positivity)) (Real.exp_pos _).le

/-- Two particles of a gas in thermal equilibrium: `X` and `Y` are the velocity components of the
first and of the second.  Each component of a particle of mass `m` is Gaussian with mean zero and
variance `kB T / m` (Maxwell's distribution), and the six components are independent: the two
components along one axis are, and the three axes are. -/
structure ThermalPair {Ω : Type*} [MeasurableSpace Ω] (P : Measure Ω) (kB T m₁ m₂ : ℝ)
    (X Y : Fin 3 → Ω → ℝ) : Prop where
  left : ∀ i, P.map (X i) = gaussianReal 0 (kB * T / m₁).toNNReal
  right : ∀ i, P.map (Y i) = gaussianReal 0 (kB * T / m₂).toNNReal
  pair : ∀ i, IndepFun (X i) (Y i) P
  axes : iIndepFun (fun i ω => (X i ω, Y i ω)) P

/-- The speed of the second particle as seen from the first. -/
noncomputable def relSpeed {Ω : Type*} (X Y : Fin 3 → Ω → ℝ) (ω : Ω) : ℝ :=
  √(∑ i, (X i ω - Y i ω) ^ 2)

section
variable {Ω : Type*} [MeasurableSpace Ω] {P : Measure Ω} {kB T m₁ m₂ : ℝ} {X Y : Fin 3 → Ω → ℝ}

theorem ThermalPair.measX (h : ThermalPair P kB T m₁ m₂ X Y) (i : Fin 3) :
    AEMeasurable (X i) P :=
  AEMeasurable.of_map_ne_zero (by rw [h.left i]; exact NeZero.ne _)

theorem ThermalPair.measY (h : ThermalPair P kB T m₁ m₂ X Y) (i : Fin 3) :
    AEMeasurable (Y i) P :=
  AEMeasurable.of_map_ne_zero (by rw [h.right i]; exact NeZero.ne _)

theorem ThermalPair.measZ (h : ThermalPair P kB T m₁ m₂ X Y) (i : Fin 3) :
    AEMeasurable (fun ω => X i ω - Y i ω) P :=
  (h.measX i).sub (h.measY i)

theorem pairMass_pos (h₁ : 0 < m₁) (h₂ : 0 < m₂) : 0 < pairMass m₁ m₂ := by
  unfold pairMass
  positivity

/-- The variance of a component of the relative velocity. -/
theorem thermal_variance (hk : 0 < kB) (hT : 0 < T) (h₁ : 0 < m₁) (h₂ : 0 < m₂) :
    (kB * T / m₁).toNNReal + (kB * T / m₂).toNNReal =
      (kB * T / pairMass m₁ m₂).toNNReal := by
  rw [← Real.toNNReal_add (by positivity) (by positivity)]
  congr 1
  unfold pairMass
  field_simp
  ring

theorem ThermalPair.component (h : ThermalPair P kB T m₁ m₂ X Y)
    (hk : 0 < kB) (hT : 0 < T) (h₁ : 0 < m₁) (h₂ : 0 < m₂) (i : Fin 3) :
    P.map (fun ω => X i ω - Y i ω) = gaussianReal 0 (kB * T / pairMass m₁ m₂).toNNReal := by
  have hn : P.map (-Y i) = gaussianReal 0 (kB * T / m₂).toNNReal := by
    have h3 := gaussianReal_map_neg (μ := 0) (v := (kB * T / m₂).toNNReal)
    rw [neg_zero] at h3
    rw [← h3, ← h.right i, AEMeasurable.map_map_of_aemeasurable measurable_neg.aemeasurable
      (h.measY i)]
    rfl
  have := gaussianReal_add_gaussianReal_of_indepFun (h.pair i).neg_right (h.left i) hn
  rw [add_zero, thermal_variance hk hT h₁ h₂] at this
  rw [← this]
  congr 1

/-- The relative velocity is Gaussian with the reduced mass. -/
theorem ThermalPair.relative (h : ThermalPair P kB T m₁ m₂ X Y)
    (hk : 0 < kB) (hT : 0 < T) (h₁ : 0 < m₁) (h₂ : 0 < m₂) :
    P.map (fun ω i => X i ω - Y i ω) =
      Measure.pi (fun _ : Fin 3 => gaussianReal 0 (kB * T / pairMass m₁ m₂).toNNReal) := by
  have hi : iIndepFun (fun i ω => X i ω - Y i ω) P :=
    h.axes.comp (fun _ p => p.1 - p.2) (fun _ => measurable_fst.sub measurable_snd)
  have := hi.isProbabilityMeasure
  rw [hi.map_fun_eq_pi_map h.measZ]
  congr 1
  funext i
  exact h.component hk hT h₁ h₂ i

/-- The mean of a function of the relative speed is a mean over Gaussian components. -/
theorem ThermalPair.mean (h : ThermalPair P kB T m₁ m₂ X Y)
    (hk : 0 < kB) (hT : 0 < T) (h₁ : 0 < m₁) (h₂ : 0 < m₂) {g : ℝ → ℝ} (hg : Measurable g) :
    ∫ ω, g (relSpeed X Y ω) ∂P =
      ∫ x, g (√(∑ i, x i ^ 2)) ∂(Measure.pi
        (fun _ : Fin 3 => gaussianReal 0 (kB * T / pairMass m₁ m₂).toNNReal)) := by
  rw [← h.relative hk hT h₁ h₂, integral_map
    (aemeasurable_pi_lambda _ h.measZ)
    (by
      refine Measurable.aestronglyMeasurable ?_
      fun_prop)]
  rfl

/-- A temperature is a mean kinetic energy: three halves of `kB T` for each particle. -/
theorem thermal_energy (h : ThermalPair P kB T m₁ m₂ X Y)
    (hk : 0 < kB) (hT : 0 < T) (h₁ : 0 < m₁) :
    ∫ ω, m₁ / 2 * ∑ i, X i ω ^ 2 ∂P = 3 / 2 * (kB * T) := by
  have hsq : ∀ i, ∫ ω, X i ω ^ 2 ∂P = kB * T / m₁ := by
    intro i
    have h3 := gaussian_mean_sq (kB * T / m₁).toNNReal
    rw [← h.left i, integral_map (h.measX i) (by fun_prop),
      Real.coe_toNNReal _ (by positivity)] at h3
    exact h3
  have hint : ∀ i, Integrable (fun ω => X i ω ^ 2) P := by
    intro i
    refine not_imp_comm.1 integral_undef ?_
    rw [hsq i]
    positivity
  rw [integral_const_mul, integral_finsetSum _ fun i _ => hint i]
  simp only [hsq, Finset.sum_const, Finset.card_univ, Fintype.card_fin, nsmul_eq_mul]
  push_cast
  field_simp

/-- **C86.** The mean relative speed of two thermal particles is the square root of two times the
value of `avg_v_rel`. -/
theorem C86_average (h : ThermalPair P kB T m₁ m₂ X Y)
    (hk : 0 < kB) (hT : 0 < T) (h₁ : 0 < m₁) (h₂ : 0 < m₂) :
    ∫ ω, relSpeed X Y ω ∂P = √2 * avgVRel kB T (pairMass m₁ m₂) := by
  have hm := pairMass_pos h₁ h₂
  have hv : 0 < kB * T / pairMass m₁ m₂ := by positivity
  rw [h.mean hk hT h₁ h₂ measurable_id', pi_gaussian_mean (Real.toNNReal_pos.2 hv).ne',
    Real.coe_toNNReal _ hv.le, avgVRel, ← Real.sqrt_mul (by norm_num)]
  congr 1
  have := Real.pi_ne_zero
  field_simp
  norm_num

/-- **C86.** `avg_v_rel` is too small for every gas. -/
theorem C86_average_low (h : ThermalPair P kB T m₁ m₂ X Y)
    (hk : 0 < kB) (hT : 0 < T) (h₁ : 0 < m₁) (h₂ : 0 < m₂) :
    avgVRel kB T (pairMass m₁ m₂) < ∫ ω, relSpeed X Y ω ∂P := by
  have hm := pairMass_pos h₁ h₂
  rw [C86_average h hk hT h₁ h₂]
  have hp : 0 < avgVRel kB T (pairMass m₁ m₂) := by
    have := Real.pi_pos
    exact Real.sqrt_pos.2 (by positivity)
  have : 1 < √2 := by
    rw [show (1 : ℝ) = √1 from Real.sqrt_one.symm]
    exact Real.sqrt_lt_sqrt (by norm_num) (by norm_num)
  exact lt_mul_of_one_lt_left hp this

theorem calcStd_sq (hk : 0 < kB) (hT : 0 < T) {μ : ℝ} (hm : 0 < μ) :
    calcStdVFromT kB T μ ^ 2 = 3 / 2 * (kB * T / μ) := by
  rw [calcStdVFromT, Real.sq_sqrt (by positivity)]
  ring

/-- **C86.** What `calcStdVFromT` is: half the mean square of the relative velocity. -/
theorem C86_mean_square (h : ThermalPair P kB T m₁ m₂ X Y)
    (hk : 0 < kB) (hT : 0 < T) (h₁ : 0 < m₁) (h₂ : 0 < m₂) :
    ∫ ω, relSpeed X Y ω ^ 2 ∂P = 2 * calcStdVFromT kB T (pairMass m₁ m₂) ^ 2 ∧
      ∀ i, ∫ ω, (X i ω - Y i ω) ^ 2 ∂P =
        2 / 3 * calcStdVFromT kB T (pairMass m₁ m₂) ^ 2 := by
  have hm := pairMass_pos h₁ h₂
  have hv : 0 < kB * T / pairMass m₁ m₂ := by positivity
  have hsq : ∀ i, ∫ ω, (X i ω - Y i ω) ^ 2 ∂P = kB * T / pairMass m₁ m₂ := by
    intro i
    have h3 := gaussian_mean_sq (kB * T / pairMass m₁ m₂).toNNReal
    rw [← h.component hk hT h₁ h₂ i,
      integral_map (h.measZ i) (by fun_prop),
      Real.coe_toNNReal _ hv.le] at h3
    exact h3
  have hint : ∀ i, Integrable (fun ω => (X i ω - Y i ω) ^ 2) P := by
    intro i
    refine not_imp_comm.1 integral_undef ?_
    rw [hsq i]
    exact hv.ne'
  constructor
  · have : ∀ ω, relSpeed X Y ω ^ 2 = ∑ i, (X i ω - Y i ω) ^ 2 := fun ω =>
      Real.sq_sqrt (Finset.sum_nonneg fun i _ => sq_nonneg _)
    rw [integral_congr_ae (Filter.Eventually.of_forall this),
      integral_finsetSum _ fun i _ => hint i, calcStd_sq hk hT hm]
    simp only [hsq, Finset.sum_const, Finset.card_univ, Fintype.card_fin, nsmul_eq_mul]
    push_cast
    ring
  · intro i
    rw [hsq i, calcStd_sq hk hT hm]
    ring

/-- **C86.** `calcStdVFromT` is not the root mean square of the relative velocity, not the standard
deviation of one of its components and not the standard deviation of the relative speed. -/
theorem C86_not_a_deviation (h : ThermalPair P kB T m₁ m₂ X Y)
    (hk : 0 < kB) (hT : 0 < T) (h₁ : 0 < m₁) (h₂ : 0 < m₂) :
    calcStdVFromT kB T (pairMass m₁ m₂) ^ 2 ≠ ∫ ω, relSpeed X Y ω ^ 2 ∂P ∧
      (∀ i, calcStdVFromT kB T (pairMass m₁ m₂) ^ 2 ≠ Var[fun ω => X i ω - Y i ω; P]) ∧
      calcStdVFromT kB T (pairMass m₁ m₂) ^ 2 ≠ Var[relSpeed X Y; P] := by
  have hm := pairMass_pos h₁ h₂
  have hs := calcStd_sq hk hT hm
  have hv : 0 < kB * T / pairMass m₁ m₂ := by positivity
  have := h.axes.isProbabilityMeasure
  obtain ⟨hsq, hcomp⟩ := C86_mean_square h hk hT h₁ h₂
  have hsm : AEMeasurable (relSpeed X Y) P := by
    unfold relSpeed
    have := h.measZ
    fun_prop
  refine ⟨?_, fun i => ?_, ?_⟩
  · rw [hsq, hs]
    intro hc
    linarith
  · have hz : ∫ ω, X i ω - Y i ω ∂P = 0 := by
      have h3 := integral_id_gaussianReal (μ := 0)
        (v := (kB * T / pairMass m₁ m₂).toNNReal)
      rw [← h.component hk hT h₁ h₂ i, integral_map (h.measZ i) (by fun_prop)] at h3
      exact h3
    rw [variance_eq_integral (h.measZ i), hz]
    simp only [sub_zero]
    rw [hcomp i, hs]
    intro hc
    linarith
  · have hmem : MemLp (relSpeed X Y) 2 P := by
      refine (memLp_two_iff_integrable_sq hsm.aestronglyMeasurable).2
        (not_imp_comm.1 integral_undef ?_)
      rw [hsq, hs]
      positivity
    rw [variance_eq_sub hmem, show P[relSpeed X Y ^ 2] = ∫ ω, relSpeed X Y ω ^ 2 ∂P from rfl,
      hsq, C86_average h hk hT h₁ h₂, mul_pow, Real.sq_sqrt (by norm_num), avgVRel,
      Real.sq_sqrt (by have := Real.pi_pos; positivity), hs]
    intro hc
    have h5 : 4 * kB * T / (Real.pi * pairMass m₁ m₂) =
        4 / Real.pi * (kB * T / pairMass m₁ m₂) := by
      have := Real.pi_ne_zero
      field_simp
    rw [h5] at hc
    have h6 : (3 / 2 : ℝ) * (kB * T / pairMass m₁ m₂) =
        8 / Real.pi * (kB * T / pairMass m₁ m₂) := by
      linear_combination -hc
    have h7 := mul_right_cancel₀ hv.ne' h6
    rw [eq_div_iff Real.pi_ne_zero] at h7
    linarith [Real.pi_le_four]

/-- Numbers for `C86_fraction`. -/
theorem fraction_numbers :
    0.0034 < √(27 / Real.pi) * Real.exp (-27 / 4) ∧
      √(27 / Real.pi) * Real.exp (-27 / 4) * (1 + 2 / 27) < 0.0037 := by
  have hpi := Real.pi_pos
  have hp1 := Real.pi_gt_d4
  have hp2 := Real.pi_lt_d4
  set L := √(27 / Real.pi) * Real.exp (-27 / 4) with hL
  have hLp : 0 < L := mul_pos (Real.sqrt_pos.2 (by positivity)) (Real.exp_pos _)
  have h4 : L ^ 4 = (27 / Real.pi) ^ 2 / Real.exp 1 ^ 27 := by
    rw [hL, mul_pow, show √(27 / Real.pi) ^ 4 = (√(27 / Real.pi) ^ 2) ^ 2 by ring,
      Real.sq_sqrt (by positivity), ← Real.exp_nat_mul, ← Real.exp_nat_mul, div_eq_mul_inv _
      (Real.exp _), ← Real.exp_neg]
    norm_num
  have hE1 : (2.7182818283 : ℝ) ^ 27 < Real.exp 1 ^ 27 :=
    pow_lt_pow_left₀ Real.exp_one_gt_d9 (by norm_num) (by norm_num)
  have hE2 : Real.exp 1 ^ 27 < (2.7182818286 : ℝ) ^ 27 :=
    pow_lt_pow_left₀ Real.exp_one_lt_d9 (Real.exp_pos _).le (by norm_num)
  have hE0 : 0 < Real.exp 1 ^ 27 := by positivity
  constructor
  · refine lt_of_pow_lt_pow_left₀ 4 hLp.le ?_
    rw [h4, lt_div_iff₀ hE0, div_pow, lt_div_iff₀ (by positivity)]
    have hq : Real.pi ^ 2 < (3.1416 : ℝ) ^ 2 := pow_lt_pow_left₀ hp2 hpi.le (by norm_num)
    calc (0.0034 : ℝ) ^ 4 * Real.exp 1 ^ 27 * Real.pi ^ 2
        < (0.0034 : ℝ) ^ 4 * (2.7182818286 : ℝ) ^ 27 * (3.1416 : ℝ) ^ 2 := by gcongr
      _ < 27 ^ 2 := by norm_num
  · have : L < 0.0034448 := by
      refine lt_of_pow_lt_pow_left₀ 4 (by norm_num) ?_
      rw [h4, div_lt_iff₀ hE0, div_pow, div_lt_iff₀ (by positivity)]
      have hq : (3.1415 : ℝ) ^ 2 < Real.pi ^ 2 :=
        pow_lt_pow_left₀ hp1 (by norm_num) (by norm_num)
      calc (27 : ℝ) ^ 2 < (0.0034448 : ℝ) ^ 4 * (2.7182818283 : ℝ) ^ 27 * (3.1415 : ℝ) ^ 2 := by
            norm_num
        _ < (0.0034448 : ℝ) ^ 4 * Real.exp 1 ^ 27 * Real.pi ^ 2 := by gcongr
    linarith

/-- **C86.** The fraction of pairs at least as fast as the estimate of the largest relative speed
is between 0.34% and 0.37%, for every temperature and every two masses. -/
theorem C86_fraction (h : ThermalPair P kB T m₁ m₂ X Y)
    (hk : 0 < kB) (hT : 0 < T) (h₁ : 0 < m₁) (h₂ : 0 < m₂) :
    0.0034 < P.real {ω | exampleMaxSpeed kB T m₁ m₂ ≤ relSpeed X Y ω} ∧
      P.real {ω | exampleMaxSpeed kB T m₁ m₂ ≤ relSpeed X Y ω} < 0.0037 := by
  have hm := pairMass_pos h₁ h₂
  set v := kB * T / pairMass m₁ m₂ with hvdef
  have hv : 0 < v := by positivity
  have hpi := Real.pi_pos
  set a := exampleMaxSpeed kB T m₁ m₂ with hadef
  have hap : 0 < a := by
    have : 0 < calcStdVFromT kB T (pairMass m₁ m₂) := Real.sqrt_pos.2 (by positivity)
    rw [hadef, exampleMaxSpeed, estMaxVFromStdV, maxSpeedFactor]
    positivity
  have ha2 : a ^ 2 = 27 / 2 * v := by
    rw [hadef, exampleMaxSpeed, estMaxVFromStdV, maxSpeedFactor, mul_pow, calcStd_sq hk hT hm]
    ring
  have hset : MeasurableSet {x : Fin 3 → ℝ | a ≤ √(∑ i, x i ^ 2)} :=
    measurableSet_le measurable_const (by fun_prop)
  have hP : P.real {ω | a ≤ relSpeed X Y ω} =
      4 * Real.pi * (√(2 * Real.pi * v))⁻¹ ^ 3 *
        ∫ y in Set.Ioi a, y ^ 2 * Real.exp (-y ^ 2 / (2 * v)) := by
    have h1 : P.real {ω | a ≤ relSpeed X Y ω} =
        (P.map (fun ω i => X i ω - Y i ω)).real {x : Fin 3 → ℝ | a ≤ √(∑ i, x i ^ 2)} := by
      rw [Measure.real, Measure.real,
        Measure.map_apply_of_aemeasurable (aemeasurable_pi_lambda _ h.measZ) hset]
      rfl
    rw [h1, h.relative hk hT h₁ h₂, ← integral_indicator_one hset]
    have h2 := pi_gaussian_speed (Real.toNNReal_pos.2 hv).ne'
      ((Set.Ici a).indicator (fun _ => (1 : ℝ)))
    rw [Real.coe_toNNReal _ hv.le] at h2
    refine Eq.trans ?_ (h2.trans ?_)
    · refine integral_congr_ae (Filter.Eventually.of_forall fun x => ?_)
      rfl
    · congr 1
      have h3 : ∀ y : ℝ, y ^ 2 * ((Set.Ici a).indicator (fun _ => (1 : ℝ)) y *
          Real.exp (-y ^ 2 / (2 * v))) =
          (Set.Ici a).indicator (fun y => y ^ 2 * Real.exp (-y ^ 2 / (2 * v))) y := by
        intro y
        by_cases hy : y ∈ Set.Ici a
        · rw [Set.indicator_of_mem hy, Set.indicator_of_mem hy, one_mul]
        · rw [Set.indicator_of_notMem hy, Set.indicator_of_notMem hy, zero_mul, mul_zero]
      simp only [h3]
      rw [setIntegral_indicator measurableSet_Ici, Set.inter_eq_right.2
        (Set.Ici_subset_Ioi.2 hap), integral_Ici_eq_integral_Ioi]
  obtain ⟨hlo, hhi⟩ := gaussian_tail hv hap (by rw [ha2]; linarith)
  have hexp : -a ^ 2 / (2 * v) = -27 / 4 := by
    rw [ha2]
    field_simp
    norm_num
  rw [hexp] at hlo hhi
  set c := 4 * Real.pi * (√(2 * Real.pi * v))⁻¹ ^ 3 with hc
  have hcp : 0 < c := by
    have : 0 < √(2 * Real.pi * v) := Real.sqrt_pos.2 (by positivity)
    positivity
  have hcva : c * (v * a) = √(27 / Real.pi) := by
    rw [eq_comm, Real.sqrt_eq_iff_mul_self_eq (by positivity) (by positivity)]
    have h6 : ((√(2 * Real.pi * v))⁻¹ ^ 3) ^ 2 = (2 * Real.pi * v)⁻¹ ^ 3 := by
      rw [← pow_mul, show 3 * 2 = 2 * 3 from rfl, pow_mul, inv_pow, Real.sq_sqrt (by positivity)]
    rw [hc, show ∀ p s : ℝ, (4 * p * s * (v * a)) * (4 * p * s * (v * a)) =
      16 * p ^ 2 * s ^ 2 * v ^ 2 * a ^ 2 from fun p s => by ring, h6, ha2]
    field_simp
    norm_num
  have hrat : v * a + v ^ 2 / a = v * a * (1 + 2 / 27) := by
    have : v ^ 2 / a = v * a * (v / a ^ 2) := by field_simp
    rw [this, ha2]
    field_simp
    try ring
  obtain ⟨n1, n2⟩ := fraction_numbers
  rw [hP]
  constructor
  · refine n1.trans_le ?_
    rw [← hcva, mul_assoc c]
    exact mul_le_mul_of_nonneg_left hlo hcp.le
  · refine lt_of_le_of_lt (mul_le_mul_of_nonneg_left hhi hcp.le) ?_
    rw [hrat]
    calc c * (v * a * (1 + 2 / 27) * Real.exp (-27 / 4))
        = c * (v * a) * Real.exp (-27 / 4) * (1 + 2 / 27) := by ring
      _ < 0.0037 := by rw [hcva]; exact n2

end

/-- Thermal pairs exist for every temperature and every two masses. -/
theorem thermalPair_exists (kB T m₁ m₂ : ℝ) :
    ThermalPair
      (Measure.pi fun _ : Fin 3 => (gaussianReal 0 (kB * T / m₁).toNNReal).prod
        (gaussianReal 0 (kB * T / m₂).toNNReal)) kB T m₁ m₂
      (fun i ω => (ω i).1) (fun i ω => (ω i).2) := by
  set μ := fun _ : Fin 3 => (gaussianReal 0 (kB * T / m₁).toNNReal).prod
        (gaussianReal 0 (kB * T / m₂).toNNReal) with hμ
  have hmp : ∀ i, MeasurePreserving (Function.eval i) (Measure.pi μ) (μ i) :=
    fun i => measurePreserving_eval μ i
  refine ⟨fun i => ?_, fun i => ?_, fun i => ?_, ?_⟩
  · exact (measurePreserving_fst.comp (hmp i)).map_eq
  · exact (measurePreserving_snd.comp (hmp i)).map_eq
  · have hf : Measurable fun ω : Fin 3 → ℝ × ℝ => (ω i).1 :=
      measurable_fst.comp (measurable_pi_apply i)
    have hs : Measurable fun ω : Fin 3 → ℝ × ℝ => (ω i).2 :=
      measurable_snd.comp (measurable_pi_apply i)
    refine (indepFun_iff_map_prod_eq_prod_map_map hf.aemeasurable hs.aemeasurable).2 ?_
    have e1 : (Measure.pi μ).map (fun ω => (ω i).1) = gaussianReal 0 (kB * T / m₁).toNNReal :=
      (measurePreserving_fst.comp (hmp i)).map_eq
    have e2 : (Measure.pi μ).map (fun ω => (ω i).2) = gaussianReal 0 (kB * T / m₂).toNNReal :=
      (measurePreserving_snd.comp (hmp i)).map_eq
    rw [e1, e2]
    exact (hmp i).map_eq
  · exact iIndepFun_pi (X := fun _ p => p) fun i => aemeasurable_id'

/-- Non-trivial case: two species with masses one and three at temperature 300, in units in which
the Boltzmann constant is one.  The function says `√(1600 / π)`. -/
example : ∃ (P : Measure (Fin 3 → ℝ × ℝ)) (X Y : Fin 3 → (Fin 3 → ℝ × ℝ) → ℝ),
    ThermalPair P 1 300 1 3 X Y ∧ ∫ ω, relSpeed X Y ω ∂P = √(3200 / Real.pi) ∧
      avgVRel 1 300 (pairMass 1 3) = √(1600 / Real.pi) ∧
      P.real {ω | exampleMaxSpeed 1 300 1 3 ≤ relSpeed X Y ω} < 0.0037 := by
  refine ⟨_, _, _, thermalPair_exists 1 300 1 3, ?_, ?_,
    (C86_fraction (thermalPair_exists 1 300 1 3) (by norm_num) (by norm_num) (by norm_num)
      (by norm_num)).2⟩
  · rw [C86_average (thermalPair_exists 1 300 1 3) (by norm_num) (by norm_num) (by norm_num)
      (by norm_num), avgVRel, pairMass, ← Real.sqrt_mul (by norm_num)]
    congr 1
    have := Real.pi_ne_zero
    field_simp
    norm_num
  · rw [avgVRel, pairMass]
    congr 1
    have := Real.pi_ne_zero
    field_simp
    norm_num

end Chimp
