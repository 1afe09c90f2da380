import Mathlib.Analysis.SpecialFunctions.PolarCoord
import Mathlib.MeasureTheory.Function.JacobianOneDim
import Mathlib.MeasureTheory.Measure.Haar.InnerProductSpace
import Mathlib.MeasureTheory.Constructions.Pi
import Mathlib.Analysis.SpecialFunctions.Integrals.Basic

/-!
# Integration in spherical coordinates

The polar axis is the first coordinate axis; the coordinates are the distance `r`, the cosine `b` of the polar
angle and the azimuth `c`.
-/

namespace Chimp

open MeasureTheory Real Set
open scoped ENNReal

/-- The point with coordinates `r`, `b`, `c`. -/
noncomputable def sphPoint (r b c : ℝ) : ℝ × ℝ × ℝ := (r * b, r * √(1 - b ^ 2) * cos c, r * √(1 - b ^ 2) * sin c)

theorem measurable_sphPoint : Measurable (fun p : ℝ × ℝ × ℝ => sphPoint p.1 p.2.1 p.2.2) := by
  unfold sphPoint; fun_prop

/-- Polar coordinates in a plane, as an iterated integral. -/
theorem lintegral_polar (g : ℝ × ℝ → ℝ≥0∞) (hg : Measurable g) :
    ∫⁻ p, g p = ∫⁻ r in Ioi 0, ∫⁻ θ in Ioo (-π) π, ENNReal.ofReal r * g (r * cos θ, r * sin θ) := by
  rw [← lintegral_comp_polarCoord_symm g, polarCoord_target, Measure.volume_eq_prod, ← Measure.prod_restrict,
    lintegral_prod]
  · rfl
  · have : Measurable (fun p : ℝ × ℝ => ENNReal.ofReal p.1 • g (p.1 * cos p.2, p.1 * sin p.2)) := by
      simp only [smul_eq_mul]
      refine Measurable.mul (by fun_prop) (hg.comp (by fun_prop))
    exact this.aemeasurable

theorem lintegral_cos (h : ℝ → ℝ≥0∞) :
    ∫⁻ θ in Ioo 0 π, ENNReal.ofReal (sin θ) * h (cos θ) = ∫⁻ b in Ioo (-1) 1, h b := by
  have himg : cos '' Ioo 0 π = Ioo (-1) 1 := by
    ext b
    constructor
    · rintro ⟨θ, ⟨h0, h1⟩, rfl⟩
      have hc := cos_lt_cos_of_nonneg_of_le_pi le_rfl h1.le h0
      have hc' := cos_lt_cos_of_nonneg_of_le_pi h0.le le_rfl h1
      rw [cos_zero] at hc
      rw [cos_pi] at hc'
      exact ⟨hc', hc⟩
    · rintro ⟨h0, h1⟩
      refine ⟨arccos b, ⟨arccos_pos.2 h1, ?_⟩, cos_arccos h0.le h1.le⟩
      refine lt_of_le_of_ne (arccos_le_pi b) fun hc => ?_
      have := cos_arccos h0.le h1.le
      rw [hc, cos_pi] at this
      linarith
  rw [← himg, lintegral_image_eq_lintegral_abs_deriv_mul measurableSet_Ioo
    (fun θ _ => (hasDerivAt_cos θ).hasDerivWithinAt)
    (injOn_cos.mono Ioo_subset_Icc_self)]
  refine setLIntegral_congr_fun measurableSet_Ioo fun θ hθ => ?_
  simp only [abs_neg]
  rw [abs_of_pos (sin_pos_of_mem_Ioo hθ)]

/-- The half plane above the axis at a fixed azimuth. -/
theorem lintegral_half (F : ℝ × ℝ × ℝ → ℝ≥0∞) (hF : Measurable F) (c : ℝ) :
    ∫⁻ x, ∫⁻ ρ in Ioi 0, ENNReal.ofReal ρ * F (x, ρ * cos c, ρ * sin c) =
      ∫⁻ r in Ioi 0, ENNReal.ofReal (r ^ 2) * ∫⁻ b in Ioo (-1) 1, F (sphPoint r b c) := by
  set g : ℝ × ℝ → ℝ≥0∞ := fun p => (Ioi (0 : ℝ)).indicator
    (fun ρ => ENNReal.ofReal ρ * F (p.1, ρ * cos c, ρ * sin c)) p.2 with hgdef
  have hg : Measurable g := by
    have h1 : Measurable (fun p : ℝ × ℝ => ENNReal.ofReal p.2 * F (p.1, p.2 * cos c, p.2 * sin c)) :=
      Measurable.mul (by fun_prop) (hF.comp (by fun_prop))
    have : g = (Prod.snd ⁻¹' Ioi (0 : ℝ)).indicator
        (fun p : ℝ × ℝ => ENNReal.ofReal p.2 * F (p.1, p.2 * cos c, p.2 * sin c)) := by
      funext p
      simp only [hgdef, indicator, mem_preimage]
    rw [this]
    exact h1.indicator (measurable_snd measurableSet_Ioi)
  have h1 : ∫⁻ x, ∫⁻ ρ in Ioi 0, ENNReal.ofReal ρ * F (x, ρ * cos c, ρ * sin c) = ∫⁻ p, g p := by
    rw [Measure.volume_eq_prod, lintegral_prod _ hg.aemeasurable]
    refine lintegral_congr fun x => ?_
    rw [← lintegral_indicator measurableSet_Ioi]
  rw [h1, lintegral_polar g hg]
  refine setLIntegral_congr_fun measurableSet_Ioi fun r hr => ?_
  have hr0 : (0 : ℝ) < r := hr
  rw [← lintegral_cos (fun b => F (sphPoint r b c)), ← lintegral_const_mul']
  swap; · finiteness
  have hsub : Ioo (0 : ℝ) π ⊆ Ioo (-π) π := fun θ hθ => ⟨by have := pi_pos; linarith [hθ.1], hθ.2⟩
  rw [← lintegral_indicator measurableSet_Ioo, ← lintegral_indicator measurableSet_Ioo]
  refine lintegral_congr fun θ => ?_
  by_cases hθ : θ ∈ Ioo (0 : ℝ) π
  · have hs := sin_pos_of_mem_Ioo hθ
    rw [indicator_of_mem hθ, indicator_of_mem (hsub hθ), hgdef]
    simp only
    rw [indicator_of_mem (show r * sin θ ∈ Ioi (0 : ℝ) from mul_pos hr0 hs)]
    have hsq : √(1 - cos θ ^ 2) = sin θ := by
      rw [← sin_sq, sqrt_sq hs.le]
    rw [sphPoint, hsq, ENNReal.ofReal_mul hr0.le, sq, ENNReal.ofReal_mul hr0.le]
    ring
  · rw [indicator_of_notMem hθ]
    by_cases hθ' : θ ∈ Ioo (-π) π
    · rw [indicator_of_mem hθ', hgdef]
      simp only
      have hs : sin θ ≤ 0 := by
        refine sin_nonpos_of_nonpos_of_neg_pi_le ?_ hθ'.1.le
        by_contra hc
        exact hθ ⟨lt_of_not_ge hc, hθ'.2⟩
      rw [indicator_of_notMem (by
        simp only [mem_Ioi, not_lt]
        exact mul_nonpos_of_nonneg_of_nonpos hr0.le hs), mul_zero]
    · rw [indicator_of_notMem hθ']

/-- Integration in spherical coordinates. -/
theorem lintegral_spherical (F : ℝ × ℝ × ℝ → ℝ≥0∞) (hF : Measurable F) :
    ∫⁻ p, F p = ∫⁻ r in Ioi 0, ENNReal.ofReal (r ^ 2) *
      ∫⁻ b in Ioo (-1) 1, ∫⁻ c in Ioo (-π) π, F (sphPoint r b c) := by
  have hm1 : Measurable (fun t : (ℝ × ℝ) × ℝ => ENNReal.ofReal t.2 * F (t.1.1, t.2 * cos t.1.2, t.2 * sin t.1.2)) :=
    Measurable.mul (by fun_prop) (hF.comp (by fun_prop))
  have hm2 : Measurable (fun t : (ℝ × ℝ) × ℝ => F (sphPoint t.1.2 t.2 t.1.1)) :=
    hF.comp (measurable_sphPoint.comp (show Measurable (fun t : (ℝ × ℝ) × ℝ => (t.1.2, t.2, t.1.1)) by fun_prop))
  have hm3 : ∀ r, Measurable (fun t : ℝ × ℝ => F (sphPoint r t.2 t.1)) := fun r =>
    hF.comp (measurable_sphPoint.comp (show Measurable (fun t : ℝ × ℝ => (r, t.2, t.1)) by fun_prop))
  calc ∫⁻ p, F p = ∫⁻ x, ∫⁻ q : ℝ × ℝ, F (x, q) := by
        rw [Measure.volume_eq_prod, lintegral_prod _ hF.aemeasurable]
    _ = ∫⁻ x, ∫⁻ c in Ioo (-π) π, ∫⁻ ρ in Ioi 0, ENNReal.ofReal ρ * F (x, ρ * cos c, ρ * sin c) := by
        refine lintegral_congr fun x => ?_
        rw [lintegral_polar (fun q => F (x, q)) (hF.comp (by fun_prop)), lintegral_lintegral_swap]
        have : Measurable (fun t : ℝ × ℝ => ENNReal.ofReal t.1 * F (x, t.1 * cos t.2, t.1 * sin t.2)) :=
          Measurable.mul (by fun_prop) (hF.comp (by fun_prop))
        exact this.aemeasurable
    _ = ∫⁻ c in Ioo (-π) π, ∫⁻ x, ∫⁻ ρ in Ioi 0, ENNReal.ofReal ρ * F (x, ρ * cos c, ρ * sin c) := by
        rw [lintegral_lintegral_swap]
        exact (Measurable.lintegral_prod_right' hm1).aemeasurable
    _ = ∫⁻ c in Ioo (-π) π, ∫⁻ r in Ioi 0, ENNReal.ofReal (r ^ 2) * ∫⁻ b in Ioo (-1) 1, F (sphPoint r b c) := by
        simp only [lintegral_half F hF]
    _ = ∫⁻ r in Ioi 0, ∫⁻ c in Ioo (-π) π, ENNReal.ofReal (r ^ 2) * ∫⁻ b in Ioo (-1) 1, F (sphPoint r b c) := by
        rw [lintegral_lintegral_swap]
        refine Measurable.aemeasurable (Measurable.mul (by fun_prop) ?_)
        exact Measurable.lintegral_prod_right' hm2
    _ = _ := by
        refine lintegral_congr fun r => ?_
        rw [lintegral_const_mul]
        · rw [lintegral_lintegral_swap]
          exact (hm3 r).aemeasurable
        · exact Measurable.lintegral_prod_right' (hm3 r)

/-- Integral over the unit sphere in the coordinates `b`, `c`. -/
noncomputable def sphInt (g : ℝ × ℝ × ℝ → ℝ≥0∞) : ℝ≥0∞ :=
  ∫⁻ b in Ioo (-1) 1, ∫⁻ c in Ioo (-π) π, g (sphPoint 1 b c)

/-- Euclidean length. -/
noncomputable def len3 (p : ℝ × ℝ × ℝ) : ℝ := √(p.1 ^ 2 + p.2.1 ^ 2 + p.2.2 ^ 2)

theorem len3_sphPoint (r b c : ℝ) (hr : 0 < r) (hb : b ∈ Ioo (-1 : ℝ) 1) : len3 (sphPoint r b c) = r := by
  have h1 : 0 ≤ 1 - b ^ 2 := by nlinarith [hb.1, hb.2]
  have h2 := sq_sqrt h1
  have h3 := cos_sq_add_sin_sq c
  unfold len3 sphPoint
  rw [show (r * b) ^ 2 + (r * √(1 - b ^ 2) * cos c) ^ 2 + (r * √(1 - b ^ 2) * sin c) ^ 2 = r ^ 2 by
    calc _ = r ^ 2 * (b ^ 2 + √(1 - b ^ 2) ^ 2 * (cos c ^ 2 + sin c ^ 2)) := by ring
      _ = r ^ 2 := by rw [h2, h3]; ring]
  exact sqrt_sq hr.le

theorem measurable_len3 : Measurable len3 := by unfold len3; fun_prop

/-- The integral over the unit ball of a function of the direction. -/
theorem lintegral_ball (g : ℝ × ℝ × ℝ → ℝ≥0∞) (hg : Measurable g) :
    ∫⁻ p, {p | len3 p < 1}.indicator (fun p => g ((len3 p)⁻¹ • p)) p = ENNReal.ofReal (1 / 3) * sphInt g := by
  have hm : Measurable ({p | len3 p < 1}.indicator (fun p => g ((len3 p)⁻¹ • p))) := by
    refine Measurable.indicator (hg.comp ?_) (measurableSet_lt measurable_len3 measurable_const)
    exact (measurable_len3.inv).smul measurable_id
  rw [lintegral_spherical _ hm]
  have h1 : ∀ r ∈ Ioi (0 : ℝ), ENNReal.ofReal (r ^ 2) * ∫⁻ b in Ioo (-1) 1, ∫⁻ c in Ioo (-π) π,
      {p | len3 p < 1}.indicator (fun p => g ((len3 p)⁻¹ • p)) (sphPoint r b c) =
      (Iio (1 : ℝ)).indicator (fun r => ENNReal.ofReal (r ^ 2)) r * sphInt g := by
    intro r hr
    have hr0 : (0 : ℝ) < r := hr
    have h2 : ∀ b ∈ Ioo (-1 : ℝ) 1, ∀ c, {p | len3 p < 1}.indicator (fun p => g ((len3 p)⁻¹ • p)) (sphPoint r b c) =
        (Iio (1 : ℝ)).indicator (fun _ => 1) r * g (sphPoint 1 b c) := by
      intro b hb c
      have hl := len3_sphPoint r b c hr0 hb
      have hs : r⁻¹ • sphPoint r b c = sphPoint 1 b c := by
        have : r ≠ 0 := hr0.ne'
        unfold sphPoint
        ext <;> simp <;> field_simp
      by_cases h : r < 1
      · rw [indicator_of_mem (show sphPoint r b c ∈ {p | len3 p < 1} by simpa [hl] using h),
          indicator_of_mem (show r ∈ Iio (1 : ℝ) from h), hl, hs, one_mul]
      · rw [indicator_of_notMem (show ¬ sphPoint r b c ∈ {p | len3 p < 1} by simpa [hl] using h),
          indicator_of_notMem (show ¬ r ∈ Iio (1 : ℝ) from h), zero_mul]
    have h3 : ∫⁻ b in Ioo (-1) 1, ∫⁻ c in Ioo (-π) π,
        {p | len3 p < 1}.indicator (fun p => g ((len3 p)⁻¹ • p)) (sphPoint r b c) =
        (Iio (1 : ℝ)).indicator (fun _ => 1) r * sphInt g := by
      rw [sphInt, ← lintegral_const_mul' _ _ (by unfold indicator; split <;> simp)]
      refine setLIntegral_congr_fun measurableSet_Ioo fun b hb => ?_
      rw [← lintegral_const_mul' _ _ (by unfold indicator; split <;> simp)]
      exact lintegral_congr fun c => h2 b hb c
    rw [h3, ← mul_assoc]
    congr 1
    by_cases h : r ∈ Iio (1 : ℝ) <;> simp [h]
  rw [setLIntegral_congr_fun measurableSet_Ioi h1, lintegral_mul_const]
  · congr 1
    rw [setLIntegral_indicator measurableSet_Iio]
    have hI : Iio (1 : ℝ) ∩ Ioi 0 = Ioo 0 1 := by ext r; simp [and_comm]
    rw [hI, ← ofReal_integral_eq_lintegral_ofReal]
    · congr 1
      rw [← integral_Ioc_eq_integral_Ioo, ← intervalIntegral.integral_of_le (by norm_num), integral_pow]
      norm_num
    · exact ((continuous_pow 2).integrableOn_Icc (a := (0 : ℝ)) (b := 1)).mono_set Ioo_subset_Icc_self
    · exact Filter.Eventually.of_forall fun r => sq_nonneg r
  · exact Measurable.indicator (by fun_prop) measurableSet_Iio

/-- The integral over the unit sphere is invariant under maps that preserve volume and length. -/
theorem sphInt_invariant (R : ℝ × ℝ × ℝ → ℝ × ℝ × ℝ) (hR : MeasurePreserving R volume volume)
    (hlen : ∀ p, len3 (R p) = len3 p) (hsmul : ∀ (k : ℝ) p, R (k • p) = k • R p)
    (g : ℝ × ℝ × ℝ → ℝ≥0∞) (hg : Measurable g) : sphInt (fun p => g (R p)) = sphInt g := by
  have h1 := lintegral_ball g hg
  have h2 := lintegral_ball (fun p => g (R p)) (hg.comp hR.measurable)
  have hm : Measurable ({p | len3 p < 1}.indicator (fun p => g ((len3 p)⁻¹ • p))) := by
    refine Measurable.indicator (hg.comp ?_) (measurableSet_lt measurable_len3 measurable_const)
    exact (measurable_len3.inv).smul measurable_id
  rw [← hR.lintegral_comp hm] at h1
  have h3 : ∀ p, {p | len3 p < 1}.indicator (fun p => g ((len3 p)⁻¹ • p)) (R p) =
      {p | len3 p < 1}.indicator (fun p => g (R ((len3 p)⁻¹ • p))) p := by
    intro p
    by_cases h : len3 p < 1
    · rw [indicator_of_mem (show R p ∈ {p | len3 p < 1} by simpa [hlen] using h),
        indicator_of_mem (show p ∈ {p | len3 p < 1} from h), hlen, hsmul]
    · rw [indicator_of_notMem (show R p ∉ {p | len3 p < 1} by simpa [hlen] using h),
        indicator_of_notMem (show p ∉ {p | len3 p < 1} from h)]
  simp only [h3] at h1
  rw [h1] at h2
  exact ((ENNReal.mul_right_inj (by norm_num) (by finiteness)).1 h2).symm

/-- Space as a Euclidean space. -/
abbrev E3 := EuclideanSpace ℝ (Fin 3)

/-- Coordinates. -/
def toTriple (v : E3) : ℝ × ℝ × ℝ := (v 0, v 1, v 2)

theorem toTriple_preserving : MeasurePreserving toTriple volume volume := by
  have h1 := EuclideanSpace.volume_preserving_symm_measurableEquiv_toLp (Fin 3)
  have h2 := volume_preserving_piFinSuccAbove (fun _ : Fin 3 => ℝ) 0
  have h3 := (MeasurePreserving.id (volume : Measure ℝ)).prod (volume_preserving_finTwoArrow ℝ)
  exact h3.comp (h2.comp h1)

end Chimp
