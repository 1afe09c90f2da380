import Verif.Lemmas.Isotropy
import Mathlib.Probability.Distributions.Gaussian.Real
import Mathlib.MeasureTheory.Integral.Marginal

/-!
# Elastic collisions of particles with thermal velocities
-/

namespace Chimp

open MeasureTheory Real Set ProbabilityTheory
open scoped ENNReal NNReal

/-! ### Thermal velocities -/

/-- The velocities of a gas of particles of mass `m` at temperature `kT` that moves with velocity `d`: the three
components are independent and normally distributed with variance `kT / m`. -/
noncomputable def thermal (kT : ℝ) (d : Vec) (m : ℝ) : Measure Vec :=
  ((gaussianReal d.x (kT / m).toNNReal).prod
    ((gaussianReal d.y (kT / m).toNNReal).prod (gaussianReal d.z (kT / m).toNNReal))).map Vec.ofTriple

instance (kT : ℝ) (d : Vec) (m : ℝ) : IsProbabilityMeasure (thermal kT d m) :=
  Measure.isProbabilityMeasure_map Vec.measurable_ofTriple.aemeasurable

/-- Square of a distance in coordinates. -/
def dist3 (p q : ℝ × ℝ × ℝ) : ℝ := (p.1 - q.1) ^ 2 + (p.2.1 - q.2.1) ^ 2 + (p.2.2 - q.2.2) ^ 2

/-- The density of thermal velocities. -/
noncomputable def maxwell (kT : ℝ) (d : Vec) (m : ℝ) (p : ℝ × ℝ × ℝ) : ℝ≥0∞ :=
  ENNReal.ofReal ((√(2 * π * (kT / m)))⁻¹ ^ 3 * exp (-(m * dist3 p d.triple) / (2 * kT)))

theorem measurable_maxwell (kT : ℝ) (d : Vec) (m : ℝ) : Measurable (maxwell kT d m) := by
  unfold maxwell dist3
  fun_prop

theorem lintegral_thermal {kT m : ℝ} (hT : 0 < kT) (hm : 0 < m) (d : Vec) (f : Vec → ℝ≥0∞) (hf : Measurable f) :
    ∫⁻ v, f v ∂thermal kT d m = ∫⁻ p, maxwell kT d m p * f (Vec.ofTriple p) := by
  have hv : (kT / m).toNNReal ≠ 0 := by
    rw [Ne, Real.toNNReal_eq_zero, not_le]; positivity
  unfold thermal
  rw [lintegral_map hf Vec.measurable_ofTriple, gaussianReal_of_var_ne_zero _ hv, gaussianReal_of_var_ne_zero _ hv,
    gaussianReal_of_var_ne_zero _ hv, prod_withDensity (by fun_prop) (by fun_prop),
    prod_withDensity (by fun_prop) (by fun_prop), lintegral_withDensity_eq_lintegral_mul _ (by fun_prop)
      (show Measurable (fun a => f (Vec.ofTriple a)) from hf.comp Vec.measurable_ofTriple)]
  refine lintegral_congr fun p => ?_
  simp only [Pi.mul_apply, gaussianPDF]
  congr 1
  rw [← ENNReal.ofReal_mul (gaussianPDFReal_nonneg _ _ _), ← ENNReal.ofReal_mul (gaussianPDFReal_nonneg _ _ _)]
  unfold maxwell
  congr 1
  simp only [gaussianPDFReal, Real.coe_toNNReal _ (div_pos hT hm).le]
  have he : ∀ a b c : ℝ, exp (-(m * (a ^ 2 + b ^ 2 + c ^ 2)) / (2 * kT)) =
      exp (-a ^ 2 / (2 * (kT / m))) * (exp (-b ^ 2 / (2 * (kT / m))) * exp (-c ^ 2 / (2 * (kT / m)))) := by
    intro a b c
    rw [← exp_add, ← exp_add]
    congr 1
    field_simp
    ring
  simp only [dist3, Vec.triple, he]
  ring

/-! ### Replacing a vector by a random one of the same length -/

theorem len3_ofTriple (p : ℝ × ℝ × ℝ) : (Vec.ofTriple p).abs = len3 p := rfl

theorem lintegral_isoLaw' (r : ℝ) (g : Vec → ℝ≥0∞) (hg : Measurable g) :
    ∫⁻ v, g v ∂isoLaw r = ∫⁻ t, g (isoOf r t) ∂unif.prod unif := by
  rw [isoLaw, lintegral_map hg (measurable_isoOf' r)]

theorem measurable_lintegral_isoLaw {α : Type} [MeasurableSpace α] (r : α → ℝ) (hr : Measurable r)
    (g : α × Vec → ℝ≥0∞) (hg : Measurable g) : Measurable (fun a => ∫⁻ v, g (a, v) ∂isoLaw (r a)) := by
  have h1 : (fun a => ∫⁻ v, g (a, v) ∂isoLaw (r a)) =
      fun a => ∫⁻ t, g (a, isoOf (r a) t) ∂unif.prod unif := by
    funext a
    exact lintegral_isoLaw' _ (fun v => g (a, v)) (hg.comp (measurable_const.prodMk measurable_id))
  rw [h1]
  have h2 : Measurable (fun x : α × (ℝ × ℝ) => g (x.1, isoOf (r x.1) x.2)) :=
    hg.comp (measurable_fst.prodMk (measurable_isoOf.comp ((hr.comp measurable_fst).prodMk measurable_snd)))
  exact h2.lintegral_prod_right'

theorem sphPoint_smul (r b c : ℝ) : Vec.ofTriple (sphPoint r b c) = r • Vec.ofTriple (sphPoint 1 b c) := by
  simp only [sphPoint, Vec.ofTriple, Vec.smul_def, Vec.mk.injEq]
  refine ⟨?_, ?_, ?_⟩ <;> ring

theorem lintegral_radial (h : ℝ → ℝ≥0∞) (hh : Measurable h) (g : Vec → ℝ≥0∞) (hg : Measurable g) :
    ∫⁻ p, h (len3 p) * ∫⁻ w, g w ∂isoLaw (len3 p) = ∫⁻ p, h (len3 p) * g (Vec.ofTriple p) := by
  have m1 : Measurable (fun p => h (len3 p) * ∫⁻ w, g w ∂isoLaw (len3 p)) :=
    (hh.comp measurable_len3).mul (measurable_lintegral_isoLaw len3 measurable_len3 (fun x => g x.2)
      (hg.comp measurable_snd))
  have m2 : Measurable (fun p => h (len3 p) * g (Vec.ofTriple p)) :=
    (hh.comp measurable_len3).mul (hg.comp Vec.measurable_ofTriple)
  rw [lintegral_spherical _ m1, lintegral_spherical _ m2]
  refine setLIntegral_congr_fun measurableSet_Ioi fun r hr => ?_
  have hr : 0 < r := hr
  have hm3 : Measurable (fun t : ℝ × ℝ => g (r • Vec.ofTriple (sphPoint 1 t.1 t.2))) := by
    refine hg.comp (Vec.measurable_mk ?_ ?_ ?_) <;> simp only [Vec.smul_def, Vec.ofTriple, sphPoint] <;> fun_prop
  have hm4 : Measurable (fun b => ∫⁻ c in Ioo (-π) π, g (r • Vec.ofTriple (sphPoint 1 b c))) :=
    hm3.lintegral_prod_right'
  have hm5 : ∀ b, Measurable (fun c => g (r • Vec.ofTriple (sphPoint 1 b c))) := fun b =>
    hm3.comp (measurable_const.prodMk measurable_id)
  show ENNReal.ofReal (r ^ 2) * _ = ENNReal.ofReal (r ^ 2) * _
  congr 1
  have e1 : ∫⁻ b in Ioo (-1) 1, ∫⁻ c in Ioo (-π) π, h (len3 (sphPoint r b c)) *
      ∫⁻ w, g w ∂isoLaw (len3 (sphPoint r b c)) =
      ∫⁻ b in Ioo (-1 : ℝ) 1, ∫⁻ c in Ioo (-π) π, h r * ∫⁻ w, g w ∂isoLaw r := by
    refine setLIntegral_congr_fun measurableSet_Ioo fun b hb => ?_
    simp only [len3_sphPoint r b _ hr hb]
  have e2 : ∫⁻ b in Ioo (-1) 1, ∫⁻ c in Ioo (-π) π, h (len3 (sphPoint r b c)) *
      g (Vec.ofTriple (sphPoint r b c)) =
      h r * sphInt (fun p => g (r • Vec.ofTriple p)) := by
    rw [sphInt, ← lintegral_const_mul _ hm4]
    refine setLIntegral_congr_fun measurableSet_Ioo fun b hb => ?_
    simp only [len3_sphPoint r b _ hr hb]
    rw [← lintegral_const_mul _ (hm5 b)]
    exact lintegral_congr fun c => by rw [sphPoint_smul]
  rw [e1, e2, lintegral_isoLaw r g hg]
  simp only [lintegral_const, Measure.restrict_apply_univ, Real.volume_Ioo]
  have e3 : ENNReal.ofReal (1 / (4 * π)) * (ENNReal.ofReal (π - -π) * ENNReal.ofReal (1 - -1)) = 1 := by
    rw [← ENNReal.ofReal_mul (by linarith [pi_pos]), ← ENNReal.ofReal_mul (by positivity),
      show 1 / (4 * π) * ((π - -π) * (1 - -1)) = 1 by field_simp; ring, ENNReal.ofReal_one]
  calc _ = h r * sphInt (fun p => g (r • Vec.ofTriple p)) *
        (ENNReal.ofReal (1 / (4 * π)) * (ENNReal.ofReal (π - -π) * ENNReal.ofReal (1 - -1))) := by ring
    _ = _ := by rw [e3, mul_one]

theorem measurable_sub_vec {α : Type} [MeasurableSpace α] {f g : α → Vec} (hf : Measurable f) (hg : Measurable g) :
    Measurable (fun a => f a - g a) :=
  Vec.measurable_mk ((Vec.measurable_x.comp hf).sub (Vec.measurable_x.comp hg))
    ((Vec.measurable_y.comp hf).sub (Vec.measurable_y.comp hg))
    ((Vec.measurable_z.comp hf).sub (Vec.measurable_z.comp hg))

theorem measurable_abs_vec : Measurable Vec.abs := by
  have h1 := Vec.measurable_x
  have h2 := Vec.measurable_y
  have h3 := Vec.measurable_z
  unfold Vec.abs Vec.normSq
  fun_prop

theorem measurable_weightedMean (m1 m2 : ℝ) : Measurable (fun x : Vec × Vec => weightedMean m1 m2 x.1 x.2) :=
  measurable_smul_vec _ (measurable_add_vec (measurable_smul_vec _ measurable_fst)
    (measurable_smul_vec _ measurable_snd))

/-! ### Centre of mass and relative velocity -/

theorem lintegral_relative (k : ℝ) (F : (ℝ × ℝ × ℝ) × (ℝ × ℝ × ℝ) → ℝ≥0∞) (hF : Measurable F) :
    ∫⁻ p, ∫⁻ q, F (p, q) = ∫⁻ c, ∫⁻ u, F (c + (1 - k) • u, c - k • u) := by
  have i1 : (volume : Measure (ℝ × ℝ)).IsAddHaarMeasure :=
    inferInstanceAs ((volume : Measure ℝ).prod (volume : Measure ℝ)).IsAddHaarMeasure
  have i2 : (volume : Measure (ℝ × ℝ × ℝ)).IsAddHaarMeasure :=
    inferInstanceAs ((volume : Measure ℝ).prod (volume : Measure (ℝ × ℝ))).IsAddHaarMeasure
  have h1 : ∫⁻ p, ∫⁻ q, F (p, q) = ∫⁻ q, ∫⁻ u, F (q + u, q) := by
    rw [lintegral_lintegral_swap (f := fun p q => F (p, q)) hF.aemeasurable]
    refine lintegral_congr fun q => ?_
    exact (lintegral_add_left_eq_self (fun p => F (p, q)) q).symm
  have h2 : ∫⁻ q, ∫⁻ u, F (q + u, q) = ∫⁻ u, ∫⁻ q, F (q + u, q) :=
    lintegral_lintegral_swap (f := fun q u => F (q + u, q))
      (Measurable.aemeasurable (hF.comp (by fun_prop)))
  have h3 : ∀ u, ∫⁻ q, F (q + u, q) = ∫⁻ c, F (c + (1 - k) • u, c - k • u) := by
    intro u
    rw [← lintegral_sub_right_eq_self (fun q => F (q + u, q)) (k • u)]
    refine lintegral_congr fun c => ?_
    congr 2
    rw [sub_smul, one_smul]
    abel
  rw [h1, h2]
  simp only [h3]
  exact lintegral_lintegral_swap (f := fun u c => F (c + (1 - k) • u, c - k • u))
      (Measurable.aemeasurable (hF.comp (by fun_prop)))

/-- The density of two thermal velocities in centre of mass and relative velocity. -/
theorem maxwell_pair {kT m1 m2 : ℝ} (hT : 0 < kT) (h1 : 0 < m1) (h2 : 0 < m2) (d : Vec) :
    ∃ g : ℝ × ℝ × ℝ → ℝ≥0∞, ∃ h : ℝ → ℝ≥0∞, Measurable g ∧ Measurable h ∧
      ∀ c u : ℝ × ℝ × ℝ, maxwell kT d m1 (c + (m2 / (m1 + m2)) • u) * maxwell kT d m2 (c - (m1 / (m1 + m2)) • u) =
        g c * h (len3 u) := by
  refine ⟨fun c => ENNReal.ofReal ((√(2 * π * (kT / m1)))⁻¹ ^ 3 * (√(2 * π * (kT / m2)))⁻¹ ^ 3 *
      exp (-((m1 + m2) * dist3 c d.triple) / (2 * kT))),
    fun r => ENNReal.ofReal (exp (-(m1 * m2 / (m1 + m2) * r ^ 2) / (2 * kT))), ?_, by fun_prop, ?_⟩
  · unfold dist3; fun_prop
  · intro c u
    unfold maxwell
    rw [← ENNReal.ofReal_mul (by positivity), ← ENNReal.ofReal_mul (by positivity)]
    congr 1
    have hl : len3 u ^ 2 = u.1 ^ 2 + u.2.1 ^ 2 + u.2.2 ^ 2 := sq_sqrt (by positivity)
    have he : exp (-(m1 * dist3 (c + (m2 / (m1 + m2)) • u) d.triple) / (2 * kT)) *
        exp (-(m2 * dist3 (c - (m1 / (m1 + m2)) • u) d.triple) / (2 * kT)) =
        exp (-((m1 + m2) * dist3 c d.triple) / (2 * kT)) *
        exp (-(m1 * m2 / (m1 + m2) * len3 u ^ 2) / (2 * kT)) := by
      rw [← exp_add, ← exp_add, hl]
      congr 1
      simp only [dist3, Vec.triple, Prod.fst_add, Prod.snd_add, Prod.fst_sub, Prod.snd_sub, Prod.smul_fst,
        Prod.smul_snd, smul_eq_mul]
      have : m1 + m2 ≠ 0 := by positivity
      field_simp
      ring
    calc _ = (√(2 * π * (kT / m1)))⁻¹ ^ 3 * (√(2 * π * (kT / m2)))⁻¹ ^ 3 *
        (exp (-(m1 * dist3 (c + (m2 / (m1 + m2)) • u) d.triple) / (2 * kT)) *
        exp (-(m2 * dist3 (c - (m1 / (m1 + m2)) • u) d.triple) / (2 * kT))) := by ring
      _ = _ := by rw [he]; ring

/-- An elastic collision in coordinates: centre of mass, then a new relative velocity. -/
theorem lintegral_elastic {kT m1 m2 : ℝ} (hT : 0 < kT) (h1 : 0 < m1) (h2 : 0 < m2) (d : Vec)
    (F : Vec × Vec → ℝ≥0∞) (hF : Measurable F) :
    ∫⁻ a, ∫⁻ b, (∫⁻ w, F (weightedMean m1 m2 a b + (m2 / (m1 + m2)) • w,
        weightedMean m1 m2 a b - (m1 / (m1 + m2)) • w) ∂isoLaw (a - b).abs) ∂thermal kT d m2 ∂thermal kT d m1 =
      ∫⁻ a, ∫⁻ b, F (a, b) ∂thermal kT d m2 ∂thermal kT d m1 := by
  have hs : m1 + m2 ≠ 0 := by positivity
  obtain ⟨g, h, hg, hh, hgh⟩ := maxwell_pair hT h1 h2 d
  -- both sides as integrals over the two velocities in coordinates
  have hmain : ∀ G : Vec × Vec → ℝ≥0∞, Measurable G → ∫⁻ a, ∫⁻ b, G (a, b) ∂thermal kT d m2 ∂thermal kT d m1 =
      ∫⁻ c, g c * ∫⁻ u, h (len3 u) * G (Vec.ofTriple (c + (m2 / (m1 + m2)) • u),
        Vec.ofTriple (c - (m1 / (m1 + m2)) • u)) := by
    intro G hG
    have hG' : Measurable (fun x : (ℝ × ℝ × ℝ) × (ℝ × ℝ × ℝ) => G (Vec.ofTriple x.1, Vec.ofTriple x.2)) :=
      hG.comp ((Vec.measurable_ofTriple.comp measurable_fst).prodMk (Vec.measurable_ofTriple.comp measurable_snd))
    have e1 : ∀ a, ∫⁻ b, G (a, b) ∂thermal kT d m2 = ∫⁻ q, maxwell kT d m2 q * G (a, Vec.ofTriple q) := fun a =>
      lintegral_thermal hT h2 d (fun b => G (a, b)) (hG.comp (measurable_const.prodMk measurable_id))
    rw [lintegral_thermal hT h1 d _ hG.lintegral_prod_right']
    simp only [e1]
    have e2 : ∀ p, maxwell kT d m1 p * ∫⁻ q, maxwell kT d m2 q * G (Vec.ofTriple p, Vec.ofTriple q) =
        ∫⁻ q, maxwell kT d m1 p * (maxwell kT d m2 q * G (Vec.ofTriple p, Vec.ofTriple q)) := by
      intro p
      rw [lintegral_const_mul]
      exact (measurable_maxwell _ _ _).mul (hG'.comp (measurable_const.prodMk measurable_id))
    simp only [e2]
    rw [lintegral_relative (m1 / (m1 + m2)) (fun x => maxwell kT d m1 x.1 * (maxwell kT d m2 x.2 *
      G (Vec.ofTriple x.1, Vec.ofTriple x.2))) (((measurable_maxwell _ _ _).comp measurable_fst).mul
      (((measurable_maxwell _ _ _).comp measurable_snd).mul hG'))]
    have hk : 1 - m1 / (m1 + m2) = m2 / (m1 + m2) := by field_simp; ring
    rw [hk]
    refine lintegral_congr fun c => ?_
    rw [← lintegral_const_mul]
    · refine lintegral_congr fun u => ?_
      rw [← mul_assoc, ← mul_assoc, hgh]
    · exact (hh.comp measurable_len3).mul (hG'.comp (show Measurable (fun u : ℝ × ℝ × ℝ =>
        (c + (m2 / (m1 + m2)) • u, c - (m1 / (m1 + m2)) • u)) by fun_prop))
  have mG : Measurable (fun x : Vec × Vec => ∫⁻ w, F (weightedMean m1 m2 x.1 x.2 + (m2 / (m1 + m2)) • w,
      weightedMean m1 m2 x.1 x.2 - (m1 / (m1 + m2)) • w) ∂isoLaw (x.1 - x.2).abs) := by
    refine measurable_lintegral_isoLaw (fun x : Vec × Vec => (x.1 - x.2).abs) ?_
      (fun y : (Vec × Vec) × Vec => F (weightedMean m1 m2 y.1.1 y.1.2 + (m2 / (m1 + m2)) • y.2,
        weightedMean m1 m2 y.1.1 y.1.2 - (m1 / (m1 + m2)) • y.2)) ?_
    · exact measurable_abs_vec.comp (measurable_sub_vec measurable_fst measurable_snd)
    · have hw : Measurable (fun y : (Vec × Vec) × Vec => weightedMean m1 m2 y.1.1 y.1.2) :=
        (measurable_weightedMean m1 m2).comp measurable_fst
      exact hF.comp ((measurable_add_vec hw (measurable_smul_vec _ measurable_snd)).prodMk
        (measurable_sub_vec hw (measurable_smul_vec _ measurable_snd)))
  rw [hmain F hF, hmain _ mG]
  refine lintegral_congr fun c => ?_
  congr 1
  have hr := lintegral_radial h hh (fun w => F (Vec.ofTriple c + (m2 / (m1 + m2)) • w,
    Vec.ofTriple c - (m1 / (m1 + m2)) • w)) (hF.comp ((measurable_add_vec measurable_const
      (measurable_smul_vec _ measurable_id)).prodMk
        (measurable_sub_vec measurable_const (measurable_smul_vec _ measurable_id))))
  have ea : ∀ u : ℝ × ℝ × ℝ, Vec.ofTriple (c + (m2 / (m1 + m2)) • u) =
      Vec.ofTriple c + (m2 / (m1 + m2)) • Vec.ofTriple u := fun u => rfl
  have eb : ∀ u : ℝ × ℝ × ℝ, Vec.ofTriple (c - (m1 / (m1 + m2)) • u) =
      Vec.ofTriple c - (m1 / (m1 + m2)) • Vec.ofTriple u := fun u => rfl
  have ec : ∀ u : ℝ × ℝ × ℝ, weightedMean m1 m2 (Vec.ofTriple c + (m2 / (m1 + m2)) • Vec.ofTriple u)
      (Vec.ofTriple c - (m1 / (m1 + m2)) • Vec.ofTriple u) = Vec.ofTriple c := by
    intro u
    unfold weightedMean
    ext <;> simp only [Vec.add_def, Vec.sub_def, Vec.smul_def] <;> field_simp <;> ring
  have ed : ∀ u : ℝ × ℝ × ℝ, (Vec.ofTriple c + (m2 / (m1 + m2)) • Vec.ofTriple u) -
      (Vec.ofTriple c - (m1 / (m1 + m2)) • Vec.ofTriple u) = Vec.ofTriple u := by
    intro u
    ext <;> simp only [Vec.add_def, Vec.sub_def, Vec.smul_def] <;> field_simp <;> ring
  simp only [ea, eb, ec, ed, len3_ofTriple]
  exact hr

/-! ### The elastic collision as a map that keeps the distribution -/

variable {S : Type} [MeasurableSpace S] {μ : Measure S} [IsProbabilityMeasure μ]

/-- The elastic collision as a map of the two velocities and the generator. -/
noncomputable def collidePair (rng : RNG S ℝ) (mu : ReducedMass ℝ) (x : (Vec × Vec) × S) : (Vec × Vec) × S :=
  (((elasticCollide rng mu x.1.1 x.1.2 x.2).1, (elasticCollide rng mu x.1.1 x.1.2 x.2).2.1),
    (elasticCollide rng mu x.1.1 x.1.2 x.2).2.2)

theorem measurable_collidePair {rng : RNG S ℝ} (h : rng.IID μ) (mu : ReducedMass ℝ) :
    Measurable (collidePair rng mu) := by
  have m1 : Measurable (fun x : (Vec × Vec) × S => x.1.1) := measurable_fst.comp measurable_fst
  have m2 : Measurable (fun x : (Vec × Vec) × S => x.1.2) := measurable_snd.comp measurable_fst
  have hcm : Measurable (fun x : (Vec × Vec) × S => velCM mu x.1.1 x.1.2) :=
    measurable_add_vec (measurable_smul_vec _ m1) (measurable_smul_vec _ m2)
  have hi : Measurable (fun x : (Vec × Vec) × S => isoVec rng (x.1.1 - x.1.2).abs x.2) :=
    (measurable_isoVec h).comp ((measurable_abs_vec.comp (measurable_sub_vec m1 m2)).prodMk measurable_snd)
  exact ((measurable_add_vec hcm (measurable_smul_vec _ hi.fst)).prodMk
    (measurable_sub_vec hcm (measurable_smul_vec _ hi.fst))).prodMk hi.snd

/-- Two particles with thermal velocities have thermal velocities after an elastic collision. -/
theorem elastic_preserving {kT m1 m2 : ℝ} (hT : 0 < kT) (h1 : 0 < m1) (h2 : 0 < m2) (d : Vec)
    {rng : RNG S ℝ} (h : rng.IID μ) :
    MeasurePreserving (collidePair rng (ReducedMass.mk' m1 m2))
      (((thermal kT d m1).prod (thermal kT d m2)).prod μ) (((thermal kT d m1).prod (thermal kT d m2)).prod μ) := by
  have hm := measurable_collidePair h (ReducedMass.mk' m1 m2)
  refine ⟨hm, Measure.ext_of_lintegral _ fun f hf => ?_⟩
  have hfm : Measurable (fun x => f (collidePair rng (ReducedMass.mk' m1 m2) x)) := hf.comp hm
  rw [lintegral_map hf hm, lintegral_prod _ hfm.aemeasurable, lintegral_prod _ hf.aemeasurable]
  have hF : Measurable (fun x : Vec × Vec => ∫⁻ s, f (x, s) ∂μ) := hf.lintegral_prod_right'
  have hin : ∀ x : Vec × Vec, ∫⁻ s, f (collidePair rng (ReducedMass.mk' m1 m2) (x, s)) ∂μ =
      ∫⁻ w, (∫⁻ s, f ((weightedMean m1 m2 x.1 x.2 + (m2 / (m1 + m2)) • w,
        weightedMean m1 m2 x.1 x.2 - (m1 / (m1 + m2)) • w), s) ∂μ) ∂isoLaw (x.1 - x.2).abs := by
    intro x
    obtain ⟨_, e1, e2⟩ := reducedMass_eq h1 h2
    have hk : Measurable (fun y : Vec × S => f ((weightedMean m1 m2 x.1 x.2 + (m2 / (m1 + m2)) • y.1,
        weightedMean m1 m2 x.1 x.2 - (m1 / (m1 + m2)) • y.1), y.2)) :=
      hf.comp (((measurable_add_vec measurable_const (measurable_smul_vec _ measurable_fst)).prodMk
        (measurable_sub_vec measurable_const (measurable_smul_vec _ measurable_fst))).prodMk measurable_snd)
    have hl := lintegral_map hk (measurable_isoVec' h (x.1 - x.2).abs) (μ := μ)
    rw [law_isoVec h, lintegral_prod _ hk.aemeasurable] at hl
    rw [hl]
    refine lintegral_congr fun s => ?_
    simp only [collidePair, elasticCollide, velCM_eq h1 h2, e1, e2]
  have hG : Measurable (fun x : Vec × Vec => ∫⁻ s, f (collidePair rng (ReducedMass.mk' m1 m2) (x, s)) ∂μ) :=
    hfm.lintegral_prod_right'
  rw [lintegral_prod _ hG.aemeasurable, lintegral_prod _ hF.aemeasurable]
  simp only [hin]
  exact lintegral_elastic hT h1 h2 d (fun x => ∫⁻ s, f (x, s) ∂μ) hF

omit [MeasurableSpace S] in
theorem collidePair_relative {m1 m2 : ℝ} (h1 : 0 < m1) (h2 : 0 < m2) (rng : RNG S ℝ) (x : (Vec × Vec) × S) :
    (collidePair rng (ReducedMass.mk' m1 m2) x).1.1 - (collidePair rng (ReducedMass.mk' m1 m2) x).1.2 =
      (isoVec rng (x.1.1 - x.1.2).abs x.2).1 := by
  obtain ⟨_, e1, e2⟩ := reducedMass_eq h1 h2
  simp only [collidePair, elasticCollide, e1, e2]
  have : m1 + m2 ≠ 0 := by positivity
  ext <;> simp only [Vec.add_def, Vec.sub_def, Vec.smul_def] <;> field_simp <;> ring

/-! ### Maps that keep a distribution -/

section
variable {X : Type} [MeasurableSpace X] {ν : Measure X}

/-- A choice between two maps that both keep the distribution and what the choice depends on. -/
theorem preserving_ite {T1 T2 : X → X} (h1 : MeasurePreserving T1 ν ν) (h2 : MeasurePreserving T2 ν ν)
    {C : X → Prop} [DecidablePred C] (hC : MeasurableSet {x | C x}) (i1 : ∀ᵐ x ∂ν, C (T1 x) ↔ C x)
    (i2 : ∀ᵐ x ∂ν, C (T2 x) ↔ C x) : MeasurePreserving (fun x => if C x then T1 x else T2 x) ν ν := by
  have hm : Measurable (fun x => if C x then T1 x else T2 x) := Measurable.ite hC h1.measurable h2.measurable
  refine ⟨hm, Measure.ext fun E hE => ?_⟩
  rw [Measure.map_apply hm hE]
  have e0 : (fun x => if C x then T1 x else T2 x) ⁻¹' E = ({x | C x} ∩ T1 ⁻¹' E) ∪ ({x | C x}ᶜ ∩ T2 ⁻¹' E) := by
    ext x
    by_cases hx : C x <;> simp [hx]
  have d0 : Disjoint ({x | C x} ∩ T1 ⁻¹' E) ({x | C x}ᶜ ∩ T2 ⁻¹' E) :=
    Set.disjoint_left.2 fun x hx hx' => hx'.1 hx.1
  rw [e0, measure_union d0 (hC.compl.inter (h2.measurable hE))]
  have e1 : ν ({x | C x} ∩ T1 ⁻¹' E) = ν ({x | C x} ∩ E) := by
    rw [← h1.measure_preimage (hC.inter hE).nullMeasurableSet]
    refine measure_congr ?_
    filter_upwards [i1] with x hx
    exact propext ⟨fun h => ⟨hx.2 h.1, h.2⟩, fun h => ⟨hx.1 h.1, h.2⟩⟩
  have e2 : ν ({x | C x}ᶜ ∩ T2 ⁻¹' E) = ν ({x | C x}ᶜ ∩ E) := by
    rw [← h2.measure_preimage (hC.compl.inter hE).nullMeasurableSet]
    refine measure_congr ?_
    filter_upwards [i2] with x hx
    exact propext ⟨fun h => ⟨fun h' => h.1 (hx.1 h'), h.2⟩, fun h => ⟨fun h' => h.1 (hx.2 h'), h.2⟩⟩
  rw [e1, e2, ← measure_union (Set.disjoint_left.2 fun x hx hx' => hx'.1 hx.1) (hC.compl.inter hE), ← union_inter_distrib_right,
    union_compl_self, univ_inter]

variable {κ : Measure X} [SFinite κ]

/-- A random number is drawn and then one of a family of maps is applied. -/
theorem preserving_draw {d : S → ℝ × S} (hd : Measurable d) (hlaw : μ.map d = unif.prod μ)
    {Φ : ℝ × X × S → X × S} (hm : Measurable Φ)
    (hΦ : ∀ u, MeasurePreserving (fun x => Φ (u, x)) (κ.prod μ) (κ.prod μ)) :
    MeasurePreserving (fun x : X × S => Φ ((d x.2).1, x.1, (d x.2).2)) (κ.prod μ) (κ.prod μ) := by
  have hdm : Measurable (fun x : X × S => ((d x.2).1, x.1, (d x.2).2)) := by
    have : Measurable (fun x : X × S => d x.2) := hd.comp measurable_snd
    exact this.fst.prodMk (measurable_fst.prodMk this.snd)
  refine ⟨hm.comp hdm, Measure.ext_of_lintegral _ fun f hf => ?_⟩
  have hΦd : Measurable (fun x : X × S => Φ ((d x.2).1, x.1, (d x.2).2)) := hm.comp hdm
  rw [lintegral_map hf hΦd]
  have m0 : Measurable (fun x : X × S => f (Φ ((d x.2).1, x.1, (d x.2).2))) := hf.comp (hm.comp hdm)
  have m1 : Measurable (fun y : ℝ × X × S => f (Φ y)) := hf.comp hm
  rw [lintegral_prod _ m0.aemeasurable]
  have e1 : ∀ x : X, ∫⁻ s, f (Φ ((d s).1, x, (d s).2)) ∂μ = ∫⁻ u, ∫⁻ s, f (Φ (u, x, s)) ∂μ ∂unif := by
    intro x
    have m2 : Measurable (fun y : ℝ × S => f (Φ (y.1, x, y.2))) :=
      m1.comp (measurable_fst.prodMk (measurable_const.prodMk measurable_snd))
    have := lintegral_map m2 hd (μ := μ)
    rw [hlaw, lintegral_prod _ m2.aemeasurable] at this
    exact this.symm
  simp only [e1]
  have m3 : Measurable (fun y : (X × ℝ) × S => f (Φ (y.1.2, y.1.1, y.2))) :=
    m1.comp ((measurable_snd.comp measurable_fst).prodMk ((measurable_fst.comp measurable_fst).prodMk measurable_snd))
  rw [lintegral_lintegral_swap (f := fun x u => ∫⁻ s, f (Φ (u, x, s)) ∂μ) m3.lintegral_prod_right'.aemeasurable]
  have e2 : ∀ u, ∫⁻ x, ∫⁻ s, f (Φ (u, x, s)) ∂μ ∂κ = ∫⁻ x, f x ∂κ.prod μ := by
    intro u
    have m4 : Measurable (fun x : X × S => f (Φ (u, x))) := m1.comp (measurable_const.prodMk measurable_id)
    rw [← lintegral_prod (fun x : X × S => f (Φ (u, x))) m4.aemeasurable, ← lintegral_map hf (hΦ u).measurable, (hΦ u).map_eq]
  simp only [e2, lintegral_const, measure_univ, mul_one]

end

/-! ### Two of many particles -/

/-- The elastic collision of particles `i` and `j`. -/
noncomputable def collideAt {N : ℕ} (rng : RNG S ℝ) (mu : ReducedMass ℝ) (i j : Fin N) (x : (Fin N → Vec) × S) :
    (Fin N → Vec) × S :=
  (Function.update (Function.update x.1 i (collidePair rng mu ((x.1 i, x.1 j), x.2)).1.1) j
    (collidePair rng mu ((x.1 i, x.1 j), x.2)).1.2, (collidePair rng mu ((x.1 i, x.1 j), x.2)).2)

theorem measurable_update_two {α : Type} [MeasurableSpace α] {N : ℕ} (i j : Fin N) {f : α → Fin N → Vec} {a b : α → Vec}
    (hf : Measurable f) (ha : Measurable a) (hb : Measurable b) :
    Measurable (fun x => Function.update (Function.update (f x) i (a x)) j (b x)) := by
  refine measurable_pi_lambda _ fun k => ?_
  by_cases hj : k = j
  · subst hj; simpa using hb
  · by_cases hi : k = i
    · subst hi; simpa [hj] using ha
    · simp only [Function.update_of_ne hj, Function.update_of_ne hi]
      exact (measurable_pi_apply k).comp hf

theorem measurable_collideAt {N : ℕ} {rng : RNG S ℝ} (h : rng.IID μ) (mu : ReducedMass ℝ) (i j : Fin N) :
    Measurable (collideAt rng mu i j) := by
  have h1 : Measurable (fun x : (Fin N → Vec) × S => collidePair rng mu ((x.1 i, x.1 j), x.2)) :=
    (measurable_collidePair h mu).comp ((((measurable_pi_apply i).comp measurable_fst).prodMk
      ((measurable_pi_apply j).comp measurable_fst)).prodMk measurable_snd)
  exact (measurable_update_two i j measurable_fst h1.fst.fst h1.fst.snd).prodMk h1.snd

theorem collideAt_preserving {N : ℕ} {kT : ℝ} (hT : 0 < kT) (d : Vec) (m : Fin N → ℝ) (hm : ∀ i, 0 < m i)
    {rng : RNG S ℝ} (h : rng.IID μ) {i j : Fin N} (hij : i ≠ j) :
    MeasurePreserving (collideAt rng (ReducedMass.mk' (m i) (m j)) i j)
      ((Measure.pi fun k => thermal kT d (m k)).prod μ) ((Measure.pi fun k => thermal kT d (m k)).prod μ) := by
  have hc := measurable_collideAt h (ReducedMass.mk' (m i) (m j)) i j
  refine ⟨hc, Measure.ext_of_lintegral _ fun f hf => ?_⟩
  have hfc : Measurable (fun x => f (collideAt rng (ReducedMass.mk' (m i) (m j)) i j x)) := hf.comp hc
  rw [lintegral_map hf hc, lintegral_prod _ hfc.aemeasurable, lintegral_prod _ hf.aemeasurable]
  have g1 : Measurable (fun x => ∫⁻ s, f (collideAt rng (ReducedMass.mk' (m i) (m j)) i j (x, s)) ∂μ) :=
    hfc.lintegral_prod_right'
  have g2 : Measurable (fun x => ∫⁻ s, f (x, s) ∂μ) := hf.lintegral_prod_right'
  refine lintegral_eq_of_lmarginal_eq {i, j} g1 g2 ?_
  have hpair : ∀ g : (Fin N → Vec) → ℝ≥0∞, Measurable g → ∀ x, (∫⋯∫⁻_{i, j}, g ∂fun k => thermal kT d (m k)) x =
      ∫⁻ a, ∫⁻ b, g (Function.update (Function.update x i a) j b) ∂thermal kT d (m j) ∂thermal kT d (m i) := by
    intro g hg x
    rw [lmarginal_insert g hg (by simpa using hij)]
    simp only [lmarginal_singleton]
  funext x
  rw [hpair _ g1, hpair _ g2]
  have hk : Measurable (fun y : (Vec × Vec) × S => f (Function.update (Function.update x i y.1.1) j y.1.2, y.2)) :=
    hf.comp ((measurable_update_two i j measurable_const measurable_fst.fst measurable_fst.snd).prodMk measurable_snd)
  have hp := elastic_preserving hT (hm i) (hm j) d h
  have hkp : Measurable (fun y => (fun y : (Vec × Vec) × S => f (Function.update (Function.update x i y.1.1) j y.1.2, y.2))
      (collidePair rng (ReducedMass.mk' (m i) (m j)) y)) := hk.comp hp.measurable
  have e := hp.lintegral_comp hk
  rw [lintegral_prod _ hkp.aemeasurable, lintegral_prod _ hk.aemeasurable,
    lintegral_prod _ (hkp.lintegral_prod_right').aemeasurable, lintegral_prod _ (hk.lintegral_prod_right').aemeasurable] at e
  refine Eq.trans ?_ e
  refine lintegral_congr fun a => lintegral_congr fun b => lintegral_congr fun s => ?_
  have hi : Function.update (Function.update x i a) j b i = a := by simp [hij]
  have hj : Function.update (Function.update x i a) j b j = b := by simp
  unfold collideAt
  simp only [hi, hj]
  congr 2
  funext k
  by_cases hkj : k = j
  · subst hkj; simp
  · by_cases hki : k = i
    · subst hki; simp [hkj]
    · simp [hki, hkj]

end Chimp
