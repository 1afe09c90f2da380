import Verif.Lemmas.Sphere
import Verif.Lemmas.RandomDriver
import Verif.Lemmas.Kinematics
import Mathlib.Analysis.Normed.Module.FiniteDimension

/-!
# The law of a random direction
-/

namespace Chimp

open MeasureTheory Real Set
open scoped ENNReal

/-! ### Vectors as a measurable space -/

/-- Coordinates. -/
def Vec.triple (v : Vec) : ℝ × ℝ × ℝ := (v.x, v.y, v.z)

/-- From coordinates. -/
def Vec.ofTriple (p : ℝ × ℝ × ℝ) : Vec := ⟨p.1, p.2.1, p.2.2⟩

instance : MeasurableSpace Vec := MeasurableSpace.comap Vec.triple inferInstance

theorem Vec.measurable_triple : Measurable Vec.triple := comap_measurable _

theorem Vec.measurable_mk {α : Type} [MeasurableSpace α] {f : α → Vec} (hx : Measurable fun a => (f a).x)
    (hy : Measurable fun a => (f a).y) (hz : Measurable fun a => (f a).z) : Measurable f := by
  refine measurable_comap_iff.2 ?_
  exact hx.prodMk (hy.prodMk hz)

theorem Vec.measurable_ofTriple : Measurable Vec.ofTriple :=
  Vec.measurable_mk measurable_fst (measurable_fst.comp measurable_snd) (measurable_snd.comp measurable_snd)

theorem Vec.measurable_x : Measurable Vec.x := measurable_fst.comp Vec.measurable_triple
theorem Vec.measurable_y : Measurable Vec.y := (measurable_fst.comp measurable_snd).comp Vec.measurable_triple
theorem Vec.measurable_z : Measurable Vec.z := (measurable_snd.comp measurable_snd).comp Vec.measurable_triple

@[simp] theorem Vec.add_def (a b : Vec) : a + b = ⟨a.x + b.x, a.y + b.y, a.z + b.z⟩ := rfl
@[simp] theorem Vec.sub_def (a b : Vec) : a - b = ⟨a.x - b.x, a.y - b.y, a.z - b.z⟩ := rfl
@[simp] theorem Vec.smul_def (c : ℝ) (a : Vec) : c • a = ⟨c * a.x, c * a.y, c * a.z⟩ := rfl

/-! ### Rotations -/

/-- A rotation or reflection about the origin: a linear map that preserves lengths. -/
structure Rotation (R : Vec → Vec) : Prop where
  add : ∀ a b, R (a + b) = R a + R b
  smul : ∀ (k : ℝ) a, R (k • a) = k • R a
  norm : ∀ a, (R a).normSq = a.normSq

/-- A vector in Euclidean space. -/
def Vec.ofE3 (v : E3) : Vec := ⟨v 0, v 1, v 2⟩

/-- A vector in Euclidean space. -/
noncomputable def Vec.toE3 (v : Vec) : E3 := !₂[v.x, v.y, v.z]

theorem Vec.ofE3_toE3 (v : Vec) : Vec.ofE3 v.toE3 = v := rfl

theorem Vec.norm_toE3 (v : Vec) : ‖v.toE3‖ = √ v.normSq := by
  rw [EuclideanSpace.norm_eq, Fin.sum_univ_three]
  simp [Vec.toE3, Vec.normSq]

/-- A rotation as an isometry of Euclidean space. -/
noncomputable def Rotation.isometry {R : Vec → Vec} (h : Rotation R) : E3 →ₗᵢ[ℝ] E3 where
  toFun v := (R (Vec.ofE3 v)).toE3
  map_add' a b := by
    have : Vec.ofE3 (a + b) = Vec.ofE3 a + Vec.ofE3 b := rfl
    rw [this, h.add]
    ext i; fin_cases i <;> rfl
  map_smul' k a := by
    have : Vec.ofE3 (k • a) = k • Vec.ofE3 a := rfl
    rw [this, h.smul]
    ext i; fin_cases i <;> rfl
  norm_map' a := by
    show ‖(R (Vec.ofE3 a)).toE3‖ = ‖a‖
    rw [Vec.norm_toE3, h.norm, EuclideanSpace.norm_eq, Fin.sum_univ_three]
    simp [Vec.ofE3, Vec.normSq]

/-- A rotation on coordinates. -/
def rot3 (R : Vec → Vec) (p : ℝ × ℝ × ℝ) : ℝ × ℝ × ℝ := (R (Vec.ofTriple p)).triple

theorem Rotation.semiconj {R : Vec → Vec} (h : Rotation R) (v : E3) :
    toTriple (h.isometry v) = rot3 R (toTriple v) := rfl

theorem Rotation.measurable_rot3 {R : Vec → Vec} (h : Rotation R) : Measurable (rot3 R) := by
  have : rot3 R = fun p => toTriple (h.isometry (Vec.ofTriple p).toE3) := rfl
  rw [this]
  refine toTriple_preserving.measurable.comp (h.isometry.continuous.measurable.comp ?_)
  have : Continuous (fun p : ℝ × ℝ × ℝ => (Vec.ofTriple p).toE3) := by
    unfold Vec.toE3 Vec.ofTriple
    refine (PiLp.continuous_toLp 2 _).comp ?_
    refine continuous_pi fun i => ?_
    fin_cases i <;> simp <;> fun_prop
  exact this.measurable

theorem Rotation.rot3_preserving {R : Vec → Vec} (h : Rotation R) :
    MeasurePreserving (rot3 R) volume volume := by
  have h1 : MeasurePreserving h.isometry volume volume := by
    have := (h.isometry.toLinearIsometryEquiv rfl).measurePreserving
    exact this
  exact toTriple_preserving.of_semiconj h1 h.semiconj h.measurable_rot3

theorem Rotation.measurable {R : Vec → Vec} (h : Rotation R) : Measurable R := by
  have : R = fun v => Vec.ofTriple (rot3 R v.triple) := rfl
  rw [this]
  exact Vec.measurable_ofTriple.comp (h.measurable_rot3.comp Vec.measurable_triple)

theorem Rotation.sphInt {R : Vec → Vec} (h : Rotation R) (g : ℝ × ℝ × ℝ → ℝ≥0∞) (hg : Measurable g) :
    sphInt (fun p => g (rot3 R p)) = Chimp.sphInt g := by
  refine sphInt_invariant (rot3 R) h.rot3_preserving (fun p => ?_) (fun k p => ?_) g hg
  · have := h.norm (Vec.ofTriple p)
    exact congrArg Real.sqrt this
  · exact congrArg Vec.triple (h.smul k (Vec.ofTriple p))

/-- The half turn about the x axis. -/
def flipX (v : Vec) : Vec := ⟨v.x, -v.y, -v.z⟩

theorem flipX_rotation : Rotation flipX where
  add a b := by simp only [flipX, Vec.add_def, Vec.mk.injEq]; refine ⟨trivial, ?_, ?_⟩ <;> ring
  smul k a := by simp only [flipX, Vec.smul_def, Vec.mk.injEq]; refine ⟨trivial, ?_, ?_⟩ <;> ring
  norm a := by simp [flipX, Vec.normSq]

/-! ### The law of the direction -/

/-- The vector the code forms from two random numbers. -/
noncomputable def isoOf (speed : ℝ) (t : ℝ × ℝ) : Vec :=
  ⟨(2 * t.1 - 1) * speed, √(1 - (2 * t.1 - 1) ^ 2) * cos (2 * π * t.2) * speed,
    √(1 - (2 * t.1 - 1) ^ 2) * sin (2 * π * t.2) * speed⟩

theorem measurable_isoOf : Measurable (fun t : ℝ × ℝ × ℝ => isoOf t.1 t.2) := by
  refine Vec.measurable_mk ?_ ?_ ?_ <;> unfold isoOf <;> fun_prop

/-- Its law. -/
noncomputable def isoLaw (speed : ℝ) : Measure Vec := (unif.prod unif).map (isoOf speed)

theorem measurable_isoOf' (speed : ℝ) : Measurable (isoOf speed) :=
  measurable_isoOf.comp (measurable_const.prodMk measurable_id)

instance (speed : ℝ) : IsProbabilityMeasure (isoLaw speed) :=
  Measure.isProbabilityMeasure_map (measurable_isoOf' speed).aemeasurable

/-- Scaling of the first random number. -/
theorem lintegral_unif_affine (a b : ℝ) (ha : 0 < a) (h : ℝ → ℝ≥0∞) :
    ∫⁻ u, h (a * u + b) ∂unif = ENNReal.ofReal a⁻¹ * ∫⁻ x in Ioo b (a + b), h x := by
  have himg : (fun u => a * u + b) '' Ico 0 1 = Ico b (a + b) := by
    ext x
    constructor
    · rintro ⟨u, ⟨h0, h1⟩, rfl⟩
      constructor
      · nlinarith
      · show a * u + b < a + b
        nlinarith
    · rintro ⟨h0, h1⟩
      refine ⟨(x - b) / a, ⟨by apply div_nonneg <;> linarith, ?_⟩, ?_⟩
      · rw [div_lt_one ha]; linarith
      · show a * ((x - b) / a) + b = x
        field_simp
        ring
  have hd : ∀ u ∈ Ico (0 : ℝ) 1, HasDerivWithinAt (fun u => a * u + b) a (Ico 0 1) u := by
    intro u _
    have := ((hasDerivAt_id u).const_mul a).add_const b
    simpa using this.hasDerivWithinAt
  have hinj : InjOn (fun u => a * u + b) (Ico 0 1) := by
    intro u _ w _ he
    have he' : a * u + b = a * w + b := he
    have : a * u = a * w := by linarith
    exact mul_left_cancel₀ ha.ne' this
  have h1 := lintegral_image_eq_lintegral_abs_deriv_mul measurableSet_Ico hd hinj h
  rw [himg, setLIntegral_congr Ioo_ae_eq_Ico.symm, abs_of_pos ha,
    lintegral_const_mul' _ _ ENNReal.ofReal_ne_top] at h1
  rw [h1, ← mul_assoc, ← ENNReal.ofReal_mul (by positivity), inv_mul_cancel₀ ha.ne']
  simp [unif]

/-- The law of the direction is an average over the sphere. -/
theorem lintegral_isoLaw (speed : ℝ) (g : Vec → ℝ≥0∞) (hg : Measurable g) :
    ∫⁻ v, g v ∂isoLaw speed =
      ENNReal.ofReal (1 / (4 * π)) * sphInt (fun p => g (speed • Vec.ofTriple p)) := by
  have hg' : Measurable (fun p : ℝ × ℝ × ℝ => g (speed • Vec.ofTriple p)) := by
    refine hg.comp (Vec.measurable_mk ?_ ?_ ?_) <;> simp only [Vec.smul_def, Vec.ofTriple] <;> fun_prop
  have hm : Measurable (fun t : ℝ × ℝ => g (isoOf speed t)) := hg.comp (measurable_isoOf' speed)
  rw [isoLaw, lintegral_map hg (measurable_isoOf' speed), lintegral_prod _ hm.aemeasurable]
  rw [← flipX_rotation.sphInt _ hg']
  have h1 : ∀ u, ∫⁻ w, g (isoOf speed (u, w)) ∂unif =
      ENNReal.ofReal (1 / (2 * π)) * ∫⁻ c in Ioo (-π) π,
        g (speed • Vec.ofTriple (rot3 flipX (sphPoint 1 (2 * u + -1) c))) := by
    intro u
    have h2 : ∀ w, g (isoOf speed (u, w)) =
        (fun c => g (speed • Vec.ofTriple (rot3 flipX (sphPoint 1 (2 * u + -1) c)))) (2 * π * w + -π) := by
      intro w
      show g _ = g _
      congr 1
      have hb : 2 * u + -1 = 2 * u - 1 := by ring
      have hc : cos (2 * π * w + -π) = -cos (2 * π * w) := by
        rw [← sub_eq_add_neg, cos_sub_pi]
      have hs : sin (2 * π * w + -π) = -sin (2 * π * w) := by
        rw [← sub_eq_add_neg, sin_sub_pi]
      simp only [isoOf, rot3, flipX, sphPoint, Vec.ofTriple, Vec.triple, Vec.smul_def, hb, hc, hs, Vec.mk.injEq]
      refine ⟨?_, ?_, ?_⟩ <;> ring
    simp only [h2]
    rw [lintegral_unif_affine (2 * π) (-π) (by positivity)
      (fun c => g (speed • Vec.ofTriple (rot3 flipX (sphPoint 1 (2 * u + -1) c))))]
    congr 2
    · rw [one_div]
    · congr 2; ring
  simp only [h1]
  rw [lintegral_const_mul' _ _ ENNReal.ofReal_ne_top]
  rw [lintegral_unif_affine 2 (-1) (by norm_num)
    (fun b => ∫⁻ c in Ioo (-π) π, g (speed • Vec.ofTriple (rot3 flipX (sphPoint 1 b c))))]
  rw [← mul_assoc, ← ENNReal.ofReal_mul (by positivity), sphInt]
  congr 2
  · field_simp; norm_num
  · norm_num

/-- No direction is preferred. -/
theorem isoLaw_invariant {R : Vec → Vec} (h : Rotation R) (speed : ℝ) :
    (isoLaw speed).map R = isoLaw speed := by
  refine Measure.ext_of_lintegral _ fun g hg => ?_
  rw [lintegral_map hg h.measurable, lintegral_isoLaw speed g hg,
    lintegral_isoLaw speed (fun v => g (R v)) (hg.comp h.measurable)]
  have hg' : Measurable (fun p : ℝ × ℝ × ℝ => g (speed • Vec.ofTriple p)) := by
    refine hg.comp (Vec.measurable_mk ?_ ?_ ?_) <;> simp only [Vec.smul_def, Vec.ofTriple] <;> fun_prop
  rw [← h.sphInt _ hg']
  congr 2
  funext p
  rw [h.smul]
  rfl

variable {S : Type} [MeasurableSpace S] {μ : Measure S} [IsProbabilityMeasure μ]

/-- Two draws: independent, uniform, and the state left behind is as good as new. -/
theorem law_draw2 {rng : RNG S ℝ} (h : rng.IID μ) :
    μ.map (fun s => (((rng.rand s).1, (rng.rand (rng.rand s).2).1), (rng.rand (rng.rand s).2).2)) =
      (unif.prod unif).prod μ := by
  have hm : Measurable (fun p : ℝ × S => ((p.1, (rng.rand p.2).1), (rng.rand p.2).2)) := by
    have h1 : Measurable (fun p : ℝ × S => rng.rand p.2) := h.rand_meas.comp measurable_snd
    exact (measurable_fst.prodMk h1.fst).prodMk h1.snd
  have h0 : (fun s => (((rng.rand s).1, (rng.rand (rng.rand s).2).1), (rng.rand (rng.rand s).2).2)) =
      (fun p : ℝ × S => ((p.1, (rng.rand p.2).1), (rng.rand p.2).2)) ∘ rng.rand := rfl
  have h2 : (fun p : ℝ × S => ((p.1, (rng.rand p.2).1), (rng.rand p.2).2)) =
      MeasurableEquiv.prodAssoc.symm ∘ (Prod.map id rng.rand) := rfl
  rw [h0, ← Measure.map_map hm h.rand_meas, h.rand_law, h2,
    ← Measure.map_map MeasurableEquiv.prodAssoc.symm.measurable (measurable_id.prodMap h.rand_meas),
    ← Measure.map_prod_map _ _ measurable_id h.rand_meas, Measure.map_id, h.rand_law]
  refine (MeasurableEquiv.map_apply_eq_iff_map_symm_apply_eq _).1 ?_ |>.symm
  exact Measure.prodAssoc_prod

/-- The random direction and the state left behind. -/
theorem law_isoVec {rng : RNG S ℝ} (h : rng.IID μ) (speed : ℝ) :
    μ.map (isoVec rng speed) = (isoLaw speed).prod μ := by
  have h0 : isoVec rng speed = Prod.map (isoOf speed) id ∘
      (fun s => (((rng.rand s).1, (rng.rand (rng.rand s).2).1), (rng.rand (rng.rand s).2).2)) := rfl
  have hm : Measurable (fun s => (((rng.rand s).1, (rng.rand (rng.rand s).2).1), (rng.rand (rng.rand s).2).2)) := by
    have h1 := h.rand_meas.comp (measurable_snd.comp h.rand_meas)
    exact ((measurable_fst.comp h.rand_meas).prodMk (measurable_fst.comp h1)).prodMk (measurable_snd.comp h1)
  rw [h0, ← Measure.map_map ((measurable_isoOf' speed).prodMap measurable_id) hm, law_draw2 h,
    ← Measure.map_prod_map _ _ (measurable_isoOf' speed) measurable_id, Measure.map_id]
  rfl

theorem measurable_isoVec {rng : RNG S ℝ} (h : rng.IID μ) :
    Measurable (fun p : ℝ × S => isoVec rng p.1 p.2) := by
  have h1 : Measurable (fun p : ℝ × S => rng.rand p.2) := h.rand_meas.comp measurable_snd
  have h2 : Measurable (fun p : ℝ × S => rng.rand (rng.rand p.2).2) := h.rand_meas.comp h1.snd
  have h3 : (fun p : ℝ × S => isoVec rng p.1 p.2) =
      fun p => (isoOf p.1 ((rng.rand p.2).1, (rng.rand (rng.rand p.2).2).1), (rng.rand (rng.rand p.2).2).2) := rfl
  rw [h3]
  exact (measurable_isoOf.comp (measurable_fst.prodMk (h1.fst.prodMk h2.fst))).prodMk h2.snd

theorem measurable_isoVec' {rng : RNG S ℝ} (h : rng.IID μ) (speed : ℝ) : Measurable (isoVec rng speed) :=
  (measurable_isoVec h).comp (measurable_const.prodMk measurable_id)

/-- The random direction. -/
theorem law_isoVec_fst {rng : RNG S ℝ} (h : rng.IID μ) (speed : ℝ) :
    μ.map (fun s => (isoVec rng speed s).1) = isoLaw speed := by
  have h0 : (fun s => (isoVec rng speed s).1) = Prod.fst ∘ isoVec rng speed := rfl
  rw [h0, ← Measure.map_map measurable_fst (measurable_isoVec' h speed), law_isoVec h]
  simp

/-- Random numbers are almost surely in `[0,1)`. -/
theorem RNG.IID.ae_mem {rng : RNG S ℝ} (h : rng.IID μ) : ∀ᵐ s ∂μ, (rng.rand s).1 ∈ Ico (0 : ℝ) 1 := by
  have h1 : μ.map (fun s => (rng.rand s).1) = unif := by
    have : (fun s => (rng.rand s).1) = Prod.fst ∘ rng.rand := rfl
    rw [this, ← Measure.map_map measurable_fst h.rand_meas, h.rand_law]
    simp
  have h2 : ∀ᵐ u ∂unif, u ∈ Ico (0 : ℝ) 1 := ae_restrict_mem measurableSet_Ico
  rw [← h1] at h2
  exact ae_of_ae_map (measurable_fst.comp h.rand_meas).aemeasurable h2

/-- A property that holds almost surely also holds almost surely after a draw. -/
theorem RNG.IID.ae_next {rng : RNG S ℝ} (h : rng.IID μ) {P : S → Prop} (hP : ∀ᵐ s ∂μ, P s) :
    ∀ᵐ s ∂μ, P (rng.rand s).2 :=
  h.rand_preserving.quasiMeasurePreserving.ae hP

/-! ### Sums of random directions -/

/-- A family of velocities that is composed of random directions as the interaction models do it: multiples of one
direction, or combinations of two directions whose lengths depend on another random number. -/
def IsoForm (rng : RNG S ℝ) (X : S → ℕ → Vec) : Prop :=
  (∃ (speed : ℝ) (k : ℕ → ℝ), ∀ s i, X s i = k i • (isoVec rng speed s).1) ∨
  (∃ (g : ℝ) (k l : ℕ → ℝ), ∀ s i, X s i =
    k i • (isoVec rng (g * √(rng.rand s).1) (rng.rand s).2).1 +
      l i • (isoVec rng (g * √(1 - (rng.rand s).1)) (isoVec rng (g * √(rng.rand s).1) (rng.rand s).2).2).1)

theorem measurable_smul_vec {α : Type} [MeasurableSpace α] (k : ℝ) {f : α → Vec} (hf : Measurable f) :
    Measurable (fun a => k • f a) := by
  refine Vec.measurable_mk ?_ ?_ ?_ <;> simp only [Vec.smul_def]
  · exact (Vec.measurable_x.comp hf).const_mul k
  · exact (Vec.measurable_y.comp hf).const_mul k
  · exact (Vec.measurable_z.comp hf).const_mul k

theorem measurable_add_vec {α : Type} [MeasurableSpace α] {f g : α → Vec} (hf : Measurable f) (hg : Measurable g) :
    Measurable (fun a => f a + g a) := by
  refine Vec.measurable_mk ?_ ?_ ?_ <;> simp only [Vec.add_def]
  · exact (Vec.measurable_x.comp hf).add (Vec.measurable_x.comp hg)
  · exact (Vec.measurable_y.comp hf).add (Vec.measurable_y.comp hg)
  · exact (Vec.measurable_z.comp hf).add (Vec.measurable_z.comp hg)

/-- Integral over the two directions of the second form. -/
theorem lintegral_two_dirs {rng : RNG S ℝ} (h : rng.IID μ) (g : ℝ) (f : Vec × Vec → ℝ≥0∞) (hf : Measurable f) :
    ∫⁻ s, f ((isoVec rng (g * √(rng.rand s).1) (rng.rand s).2).1,
        (isoVec rng (g * √(1 - (rng.rand s).1)) (isoVec rng (g * √(rng.rand s).1) (rng.rand s).2).2).1) ∂μ =
      ∫⁻ r, ∫⁻ a, ∫⁻ b, f (a, b) ∂isoLaw (g * √(1 - r)) ∂isoLaw (g * √r) ∂unif := by
  have hi := measurable_isoVec h
  have m1 : Measurable (fun p : ℝ × S => isoVec rng (g * √p.1) p.2) :=
    hi.comp ((show Measurable (fun p : ℝ × S => g * √p.1) by fun_prop).prodMk measurable_snd)
  have m2 : Measurable (fun p : ℝ × S => isoVec rng (g * √(1 - p.1)) (isoVec rng (g * √p.1) p.2).2) :=
    hi.comp ((show Measurable (fun p : ℝ × S => g * √(1 - p.1)) by fun_prop).prodMk m1.snd)
  have hF : Measurable (fun p : ℝ × S => f ((isoVec rng (g * √p.1) p.2).1,
      (isoVec rng (g * √(1 - p.1)) (isoVec rng (g * √p.1) p.2).2).1)) := hf.comp (m1.fst.prodMk m2.fst)
  have e1 := lintegral_map hF h.rand_meas (μ := μ)
  rw [← e1, h.rand_law, lintegral_prod _ hF.aemeasurable]
  refine lintegral_congr fun r => ?_
  have hG : Measurable (fun p : Vec × S => f (p.1, (isoVec rng (g * √(1 - r)) p.2).1)) :=
    hf.comp (measurable_fst.prodMk ((measurable_isoVec' h _).comp measurable_snd).fst)
  have e2 := lintegral_map hG (measurable_isoVec' h (g * √r)) (μ := μ)
  rw [← e2, law_isoVec h, lintegral_prod _ hG.aemeasurable]
  refine lintegral_congr fun a => ?_
  have hH : Measurable (fun b : Vec => f (a, b)) := hf.comp (measurable_const.prodMk measurable_id)
  have hm : Measurable (fun s => (isoVec rng (g * √(1 - r)) s).1) := (measurable_isoVec' h _).fst
  have e3 := lintegral_map hH hm (μ := μ)
  rw [law_isoVec_fst h] at e3
  exact e3.symm

theorem IsoForm.measurable {rng : RNG S ℝ} (h : rng.IID μ) {X : S → ℕ → Vec} (hX : IsoForm rng X) :
    Measurable X := by
  refine measurable_pi_lambda _ fun i => ?_
  rcases hX with ⟨speed, k, hX⟩ | ⟨g, k, l, hX⟩
  · have : (fun s => X s i) = fun s => k i • (isoVec rng speed s).1 := funext fun s => hX s i
    rw [this]
    exact measurable_smul_vec _ (measurable_isoVec' h speed).fst
  · have e : (fun s => X s i) = fun s => k i • (isoVec rng (g * √(rng.rand s).1) (rng.rand s).2).1 +
      l i • (isoVec rng (g * √(1 - (rng.rand s).1)) (isoVec rng (g * √(rng.rand s).1) (rng.rand s).2).2).1 :=
      funext fun s => hX s i
    have hi := measurable_isoVec h
    have hr := h.rand_meas
    have m0 : Measurable (fun s => g * √(rng.rand s).1) := by
      have := hr.fst
      fun_prop
    have m0' : Measurable (fun s => g * √(1 - (rng.rand s).1)) := by
      have := hr.fst
      fun_prop
    have m1 : Measurable (fun s => isoVec rng (g * √(rng.rand s).1) (rng.rand s).2) := hi.comp (m0.prodMk hr.snd)
    have m2 : Measurable (fun s => isoVec rng (g * √(1 - (rng.rand s).1))
        (isoVec rng (g * √(rng.rand s).1) (rng.rand s).2).2) := hi.comp (m0'.prodMk m1.snd)
    rw [e]
    exact measurable_add_vec (measurable_smul_vec _ m1.fst) (measurable_smul_vec _ m2.fst)

theorem measurable_rotAll {R : Vec → Vec} (hR : Rotation R) : Measurable (fun (x : ℕ → Vec) i => R (x i)) :=
  measurable_pi_lambda _ fun i => hR.measurable.comp (measurable_pi_apply i)

/-- Such a family has no preferred direction. -/
theorem IsoForm.invariant {rng : RNG S ℝ} (h : rng.IID μ) {X : S → ℕ → Vec} (hX : IsoForm rng X)
    {R : Vec → Vec} (hR : Rotation R) : μ.map (fun s i => R (X s i)) = μ.map X := by
  have hXm := hX.measurable h
  have hRX : Measurable (fun s i => R (X s i)) := (measurable_rotAll hR).comp hXm
  rcases hX with ⟨speed, k, hX⟩ | ⟨g, k, l, hX⟩
  · have hk : Measurable (fun (v : Vec) (i : ℕ) => k i • v) :=
      measurable_pi_lambda _ fun i => measurable_smul_vec _ measurable_id
    have hv : Measurable (fun s => (isoVec rng speed s).1) := (measurable_isoVec' h speed).fst
    have e1 : X = (fun (v : Vec) (i : ℕ) => k i • v) ∘ (fun s => (isoVec rng speed s).1) :=
      funext fun s => funext fun i => hX s i
    have e2 : (fun s i => R (X s i)) = (fun (v : Vec) (i : ℕ) => k i • v) ∘ R ∘
        (fun s => (isoVec rng speed s).1) := by
      funext s i
      rw [hX, hR.smul]
      rfl
    rw [e2, ← Measure.map_map hk (hR.measurable.comp hv), ← Measure.map_map hR.measurable hv,
      law_isoVec_fst h, isoLaw_invariant hR, e1, ← Measure.map_map hk hv, law_isoVec_fst h]
  · refine Measure.ext_of_lintegral _ fun f hf => ?_
    rw [lintegral_map hf hRX, lintegral_map hf hXm]
    have hc : Measurable (fun (p : Vec × Vec) (i : ℕ) => k i • p.1 + l i • p.2) :=
      measurable_pi_lambda _ fun i => measurable_add_vec (measurable_smul_vec _ measurable_fst)
        (measurable_smul_vec _ measurable_snd)
    have hfc := hf.comp hc
    have hR2 : Measurable (fun p : Vec × Vec => (R p.1, R p.2)) :=
      (hR.measurable.comp measurable_fst).prodMk (hR.measurable.comp measurable_snd)
    have e1 := lintegral_two_dirs h g _ hfc
    have e2 := lintegral_two_dirs h g _ (hfc.comp hR2)
    have e3 : ∀ s, X s = fun i => k i • (isoVec rng (g * √(rng.rand s).1) (rng.rand s).2).1 +
      l i • (isoVec rng (g * √(1 - (rng.rand s).1)) (isoVec rng (g * √(rng.rand s).1) (rng.rand s).2).2).1 :=
      fun s => funext fun i => hX s i
    simp only [Function.comp_apply] at e1 e2
    have e4 : ∀ s, (fun i => R (X s i)) = fun i =>
        k i • R (isoVec rng (g * √(rng.rand s).1) (rng.rand s).2).1 +
      l i • R (isoVec rng (g * √(1 - (rng.rand s).1)) (isoVec rng (g * √(rng.rand s).1) (rng.rand s).2).2).1 := by
      intro s
      funext i
      rw [hX, hR.add, hR.smul, hR.smul]
    simp only [e4]
    rw [e2]
    have e5 : ∀ s, f (X s) = f (fun i => k i • (isoVec rng (g * √(rng.rand s).1) (rng.rand s).2).1 +
      l i • (isoVec rng (g * √(1 - (rng.rand s).1)) (isoVec rng (g * √(rng.rand s).1) (rng.rand s).2).2).1) :=
      fun s => by rw [← e3]
    simp only [e5]
    rw [e1]
    refine lintegral_congr fun r => ?_
    have h1 : ∀ a : Vec, ∫⁻ b, f (fun i => k i • R a + l i • R b) ∂isoLaw (g * √(1 - r)) =
        ∫⁻ b, f (fun i => k i • R a + l i • b) ∂isoLaw (g * √(1 - r)) := by
      intro a
      have hm : Measurable (fun b : Vec => f (fun i => k i • R a + l i • b)) :=
        hfc.comp (measurable_const (a := R a) |>.prodMk measurable_id)
      have := lintegral_map hm hR.measurable (μ := isoLaw (g * √(1 - r)))
      rw [isoLaw_invariant hR] at this
      exact this.symm
    simp only [h1]
    have hm : Measurable (fun a : Vec => ∫⁻ b, f (fun i => k i • a + l i • b) ∂isoLaw (g * √(1 - r))) :=
      Measurable.lintegral_prod_right' hfc
    have := lintegral_map hm hR.measurable (μ := isoLaw (g * √r))
    rw [isoLaw_invariant hR] at this
    exact this.symm

/-- Reflection at the origin. -/
def negV (v : Vec) : Vec := ⟨-v.x, -v.y, -v.z⟩

theorem negV_rotation : Rotation negV where
  add a b := by simp only [negV, Vec.add_def, Vec.mk.injEq]; refine ⟨?_, ?_, ?_⟩ <;> ring
  smul k a := by simp only [negV, Vec.smul_def, Vec.mk.injEq]; refine ⟨?_, ?_, ?_⟩ <;> ring
  norm a := by simp [negV, Vec.normSq]

theorem isoVec_normSq (rng : RNG S ℝ) (speed : ℝ) (s : S) (h : (rng.rand s).1 ∈ Ico (0 : ℝ) 1) :
    (isoVec rng speed s).1.normSq = speed ^ 2 := by
  simp only [isoVec, Vec.normSq]
  have hA := Real.sq_sqrt (unit_B h.1 h.2.le)
  generalize Real.sqrt (1 - (2 * (rng.rand s).1 - 1) ^ 2) = A at hA ⊢
  generalize 2 * (rng.rand s).1 - 1 = B at hA ⊢
  generalize 2 * Real.pi * (rng.rand (rng.rand s).2).1 = C
  have hc := Real.sin_sq_add_cos_sq C
  have : B ^ 2 + A ^ 2 * (Real.sin C ^ 2 + Real.cos C ^ 2) = 1 := by rw [hc, hA]; ring
  linear_combination speed ^ 2 * this

/-- The family is bounded. -/
theorem IsoForm.bounded {rng : RNG S ℝ} (h : rng.IID μ) {X : S → ℕ → Vec} (hX : IsoForm rng X) (i : ℕ) :
    ∃ C, ∀ᵐ s ∂μ, (X s i).normSq ≤ C := by
  have h0 := h.ae_mem
  rcases hX with ⟨speed, k, hX⟩ | ⟨g, k, l, hX⟩
  · refine ⟨k i ^ 2 * speed ^ 2, ?_⟩
    filter_upwards [h0] with s hs
    have := isoVec_normSq rng speed s hs
    rw [hX, ← this]
    simp only [Vec.smul_def, Vec.normSq]
    exact le_of_eq (by ring)
  · refine ⟨2 * (k i ^ 2 * g ^ 2 + l i ^ 2 * g ^ 2), ?_⟩
    filter_upwards [h0, h.ae_next h0, h.ae_next (h.ae_next (h.ae_next h0))] with s h1 h2 h3
    have e1 := isoVec_normSq rng (g * √(rng.rand s).1) (rng.rand s).2 h2
    have e2 := isoVec_normSq rng (g * √(1 - (rng.rand s).1))
      (isoVec rng (g * √(rng.rand s).1) (rng.rand s).2).2 h3
    rw [hX]
    generalize (isoVec rng (g * √(rng.rand s).1) (rng.rand s).2).1 = a at e1 ⊢
    generalize (isoVec rng (g * √(1 - (rng.rand s).1)) (isoVec rng (g * √(rng.rand s).1) (rng.rand s).2).2).1 = b
      at e2 ⊢
    rw [mul_pow, sq_sqrt h1.1] at e1
    rw [mul_pow, sq_sqrt (by linarith [h1.2])] at e2
    simp only [Vec.smul_def, Vec.add_def, Vec.normSq] at e1 e2 ⊢
    have a1 : k i ^ 2 * (g ^ 2 * (rng.rand s).1) ≤ k i ^ 2 * g ^ 2 := by
      have : g ^ 2 * (rng.rand s).1 ≤ g ^ 2 := mul_le_of_le_one_right (sq_nonneg _) h1.2.le
      exact mul_le_mul_of_nonneg_left this (sq_nonneg _)
    have a2 : l i ^ 2 * (g ^ 2 * (1 - (rng.rand s).1)) ≤ l i ^ 2 * g ^ 2 := by
      have : g ^ 2 * (1 - (rng.rand s).1) ≤ g ^ 2 := mul_le_of_le_one_right (sq_nonneg _) (by linarith [h1.1])
      exact mul_le_mul_of_nonneg_left this (sq_nonneg _)
    rw [← e1] at a1
    rw [← e2] at a2
    nlinarith [sq_nonneg (k i * a.x - l i * b.x), sq_nonneg (k i * a.y - l i * b.y),
      sq_nonneg (k i * a.z - l i * b.z)]

/-- The mean is zero. -/
theorem IsoForm.mean {rng : RNG S ℝ} (h : rng.IID μ) {X : S → ℕ → Vec} (hX : IsoForm rng X) (i : ℕ)
    (c : Vec → ℝ) (hc : Measurable c) (hn : ∀ v, c (negV v) = - c v) (hb : ∀ v, c v ^ 2 ≤ v.normSq) :
    Integrable (fun s => c (X s i)) μ ∧ ∫ s, c (X s i) ∂μ = 0 := by
  have hXm := hX.measurable h
  have hXi : Measurable (fun s => X s i) := (measurable_pi_apply i).comp hXm
  constructor
  · obtain ⟨C, hC⟩ := hX.bounded h i
    refine Integrable.of_bound (hc.comp hXi).aestronglyMeasurable √C ?_
    filter_upwards [hC] with s hs
    exact abs_le_sqrt ((hb _).trans hs)
  · have hci : Measurable (fun x : ℕ → Vec => c (x i)) := hc.comp (measurable_pi_apply i)
    have e1 := integral_map hXm.aemeasurable (μ := μ) hci.aestronglyMeasurable
    have hRX : Measurable (fun s j => negV (X s j)) := (measurable_rotAll negV_rotation).comp hXm
    have e2 := integral_map hRX.aemeasurable (μ := μ) hci.aestronglyMeasurable
    rw [hX.invariant h negV_rotation, e1] at e2
    simp only [hn, integral_neg] at e2
    linarith

end Chimp
