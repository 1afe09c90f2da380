import Verif.Lemmas.Isotropy
import Mathlib.MeasureTheory.Integral.IntervalIntegral.Periodic
import Mathlib.MeasureTheory.Measure.Haar.Unique
import Mathlib.LinearAlgebra.Matrix.NonsingularInverse
import Mathlib.Analysis.SpecialFunctions.Complex.Arg

/-!
# The law of the VSS deflection
-/

namespace Chimp

open MeasureTheory Real Set
open scoped ENNReal

/-! ### Random azimuth -/

theorem lintegral_period (H : ℝ → ℝ≥0∞) (hH : ∀ c, H (c + 2 * π) = H c) (a b : ℝ) :
    ∫⁻ c in Ioo a (2 * π + a), H c = ∫⁻ c in Ioo b (2 * π + b), H c := by
  have hp : (0 : ℝ) < 2 * π := by positivity
  have h1 := isAddFundamentalDomain_Ioc hp a
  have h2 := isAddFundamentalDomain_Ioc hp b
  have hper : Function.Periodic H (2 * π) := hH
  have := h1.setLIntegral_eq h2 H (by
    rintro ⟨g, hg⟩ x
    obtain ⟨n, rfl⟩ := AddSubgroup.mem_zmultiples_iff.1 hg
    show H (n • (2 * π) + x) = H x
    rw [add_comm]
    exact hper.zsmul n x)
  rw [setLIntegral_congr Ioo_ae_eq_Ioc, setLIntegral_congr Ioo_ae_eq_Ioc, add_comm (2 * π) a, add_comm (2 * π) b]
  exact this

/-- Turning the azimuth. -/
theorem lintegral_azimuth (h : ℝ → ℝ → ℝ≥0∞) (φ : ℝ) :
    ∫⁻ w, h (cos (2 * π * w + φ)) (sin (2 * π * w + φ)) ∂unif =
      ∫⁻ w, h (cos (2 * π * w)) (sin (2 * π * w)) ∂unif := by
  have hp : (0 : ℝ) < 2 * π := by positivity
  have h1 := lintegral_unif_affine (2 * π) φ hp (fun c => h (cos c) (sin c))
  have h2 := lintegral_unif_affine (2 * π) 0 hp (fun c => h (cos c) (sin c))
  simp only [add_zero] at h2
  rw [h1, h2, lintegral_period (fun c => h (cos c) (sin c)) (fun c => by simp [cos_add_two_pi, sin_add_two_pi]) φ 0,
    add_zero]

/-- Reversing the azimuth. -/
theorem lintegral_azimuth_neg (h : ℝ → ℝ → ℝ≥0∞) :
    ∫⁻ w, h (cos (2 * π * w)) (-sin (2 * π * w)) ∂unif =
      ∫⁻ w, h (cos (2 * π * w)) (sin (2 * π * w)) ∂unif := by
  have h1 := lintegral_azimuth h (-π)
  have h2 := lintegral_azimuth (fun a b => h a (-b)) (-π)
  rw [← h1, ← h2]
  have hp : (0 : ℝ) < 2 * π := by positivity
  rw [lintegral_unif_affine (2 * π) (-π) hp (fun c => h (cos c) (-sin c)),
    lintegral_unif_affine (2 * π) (-π) hp (fun c => h (cos c) (sin c))]
  congr 1
  have he : (2 * π + -π : ℝ) = π := by ring
  rw [he]
  have hmp := (Measure.measurePreserving_neg (volume : Measure ℝ)).restrict_preimage
    (measurableSet_Ioo (a := -π) (b := π))
  have hpre : Neg.neg ⁻¹' Ioo (-π) π = Ioo (-π) π := by
    ext x; simp only [mem_preimage, mem_Ioo]; constructor <;> rintro ⟨a, b⟩ <;> constructor <;> linarith
  rw [hpre] at hmp
  have := hmp.lintegral_comp_emb (MeasurableEquiv.neg ℝ).measurableEmbedding (fun c => h (cos c) (sin c))
  simpa using this

/-- Any rotation or reflection of the circle. -/
theorem lintegral_circle (h : ℝ → ℝ → ℝ≥0∞) (α β γ δ : ℝ) (h1 : α ^ 2 + β ^ 2 = 1) (h2 : γ ^ 2 + δ ^ 2 = 1)
    (h3 : α * γ + β * δ = 0) :
    ∫⁻ w, h (α * cos (2 * π * w) + γ * sin (2 * π * w)) (β * cos (2 * π * w) + δ * sin (2 * π * w)) ∂unif =
      ∫⁻ w, h (cos (2 * π * w)) (sin (2 * π * w)) ∂unif := by
  obtain ⟨φ, hc, hs⟩ : ∃ φ, cos φ = α ∧ sin φ = β := by
    have hn : ‖(⟨α, β⟩ : ℂ)‖ = 1 := by
      rw [Complex.norm_eq_sqrt_sq_add_sq]; simp [h1]
    have hne : (⟨α, β⟩ : ℂ) ≠ 0 := by
      intro h; rw [h] at hn; simp at hn
    refine ⟨Complex.arg ⟨α, β⟩, ?_, ?_⟩
    · rw [Complex.cos_arg hne, hn]; simp
    · rw [Complex.sin_arg, hn]; simp
  have hd : (γ = -β ∧ δ = α) ∨ (γ = β ∧ δ = -α) := by
    have hδ : δ = (α * δ - β * γ) * α := by linear_combination -δ * h1 + β * h3
    have hγ : γ = -(α * δ - β * γ) * β := by linear_combination -γ * h1 + α * h3
    have hρ : (α * δ - β * γ) ^ 2 = 1 := by
      linear_combination h1 * (γ ^ 2 + δ ^ 2) + h2 - (α * γ + β * δ) * h3
    rcases sq_eq_one_iff.1 hρ with h | h
    · left; rw [h] at hδ hγ; exact ⟨by linarith, by linarith⟩
    · right; rw [h] at hδ hγ; exact ⟨by linarith, by linarith⟩
  rcases hd with ⟨rfl, rfl⟩ | ⟨rfl, rfl⟩
  · rw [← lintegral_azimuth h φ]
    refine lintegral_congr fun w => ?_
    rw [cos_add, sin_add, hc, hs]
    congr 1 <;> ring
  · rw [← lintegral_azimuth_neg h, ← lintegral_azimuth (fun a b => h a (-b)) (-φ)]
    refine lintegral_congr fun w => ?_
    rw [← sub_eq_add_neg, cos_sub, sin_sub, hc, hs]
    congr 1 <;> ring

/-! ### Frames -/

/-- Three vectors of squared length `L` that are orthogonal to each other. -/
structure Frame (L : ℝ) (n e f : Vec) : Prop where
  nn : n.dot n = L
  ee : e.dot e = L
  ff : f.dot f = L
  ne : n.dot e = 0
  nf : n.dot f = 0
  ef : e.dot f = 0

/-- A vector in a frame. -/
theorem Frame.expand {L : ℝ} (hL : L ≠ 0) {n e f : Vec} (h : Frame L n e f) (x : Vec) :
    L • x = x.dot n • n + (x.dot e • e + x.dot f • f) := by
  obtain ⟨h1, h2, h3, h4, h5, h6⟩ := h
  simp only [Vec.dot] at h1 h2 h3 h4 h5 h6
  set M : Matrix (Fin 3) (Fin 3) ℝ := !![n.x, n.y, n.z; e.x, e.y, e.z; f.x, f.y, f.z] with hM
  have hMt : M * M.transpose = L • (1 : Matrix (Fin 3) (Fin 3) ℝ) := by
    ext i j
    fin_cases i <;> fin_cases j <;>
      simp [hM, Matrix.mul_apply, Fin.sum_univ_three, Matrix.transpose_apply] <;> linarith
  have h7 : (L⁻¹ • M.transpose) * M = 1 := by
    rw [mul_eq_one_comm, Matrix.mul_smul, hMt, smul_smul, inv_mul_cancel₀ hL, one_smul]
  have h8 : M.transpose * M = L • (1 : Matrix (Fin 3) (Fin 3) ℝ) := by
    rw [← h7, Matrix.smul_mul, smul_smul, mul_inv_cancel₀ hL, one_smul]
  have g : ∀ i j, (M.transpose * M) i j = (L • (1 : Matrix (Fin 3) (Fin 3) ℝ)) i j := fun i j => by rw [h8]
  have g00 := g 0 0; have g01 := g 0 1; have g02 := g 0 2
  have g11 := g 1 1; have g12 := g 1 2; have g22 := g 2 2
  simp [hM, Matrix.mul_apply, Fin.sum_univ_three, Matrix.transpose_apply] at g00 g01 g02 g11 g12 g22
  simp only [Vec.dot, Vec.smul_def, Vec.add_def, Vec.mk.injEq]
  refine ⟨?_, ?_, ?_⟩
  · linear_combination -x.x * g00 - x.y * g01 - x.z * g02
  · linear_combination -x.x * g01 - x.y * g11 - x.z * g12
  · linear_combination -x.x * g02 - x.y * g12 - x.z * g22

theorem Vec.dot_eq_normSq (a : Vec) : a.dot a = a.normSq := by simp only [Vec.dot, Vec.normSq]; ring

theorem Vec.dot_add (a b c : Vec) : a.dot (b + c) = a.dot b + a.dot c := by
  simp only [Vec.dot, Vec.add_def]; ring

theorem Rotation.dot {R : Vec → Vec} (h : Rotation R) (a b : Vec) : (R a).dot (R b) = a.dot b := by
  have h1 := h.norm (a + b)
  rw [h.add] at h1
  have h2 := h.norm a
  have h3 := h.norm b
  simp only [Vec.normSq, Vec.add_def, Vec.dot] at *
  linarith

theorem Rotation.frame {R : Vec → Vec} (h : Rotation R) {L : ℝ} {n e f : Vec} (hF : Frame L n e f) :
    Frame L (R n) (R e) (R f) := by
  constructor <;> rw [h.dot]
  exacts [hF.nn, hF.ee, hF.ff, hF.ne, hF.nf, hF.ef]

/-- The two directions orthogonal to the relative velocity that the VSS model uses. -/
noncomputable def vssE (v : Vec) : Vec :=
  ⟨0, v.abs * v.z / √(v.y ^ 2 + v.z ^ 2), -(v.abs * v.y / √(v.y ^ 2 + v.z ^ 2))⟩

/-- The two directions orthogonal to the relative velocity that the VSS model uses. -/
noncomputable def vssF (v : Vec) : Vec :=
  ⟨√(v.y ^ 2 + v.z ^ 2), -(v.x * v.y / √(v.y ^ 2 + v.z ^ 2)), -(v.x * v.z / √(v.y ^ 2 + v.z ^ 2))⟩

theorem vss_frame (v : Vec) (hD : 0 < √(v.y ^ 2 + v.z ^ 2)) : Frame v.normSq v (vssE v) (vssF v) := by
  have hsq := Real.sq_sqrt (show 0 ≤ v.y ^ 2 + v.z ^ 2 by positivity)
  have hg := Real.sq_sqrt (show 0 ≤ v.normSq by unfold Vec.normSq; positivity)
  have hne := hD.ne'
  unfold vssE vssF Vec.abs
  generalize √(v.y ^ 2 + v.z ^ 2) = D at *
  generalize √v.normSq = g at *
  constructor <;> simp only [Vec.dot]
  · unfold Vec.normSq; ring
  · rw [← hg]; field_simp; linear_combination -g ^ 2 * hsq
  · unfold Vec.normSq; field_simp
    linear_combination (D ^ 2 - v.x ^ 2) * hsq
  · field_simp; ring
  · field_simp; linear_combination v.x * hsq
  · field_simp; ring

theorem vssPost_frame (v : Vec) (hD : 1 / 1000000 < √(v.y ^ 2 + v.z ^ 2)) (B C : ℝ) :
    vssPost v B C = B • v + ((√(1 - B ^ 2) * cos C) • vssE v + (√(1 - B ^ 2) * sin C) • vssF v) := by
  unfold vssPost
  simp only
  rw [if_pos hD]
  have hne : √(v.y ^ 2 + v.z ^ 2) ≠ 0 := by
    intro h; rw [h] at hD; norm_num at hD
  simp only [vssE, vssF, Vec.smul_def, Vec.add_def, Vec.mk.injEq]
  refine ⟨?_, ?_, ?_⟩ <;> field_simp <;> ring

/-- The law of the deflected velocity, given the cosine `B`: turning the incoming velocity turns the law. -/
theorem lintegral_vss_rotate {R : Vec → Vec} (hR : Rotation R) (v : Vec)
    (hD : 1 / 1000000 < √(v.y ^ 2 + v.z ^ 2)) (hD' : 1 / 1000000 < √((R v).y ^ 2 + (R v).z ^ 2)) (B : ℝ)
    (f : Vec → ℝ≥0∞) :
    ∫⁻ w, f (R (vssPost v B (2 * π * w))) ∂unif = ∫⁻ w, f (vssPost (R v) B (2 * π * w)) ∂unif := by
  have hp : (0 : ℝ) < 1 / 1000000 := by norm_num
  have F1 := hR.frame (vss_frame v (hp.trans hD))
  have F2 := vss_frame (R v) (hp.trans hD')
  rw [hR.norm] at F2
  have hL : v.normSq ≠ 0 := by
    have h1 : 0 < v.y ^ 2 + v.z ^ 2 := Real.sqrt_pos.1 (hp.trans hD)
    unfold Vec.normSq
    nlinarith [sq_nonneg v.x]
  set L := v.normSq
  set e := R (vssE v)
  set g := R (vssF v)
  set e' := vssE (R v)
  set g' := vssF (R v)
  have X : ∀ x : Vec, x.dot (R v) = 0 → x = (x.dot e' / L) • e' + (x.dot g' / L) • g' := by
    intro x hx
    have := F2.expand hL x
    rw [hx] at this
    simp only [Vec.smul_def, Vec.add_def, Vec.mk.injEq] at this
    obtain ⟨a1, a2, a3⟩ := this
    ext <;> simp only [Vec.smul_def, Vec.add_def] <;> field_simp <;> linarith
  have dc : ∀ a b : Vec, a.dot b = b.dot a := fun a b => by simp only [Vec.dot]; ring
  have he := X e (by rw [dc]; exact F1.ne)
  have hg := X g (by rw [dc]; exact F1.nf)
  have P : ∀ (x y : Vec) (a b c d : ℝ), x = a • e' + b • g' → y = c • e' + d • g' →
      x.dot y = (a * c + b * d) * L := by
    rintro x y a b c d rfl rfl
    have f1 := F2.ee; have f2 := F2.ff; have f3 := F2.ef
    simp only [Vec.dot, Vec.smul_def, Vec.add_def] at *
    linear_combination a * c * f1 + b * d * f2 + (a * d + b * c) * f3
  have q1 := P e e _ _ _ _ he he
  have q2 := P g g _ _ _ _ hg hg
  have q3 := P e g _ _ _ _ he hg
  rw [F1.ee] at q1
  rw [F1.ff] at q2
  rw [F1.ef] at q3
  set α := e.dot e' / L
  set β := e.dot g' / L
  set γ := g.dot e' / L
  set δ := g.dot g' / L
  have r1 : α ^ 2 + β ^ 2 = 1 := by
    have : (α ^ 2 + β ^ 2 - 1) * L = 0 := by linarith
    rcases mul_eq_zero.1 this with h | h
    · linarith
    · exact absurd h hL
  have r2 : γ ^ 2 + δ ^ 2 = 1 := by
    have : (γ ^ 2 + δ ^ 2 - 1) * L = 0 := by linarith
    rcases mul_eq_zero.1 this with h | h
    · linarith
    · exact absurd h hL
  have r3 : α * γ + β * δ = 0 := by
    rcases mul_eq_zero.1 q3.symm with h | h
    · exact h
    · exact absurd h hL
  set A := √(1 - B ^ 2)
  rw [show (fun w => f (vssPost (R v) B (2 * π * w))) = fun w =>
      (fun c s => f (B • R v + ((A * c) • e' + (A * s) • g'))) (cos (2 * π * w)) (sin (2 * π * w)) from
    funext fun w => by simp only; rw [vssPost_frame _ hD'],
    ← lintegral_circle (fun c s => f (B • R v + ((A * c) • e' + (A * s) • g'))) α β γ δ r1 r2 r3]
  refine lintegral_congr fun w => ?_
  rw [vssPost_frame _ hD, hR.add, hR.add, hR.smul, hR.smul, hR.smul]
  show f (B • R v + ((A * cos (2 * π * w)) • e + (A * sin (2 * π * w)) • g)) = _
  rw [he, hg]
  congr 1
  simp only [Vec.smul_def, Vec.add_def, Vec.mk.injEq]
  refine ⟨?_, ?_, ?_⟩ <;> ring

/-- The rotation that turns the x axis into the direction of the relative velocity. -/
noncomputable def vssTurn (v u : Vec) : Vec :=
  (u.x / v.abs) • v + ((u.y / v.abs) • vssE v + (u.z / v.abs) • vssF v)

theorem vssTurn_rotation (v : Vec) (hD : 0 < √(v.y ^ 2 + v.z ^ 2)) : Rotation (vssTurn v) where
  add a b := by
    simp only [vssTurn, Vec.add_def, Vec.smul_def, Vec.mk.injEq]
    refine ⟨?_, ?_, ?_⟩ <;> ring
  smul k a := by
    simp only [vssTurn, Vec.add_def, Vec.smul_def, Vec.mk.injEq]
    refine ⟨?_, ?_, ?_⟩ <;> ring
  norm a := by
    obtain ⟨h1, h2, h3, h4, h5, h6⟩ := vss_frame v hD
    have hg := Real.sq_sqrt (show 0 ≤ v.normSq by unfold Vec.normSq; positivity)
    have hpos : 0 < v.normSq := by
      have h1 : 0 < v.y ^ 2 + v.z ^ 2 := Real.sqrt_pos.1 hD
      unfold Vec.normSq
      nlinarith [sq_nonneg v.x]
    have hne : v.abs ≠ 0 := (Real.sqrt_pos.2 hpos).ne'
    have hg' : v.abs ^ 2 = v.normSq := hg
    rw [← Vec.dot_eq_normSq]
    unfold vssTurn
    generalize vssE v = e at *
    generalize vssF v = f at *
    rw [← hg'] at h1 h2 h3
    generalize v.abs = g at *
    have : (((a.x / g) • v + ((a.y / g) • e + (a.z / g) • f)).dot ((a.x / g) • v + ((a.y / g) • e + (a.z / g) • f))) =
        (a.x / g) ^ 2 * v.dot v + (a.y / g) ^ 2 * e.dot e + (a.z / g) ^ 2 * f.dot f +
          2 * ((a.x / g) * (a.y / g) * v.dot e + (a.x / g) * (a.z / g) * v.dot f + (a.y / g) * (a.z / g) * e.dot f) := by
      simp only [Vec.dot, Vec.add_def, Vec.smul_def]; ring
    rw [this, h1, h2, h3, h4, h5, h6]
    unfold Vec.normSq
    field_simp
    ring

/-- With `B = 2u - 1` the deflected velocity is a turned random direction. -/
theorem vssPost_turn (v : Vec) (hD : 1 / 1000000 < √(v.y ^ 2 + v.z ^ 2)) (u w : ℝ) :
    vssPost v (2 * u - 1) (2 * π * w) = vssTurn v (isoOf v.abs (u, w)) := by
  have hpos : 0 < v.normSq := by
    have h1 : 0 < v.y ^ 2 + v.z ^ 2 := Real.sqrt_pos.1 (lt_trans (by norm_num) hD)
    unfold Vec.normSq
    nlinarith [sq_nonneg v.x]
  have hne : v.abs ≠ 0 := (Real.sqrt_pos.2 hpos).ne'
  rw [vssPost_frame v hD]
  simp only [vssTurn, isoOf, mul_div_cancel_right₀ _ hne]

end Chimp
