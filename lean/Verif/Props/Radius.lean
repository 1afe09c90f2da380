import Verif.Model.Radius
import Verif.Props.Session
import Mathlib.MeasureTheory.Measure.Lebesgue.VolumeOfBalls

/-!
# C93: effective radii
-/

namespace Chimp

open MeasureTheory

variable {W : Type}

/-! ## Specification -/

/-- Two spheres with radii `r` and `R`, one of which moves along a line past the other, with the displacement `b`
across the line: at some point `z` of the way the distance of the centres is less than the sum of the radii. -/
def Meets (r R : ℝ) (b : EuclideanSpace ℝ (Fin 2)) : Prop := ∃ z : ℝ, ‖b‖ ^ 2 + z ^ 2 < (r + R) ^ 2

/-- `s` is the area of the displacements at which spheres with radii `r` and `R` meet. -/
def SphereArea (r R s : ℝ) : Prop := 0 ≤ s ∧ volume {b | Meets r R b} = ENNReal.ofReal s

/-! ## Lemmas -/

theorem meets_eq_ball {r R : ℝ} (h : 0 ≤ r + R) : {b | Meets r R b} = Metric.ball 0 (r + R) := by
  ext b
  rw [Set.mem_ofPred_eq, mem_ball_zero_iff]
  constructor
  · rintro ⟨z, hz⟩
    exact lt_of_pow_lt_pow_left₀ 2 h (by nlinarith [sq_nonneg z])
  · intro hb
    exact ⟨0, by nlinarith [norm_nonneg b]⟩

theorem sphereArea_iff {r R s : ℝ} (h : 0 ≤ r + R) : SphereArea r R s ↔ s = Real.pi * (r + R) ^ 2 := by
  unfold SphereArea
  rw [meets_eq_ball h, EuclideanSpace.volume_ball_fin_two, ← ENNReal.ofReal_pow h,
    ← ENNReal.ofReal_mul (by positivity)]
  constructor
  · rintro ⟨hs, he⟩
    rw [ENNReal.ofReal_eq_ofReal_iff (by positivity) hs] at he
    linarith
  · rintro rfl
    exact ⟨by positivity, by rw [mul_comm]⟩

theorem effectiveRadius_ok {cs : XSec} {v r : ℝ} : effectiveRadius cs v = .ok r ↔
    ∃ s, cs.sigma v = .ok s ∧ 0 ≤ s ∧ r = 1 / 2 * Real.sqrt (s / Real.pi) := by
  unfold effectiveRadius
  cases h : cs.sigma v with
  | error e => simp [bind, Except.bind]
  | ok s =>
    by_cases hs : 0 ≤ s
    · have : 0 ≤ s / Real.pi := div_nonneg hs Real.pi_pos.le
      simp [bind, Except.bind, pure, Except.pure, sqrtE, this, hs, eq_comm]
    · have : ¬ 0 ≤ s / Real.pi := not_le.2 (div_neg_of_neg_of_pos (not_le.1 hs) Real.pi_pos)
      simp [bind, Except.bind, sqrtE, this, hs]

/-! ## C93 -/

/-- **C93**  The effective radius of a cross section at a speed is the radius of equal hard spheres whose cross section
for meeting each other has the value at that speed, and there is no other result.  There is a radius exactly if there is
a nonnegative value. -/
theorem C93_hard_spheres (cs : XSec) (v : ℝ) :
    (∀ r, effectiveRadius cs v = .ok r ↔ 0 ≤ r ∧ ∃ s, cs.sigma v = .ok s ∧ SphereArea r r s) ∧
    ((∃ r, effectiveRadius cs v = .ok r) ↔ ∃ s, cs.sigma v = .ok s ∧ 0 ≤ s) := by
  constructor
  · intro r
    rw [effectiveRadius_ok]
    constructor
    · rintro ⟨s, hs, h0, rfl⟩
      refine ⟨by positivity, s, hs, (sphereArea_iff (by positivity)).2 ?_⟩
      have h := Real.sq_sqrt (div_nonneg h0 Real.pi_pos.le)
      have : (1 / 2 * Real.sqrt (s / Real.pi) + 1 / 2 * Real.sqrt (s / Real.pi)) ^ 2 = s / Real.pi := by
        linear_combination h
      rw [this]
      field_simp
    · rintro ⟨hr, s, hs, ha⟩
      rw [sphereArea_iff (by linarith)] at ha
      refine ⟨s, hs, by rw [ha]; positivity, ?_⟩
      have : s / Real.pi = (2 * r) ^ 2 := by rw [ha]; field_simp; ring
      rw [this, Real.sqrt_sq (by linarith)]
      ring
  · constructor
    · rintro ⟨r, h⟩
      obtain ⟨s, h1, h2, -⟩ := effectiveRadius_ok.1 h
      exact ⟨s, h1, h2⟩
    · rintro ⟨s, h1, h2⟩
      exact ⟨_, effectiveRadius_ok.2 ⟨s, h1, h2, rfl⟩⟩

theorem MeanDiameter.radius {wa wb w : WEq W} {v : ℝ} (h : MeanDiameter wa.cs wb.cs w.cs v) :
    ∃ ra rb s, wa.effectiveRadius v = .ok ra ∧ wb.effectiveRadius v = .ok rb ∧ 0 ≤ ra ∧ 0 ≤ rb ∧
      w.cs.sigma v = .ok s ∧ SphereArea ra rb s ∧ w.effectiveRadius v = .ok ((ra + rb) / 2) := by
  obtain ⟨sa, sb, s, ha, hb, hs, pa, pb, ps, he⟩ := h
  have hpi := Real.sqrt_pos.2 Real.pi_pos
  have e : Real.sqrt (s / Real.pi) = (Real.sqrt (sa / Real.pi) + Real.sqrt (sb / Real.pi)) / 2 := by
    rw [Real.sqrt_div pa, Real.sqrt_div pb, Real.sqrt_div ps, he]
    field_simp
  refine ⟨_, _, s, effectiveRadius_ok.2 ⟨sa, ha, pa, rfl⟩, effectiveRadius_ok.2 ⟨sb, hb, pb, rfl⟩, by positivity,
    by positivity, hs, (sphereArea_iff (by positivity)).2 ?_, effectiveRadius_ok.2 ⟨s, hs, ps, ?_⟩⟩
  · have : (1 / 2 * Real.sqrt (sa / Real.pi) + 1 / 2 * Real.sqrt (sb / Real.pi)) ^ 2 = Real.sqrt (s / Real.pi) ^ 2 := by
      rw [e]; ring
    rw [this, Real.sq_sqrt (div_nonneg ps Real.pi_pos.le)]
    field_simp
  · rw [e]; ring

/-- **C93**  The cross section of an equation created for species `A` and `B` is that of hard spheres with the effective
radii that the first elastic equations of `A` with `A` and of `B` with `B` give, and its effective radius is their mean:
at every speed at which both have one if the cross sections are of the kinds `vhs`, `log`, `constant` or `inverse`,
and otherwise at speeds in equal steps down from the largest. -/
theorem C93_created {T : Tools W} {auto : Bool} {D0 : SDoc} {cs : List Call} (h : SpeciesFirst cs)
    {s : Session W} (hs : runCalls T auto cs (Session.new D0) = s) {A B : ℕ} {w : WEq W}
    (hin : Call.init ∈ cs) (hm : MadeIn T s.props s.table A B w) :
    ∃ wa wb, FirstElasticW (s.eqs A A) wa ∧ FirstElasticW (s.eqs B B) wb ∧
      (EasyKind wa ∧ EasyKind wb → ∀ v ra rb, wa.effectiveRadius v = .ok ra → wb.effectiveRadius v = .ok rb →
        (∃ c, w.cs.sigma v = .ok c ∧ SphereArea ra rb c) ∧ w.effectiveRadius v = .ok ((ra + rb) / 2)) ∧
      (¬ (EasyKind wa ∧ EasyKind wb) → ∃ vmax dv : ℝ, 0 < vmax ∧ 0 < dv ∧ ∀ k : ℕ, 0 < vmax + 1 / 2 * dv - k * dv →
        ∃ ra rb, wa.effectiveRadius (vmax + 1 / 2 * dv - k * dv) = .ok ra ∧
          wb.effectiveRadius (vmax + 1 / 2 * dv - k * dv) = .ok rb ∧
          (∃ c, w.cs.sigma (vmax + 1 / 2 * dv - k * dv) = .ok c ∧ SphereArea ra rb c) ∧
          w.effectiveRadius (vmax + 1 / 2 * dv - k * dv) = .ok ((ra + rb) / 2)) := by
  obtain ⟨wa, wb, f1, f2, h1, h2⟩ := C80_mean_of_diameters h hs hin hm
  refine ⟨wa, wb, f1, f2, fun he v ra rb ha hb => ?_, fun hn => ?_⟩
  · obtain ⟨sa, ea, pa, -⟩ := effectiveRadius_ok.1 ha
    obtain ⟨sb, eb, pb, -⟩ := effectiveRadius_ok.1 hb
    obtain ⟨ra', rb', c, k1, k2, -, -, k3, k4, k5⟩ := (h1 he v sa sb ea pa eb pb).radius
    obtain rfl := Except.ok.inj (ha.symm.trans k1)
    obtain rfl := Except.ok.inj (hb.symm.trans k2)
    exact ⟨⟨c, k3, k4⟩, k5⟩
  · obtain ⟨vmax, dv, p1, p2, hk⟩ := h2 hn
    refine ⟨vmax, dv, p1, p2, fun k hp => ?_⟩
    obtain ⟨ra, rb, c, k1, k2, -, -, k3, k4, k5⟩ := (hk k hp).radius
    exact ⟨ra, rb, k1, k2, ⟨c, k3, k4⟩, k5⟩

/-! ## Examples -/

section RadiusExample

/-- A constant cross section of `16 π` belongs to spheres with radius 2. -/
example : effectiveRadius (SessionExample.xs (16 * Real.pi)) 3 = .ok 2 ∧ SphereArea 2 2 (16 * Real.pi) := by
  refine ⟨effectiveRadius_ok.2 ⟨16 * Real.pi, ?_, by positivity, ?_⟩, (sphereArea_iff (by norm_num)).2 (by ring)⟩
  · show Except.ok (if (3 : ℝ) ≥ Real.sqrt 0 then 16 * Real.pi else 0) = _
    rw [if_pos (by simp)]
  · rw [mul_div_assoc, div_self Real.pi_ne_zero, show (16 * 1 : ℝ) = 4 ^ 2 by norm_num, Real.sqrt_sq (by norm_num)]
    norm_num

/-- Spheres with radii 1 and 2 meet if they pass at distance 2, and do not at distance 4. -/
example : Meets 1 2 (!₂[(2 : ℝ), 0]) ∧ ¬ Meets 1 2 (!₂[(4 : ℝ), 0]) := by
  have h : ∀ x : ℝ, ‖(!₂[x, 0] : EuclideanSpace ℝ (Fin 2))‖ ^ 2 = x ^ 2 := by
    intro x
    rw [EuclideanSpace.norm_sq_eq]
    simp
  constructor
  · exact ⟨0, by rw [h]; norm_num⟩
  · rintro ⟨z, hz⟩
    rw [h] at hz
    nlinarith [sq_nonneg z]

open SessionExample in
/-- The example of C79 and C80: species with the cross sections 4 and 16 and an equation created for them, with the
mean of the radii. -/
example (T : Tools W) : SpeciesFirst calls ∧ Call.init ∈ calls ∧
    ∃ s : Session W, runCalls T false calls (Session.new doc) = s ∧ MadeIn T s.props s.table 0 1 wxy ∧
      EasyKind (wx : WEq W) ∧ EasyKind (wy : WEq W) ∧ ∃ ra rb, (wx : WEq W).effectiveRadius 7 = .ok ra ∧
        (wy : WEq W).effectiveRadius 7 = .ok rb ∧ rb = 2 * ra ∧
        (wxy : WEq W).effectiveRadius 7 = .ok (3 / 2 * ra) := by
  obtain ⟨h1, h2, s, hs, -, -, -, -, -, hm, -, -, h9⟩ := result T
  have e : ∀ c : ℝ, (xs c).sigma 7 = .ok c := by
    intro c
    show Except.ok (if (7 : ℝ) ≥ Real.sqrt 0 then c else 0) = _
    rw [if_pos (by simp)]
  refine ⟨h1, h2, s, hs, hm, .inr (.inr (.inl rfl)), .inr (.inr (.inl rfl)), _, _,
    effectiveRadius_ok.2 ⟨4, e 4, by norm_num, rfl⟩, effectiveRadius_ok.2 ⟨16, e 16, by norm_num, rfl⟩, ?_,
    effectiveRadius_ok.2 ⟨9, h9, by norm_num, ?_⟩⟩
  · rw [show (16 : ℝ) / Real.pi = 2 ^ 2 * (4 / Real.pi) by ring, Real.sqrt_mul (by norm_num), Real.sqrt_sq (by norm_num)]
    ring
  · rw [show (9 : ℝ) / Real.pi = (3 / 2) ^ 2 * (4 / Real.pi) by ring, Real.sqrt_mul (by norm_num),
      Real.sqrt_sq (by norm_num)]
    ring

end RadiusExample

end Chimp
