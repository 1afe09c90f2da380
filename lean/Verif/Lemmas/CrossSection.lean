import Verif.Model.CrossSection
import Mathlib.Analysis.Convex.SpecificFunctions.Basic
import Mathlib.Analysis.Convex.SpecificFunctions.Deriv
import Mathlib.Tactic.FieldSimp
import Mathlib.Tactic.LinearCombination
import Mathlib.Tactic.Positivity

/-!
# Lemmas on the closed-form cross sections
-/

namespace Chimp

/-- Threshold speed and threshold energy. -/
theorem lt_threshold_iff {mu e v : ℝ} (hmu : 0 < mu) (he : 0 ≤ e) (hv : 0 ≤ v) :
    v < Real.sqrt (e / (1 / 2 * mu)) ↔ 1 / 2 * mu * v ^ 2 < e := by
  rw [Real.lt_sqrt hv, lt_div_iff₀ (by positivity)]
  constructor <;> intro h <;> linarith

theorem setThreshold_ok {mu e : ℝ} (he : 0 ≤ e) :
    setThreshold mu e = .ok (e, Real.sqrt (e / (1 / 2 * mu))) := by
  unfold setThreshold; rw [if_neg (not_lt.2 he)]

theorem setThreshold_error {mu e : ℝ} (he : e < 0) : setThreshold mu e = .error .badThreshold := by
  unfold setThreshold; rw [if_pos he]

/-- Slopes of `x log x`. -/
theorem xlogx_slopes {a b : ℝ} (ha : 0 < a) (hab : a < b) :
    (Real.log a + 1) * (b - a) < b * Real.log b - a * Real.log a ∧
    b * Real.log b - a * Real.log a < (Real.log b + 1) * (b - a) := by
  have hb : 0 < b := ha.trans hab
  have h1 : Real.log (a / b) < a / b - 1 :=
    Real.log_lt_sub_one_of_pos (by positivity) (by
      intro h; rw [div_eq_one_iff_eq hb.ne'] at h; exact absurd h hab.ne)
  have h2 : Real.log (b / a) < b / a - 1 :=
    Real.log_lt_sub_one_of_pos (by positivity) (by
      intro h; rw [div_eq_one_iff_eq ha.ne'] at h; exact absurd h hab.ne')
  rw [Real.log_div ha.ne' hb.ne'] at h1
  rw [Real.log_div hb.ne' ha.ne'] at h2
  have h1' := mul_lt_mul_of_pos_left h1 hb
  have h2' := mul_lt_mul_of_pos_left h2 ha
  have e1 : b * (a / b - 1) = a - b := by field_simp
  have e2 : a * (b / a - 1) = b - a := by field_simp
  rw [e1] at h1'
  rw [e2] at h2'
  constructor <;> nlinarith

/-- `v` times the shape of the VHS cross section. -/
theorem vhs_mono {mu t p a b : ℝ} (hmu : 0 < mu) (ht : 0 < t) (hp : p ≤ 1 / 2) (ha : 0 ≤ a) (hab : a ≤ b) :
    a * (mu * a ^ 2 + t) ^ (-p) ≤ b * (mu * b ^ 2 + t) ^ (-p) := by
  have hb : 0 ≤ b := ha.trans hab
  have hDa : 0 < mu * a ^ 2 + t := by positivity
  have hDb : 0 < mu * b ^ 2 + t := by positivity
  have hsq : a ^ 2 ≤ b ^ 2 := by gcongr
  have hD : mu * a ^ 2 + t ≤ mu * b ^ 2 + t := by gcongr
  have key : ∀ x, 0 < mu * x ^ 2 + t → x * (mu * x ^ 2 + t) ^ (-p) =
      (x / Real.sqrt (mu * x ^ 2 + t)) * (mu * x ^ 2 + t) ^ (1 / 2 - p) := by
    intro x hx
    rw [Real.sqrt_eq_rpow, div_mul_eq_mul_div, eq_div_iff (by positivity), mul_assoc, ← Real.rpow_add hx]
    ring_nf
  rw [key a hDa, key b hDb]
  apply mul_le_mul _ (Real.rpow_le_rpow hDa.le hD (by linarith)) (by positivity) (by positivity)
  rw [div_le_div_iff₀ (Real.sqrt_pos.2 hDa) (Real.sqrt_pos.2 hDb)]
  apply le_of_sq_le_sq _ (by positivity)
  rw [mul_pow, mul_pow, Real.sq_sqrt hDa.le, Real.sq_sqrt hDb.le]
  nlinarith

/-- Beyond the maximum it falls when the exponent exceeds one half. -/
theorem vhs_anti {mu t p a b : ℝ} (hmu : 0 < mu) (ht : 0 < t) (hp : 1 / 2 < p) (ha : 0 < a) (hab : a < b)
    (hmax : t ≤ mu * (2 * p - 1) * a ^ 2) :
    b * (mu * b ^ 2 + t) ^ (-p) < a * (mu * a ^ 2 + t) ^ (-p) := by
  have hb : 0 < b := ha.trans hab
  have hDa : 0 < mu * a ^ 2 + t := by positivity
  have hDb : 0 < mu * b ^ 2 + t := by positivity
  set r := b ^ 2 / a ^ 2 with hr
  have hr1 : 1 < r := by
    rw [hr, one_lt_div (by positivity)]
    gcongr
  have hp0 : 0 < p := by linarith
  -- Bernoulli
  have hs : 0 < (r - 1) / (2 * p) := div_pos (by linarith) (by linarith)
  have hB := one_add_mul_self_lt_rpow_one_add (s := (r - 1) / (2 * p)) (by linarith) hs.ne'
    (p := 2 * p) (by linarith)
  have e1 : 1 + 2 * p * ((r - 1) / (2 * p)) = r := by field_simp; ring
  rw [e1] at hB
  -- ratio of denominators
  have hq : 1 + (r - 1) / (2 * p) ≤ (mu * b ^ 2 + t) / (mu * a ^ 2 + t) := by
    rw [le_div_iff₀ hDa]
    have hle : mu * a ^ 2 + t ≤ 2 * p * mu * a ^ 2 := by linarith
    have e2 : (r - 1) * a ^ 2 = b ^ 2 - a ^ 2 := by rw [hr]; field_simp
    have h3 : (r - 1) / (2 * p) * (mu * a ^ 2 + t) ≤ (r - 1) / (2 * p) * (2 * p * mu * a ^ 2) := by
      gcongr
    have e3 : (r - 1) / (2 * p) * (2 * p * mu * a ^ 2) = mu * (b ^ 2 - a ^ 2) := by
      rw [← e2]; field_simp
    linarith
  have h4 : r < ((mu * b ^ 2 + t) / (mu * a ^ 2 + t)) ^ (2 * p) :=
    lt_of_lt_of_le hB (Real.rpow_le_rpow (by linarith) hq (by linarith))
  have h5 : (b / a) ^ 2 < (((mu * b ^ 2 + t) / (mu * a ^ 2 + t)) ^ p) ^ 2 := by
    rw [div_pow, ← hr, ← Real.rpow_natCast, ← Real.rpow_mul (by positivity)]
    convert h4 using 2
    push_cast; ring
  have h6 : b / a < ((mu * b ^ 2 + t) / (mu * a ^ 2 + t)) ^ p :=
    lt_of_pow_lt_pow_left₀ 2 (by positivity) h5
  rw [Real.div_rpow hDb.le hDa.le, div_lt_div_iff₀ ha (by positivity)] at h6
  rw [Real.rpow_neg hDb.le, Real.rpow_neg hDa.le, ← div_eq_mul_inv, ← div_eq_mul_inv,
    div_lt_div_iff₀ (by positivity) (by positivity)]
  linarith

end Chimp
