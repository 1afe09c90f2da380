import Verif.Lemmas.FloatErr
import Verif.Lemmas.FloatDriver
import Verif.Model.FloatKin
import Mathlib.Tactic.LinearCombination

/-!
# Lemmas on collisions in floating-point arithmetic
-/

namespace Chimp

variable {S : Type} {p : ℕ} (R : Rounding p)

theorem Rounding.neg (hp : 0 < p) {x : ℝ} (hx : x < 0) : R.rd x < 0 := by
  have h := abs_le.1 (R.error x)
  rw [← unitError, abs_of_neg hx] at h
  have := unitError_le_half hp
  nlinarith [h.2]

theorem Rounding.nonneg_iff (hp : 0 < p) {x : ℝ} : 0 ≤ R.rd x ↔ 0 ≤ x :=
  ⟨fun h => not_lt.1 fun h' => absurd (R.neg hp h') (not_lt.2 h), R.nonneg⟩

theorem fp_two : (2 : ℝ) ∈ FP p := by simpa using fp_pow (p := p) 1

/-- The cosine of the elevation lies between -1 and 1. -/
theorem cosine_range {u : ℝ} (h0 : 0 ≤ u) (h1 : u ≤ 1) :
    -1 ≤ R.rd (R.rd (2 * u) - 1) ∧ R.rd (R.rd (2 * u) - 1) ≤ 1 := by
  have a : 0 ≤ R.rd (2 * u) := R.nonneg (by linarith)
  have b : R.rd (2 * u) ≤ 2 := R.le_of_le fp_two (by linarith)
  exact ⟨R.ge_of_ge (fp_neg fp_one) (by linarith), R.le_of_le fp_one (by linarith)⟩

/-- The argument of the square root in the sine lies between 0 and 1. -/
theorem sine_arg {B : ℝ} (h0 : -1 ≤ B) (h1 : B ≤ 1) :
    0 ≤ R.rd (1 - R.rd (B * B)) ∧ R.rd (1 - R.rd (B * B)) ≤ 1 := by
  have a : R.rd (B * B) ≤ 1 := R.le_of_le fp_one (by nlinarith)
  have b : 0 ≤ R.rd (B * B) := R.nonneg (mul_self_nonneg B)
  exact ⟨R.nonneg (by linarith), R.le_of_le fp_one (by linarith)⟩

/-- What `isoVecR` computes. -/
theorem isoVecR_eq (ar : Arith) (har : ar.rd = R.rd) (rng : RNG S ℝ) (hv : rng.Valid) (speed : ℝ) (s : S) :
    let B := R.rd (R.rd (2 * (rng.rand s).1) - 1)
    let A := R.rd (Real.sqrt (R.rd (1 - R.rd (B * B))))
    let C := R.rd (R.rd (2 * ar.pi) * (rng.rand (rng.rand s).2).1)
    isoVecR ar rng speed s = some
        (⟨R.rd (B * speed), R.rd (R.rd (A * ar.cos C) * speed), R.rd (R.rd (A * ar.sin C) * speed)⟩,
          (rng.rand (rng.rand s).2).2) ∧
      -1 ≤ B ∧ B ≤ 1 := by
  obtain ⟨u0, u1⟩ := hv.rand_mem s
  obtain ⟨b0, b1⟩ := cosine_range R u0 u1
  refine ⟨?_, b0, b1⟩
  simp only [isoVecR, har, sqrtR, if_pos (sine_arg R b0 b1).1]

theorem isoVecR_some (ar : Arith) (har : ar.rd = R.rd) (rng : RNG S ℝ) (hv : rng.Valid) (speed : ℝ) (s : S) :
    ∃ v s', isoVecR ar rng speed s = some (v, s') := by
  exact ⟨_, _, (isoVecR_eq R ar har rng hv speed s).1⟩

theorem split2R_some_iff (ar : Arith) (har : ar.rd = R.rd) (rng : RNG S ℝ) (hv : rng.Valid) (mu mu1 : ReducedMass ℝ)
    (sc : ℝ) (hasE : Bool) (dV2 : ℝ) (v1 v2 : Vec) (s : S) :
    split2R ar rng mu mu1 sc hasE dV2 v1 v2 s ≠ none ↔ calcVRelR R.rd hasE v1 v2 dV2 ≠ none := by
  unfold split2R
  rw [har]
  cases calcVRelR R.rd hasE v1 v2 dV2 with
  | none => simp
  | some speed =>
    obtain ⟨v, s', h⟩ := isoVecR_some R ar har rng hv speed s
    simp [h]

theorem split3R_some_iff (ar : Arith) (har : ar.rd = R.rd) (rng : RNG S ℝ) (hv : rng.Valid) (mu mu1 mu2 : ReducedMass ℝ)
    (sc1 sc2 : ℝ) (hasE : Bool) (dV2 : ℝ) (v1 v2 : Vec) (s : S) :
    split3R ar rng mu mu1 mu2 sc1 sc2 hasE dV2 v1 v2 s ≠ none ↔ calcVRelR R.rd hasE v1 v2 dV2 ≠ none := by
  unfold split3R
  rw [har]
  cases calcVRelR R.rd hasE v1 v2 dV2 with
  | none => simp
  | some speed =>
    obtain ⟨u0, u1⟩ := hv.rand_mem s
    have h1 : sqrtR R.rd (rng.rand s).1 = some (R.rd (Real.sqrt (rng.rand s).1)) := by simp [sqrtR, u0]
    have h2 : sqrtR R.rd (R.rd (1 - (rng.rand s).1)) = some (R.rd (Real.sqrt (R.rd (1 - (rng.rand s).1)))) := by
      simp [sqrtR, R.nonneg (sub_nonneg.2 u1)]
    obtain ⟨v, s', h⟩ := isoVecR_some R ar har rng hv (R.rd (speed * R.rd (Real.sqrt (rng.rand s).1))) (rng.rand s).2
    obtain ⟨v', s'', h'⟩ := isoVecR_some R ar har rng hv
      (R.rd (speed * R.rd (Real.sqrt (R.rd (1 - (rng.rand s).1))))) s'
    simp [h1, h2, h, h']

theorem normSqR_nonneg (v : Vec) : 0 ≤ normSqR R.rd v := by
  unfold normSqR
  have := R.nonneg (mul_self_nonneg v.x)
  have := R.nonneg (mul_self_nonneg v.y)
  have := R.nonneg (mul_self_nonneg v.z)
  exact R.nonneg (add_nonneg (R.nonneg (by linarith)) (by linarith))

/-- The energy change leaves a number under the root. -/
theorem calcVRelR_true_iff (hp : 0 < p) (v1 v2 : Vec) (dV2 : ℝ) :
    calcVRelR R.rd true v1 v2 dV2 ≠ none ↔ 0 ≤ normSqR R.rd (vSub R.rd v1 v2) + dV2 := by
  simp only [calcVRelR, if_true, sqrtR, R.nonneg_iff hp]
  split <;> simp_all

/-- The computed square of the relative speed. -/
theorem normSqR_rel (v1 v2 : Vec) : Rel p 5 (normSqR R.rd (vSub R.rd v1 v2)) (v1 - v2).normSq := by
  have hsq : ∀ x : ℝ, Rel p 3 (R.rd (R.rd x * R.rd x)) (x ^ 2) := by
    intro x
    have h := (R.rel_abs x).mul (R.rel_abs x)
    rw [abs_mul_abs_self, abs_mul_abs_self, ← pow_two x] at h
    exact R.rel_rd h
  have h1 := hsq (v1.x - v2.x)
  have h2 := hsq (v1.y - v2.y)
  have h3 := hsq (v1.z - v2.z)
  exact R.rel_rd ((R.rel_rd (h1.add h2)).add (h3.mono (by norm_num)))

/-- The computed square of the threshold speed. -/
theorem threshold_rel {E mu : ℝ} (hE : 0 ≤ E) (hmu : 0 < mu) :
    Rel p 2 (R.rd (E / R.rd (1 / 2 * mu))) (E / (1 / 2 * mu)) := by
  have h1 : Rel p 1 (R.rd (1 / 2 * mu)) (1 / 2 * mu) := R.rel (by positivity)
  exact R.rel_rd (k := 1) (by simpa using (Rel.refl (p := p) hE).div h1)

end Chimp
