import Verif.Lemmas.FloatKin
import Verif.Lemmas.Kinematics
import Mathlib.Tactic.Linarith
import Mathlib.Tactic.FieldSimp
import Mathlib.Tactic.GCongr

/-!
# Rounding errors of collisions
-/

namespace Chimp

variable {S : Type} {p : ℕ} (R : Rounding p)

/-- The library's cosine and sine are at most one, and their squares add up to one within `τ`. -/
structure Arith.Trig (ar : Arith) (τ : ℝ) : Prop where
  cos_le : ∀ x, |ar.cos x| ≤ 1
  sin_le : ∀ x, |ar.sin x| ≤ 1
  unit : ∀ x, |ar.cos x ^ 2 + ar.sin x ^ 2 - 1| ≤ τ

theorem Rel.sq {k : ℕ} {x y : ℝ} (h : Rel p k x y) : Rel p (2 * k) (x ^ 2) (y ^ 2) := by
  rw [two_mul, pow_two, pow_two]; exact h.mul h

/-- The square of a rounded number. -/
theorem Rounding.rel_sq (x : ℝ) : Rel p 2 (R.rd x ^ 2) (x ^ 2) := by
  have := (R.rel_abs x).sq
  rwa [sq_abs, sq_abs] at this

/-- The coefficients of the reduced mass. -/
theorem reducedMassR_rel {m1 m2 : ℝ} (h1 : 0 < m1) (h2 : 0 < m2) :
    Rel p 3 (reducedMassR R.rd m1 m2).over_m1 (m2 / (m1 + m2)) ∧
    Rel p 3 (reducedMassR R.rd m1 m2).over_m2 (m1 / (m1 + m2)) ∧
    Rel p 3 (reducedMassR R.rd m1 m2).value (m1 * m2 / (m1 + m2)) := by
  have key : ∀ {a b : ℝ}, 0 < a → 0 < b → Rel p 3 (R.rd (1 / R.rd (1 + R.rd (a / b)))) (b / (a + b)) := by
    intro a b ha hb
    have e : b / (a + b) = 1 / (1 + a / b) := by field_simp; ring
    rw [e]
    have r1 : Rel p 1 (R.rd (a / b)) (a / b) := R.rel (by positivity)
    have r2 : Rel p 2 (R.rd (1 + R.rd (a / b))) (1 + a / b) :=
      R.rel_rd (((Rel.refl zero_le_one).mono (by omega)).add r1)
    have r3 := (Rel.refl (p := p) zero_le_one).div r2
    exact R.rel_rd (r3.mono (by omega))
  refine ⟨key h1 h2, ?_, ?_⟩
  · have := key h2 h1
    rwa [add_comm m2 m1] at this
  · have r1 : Rel p 1 (R.rd (m1 * m2)) (m1 * m2) := R.rel (by positivity)
    have r2 : Rel p 1 (R.rd (m1 + m2)) (m1 + m2) := R.rel (by positivity)
    exact R.rel_rd ((r1.div r2).mono (by omega))

/-- The random vector: its components are at most its length, and the length is right up to the errors. -/
theorem isoVecR_spec {τ : ℝ} (ar : Arith) (har : ar.rd = R.rd) (ht : ar.Trig τ) (rng : RNG S ℝ) (hv : rng.Valid)
    {speed : ℝ} (h0 : 0 ≤ speed) (hs : speed ∈ FP p) (s : S) :
    ∃ w s', isoVecR ar rng speed s = some (w, s') ∧ |w.x| ≤ speed ∧ |w.y| ≤ speed ∧ |w.z| ≤ speed ∧
      ∃ θ, 0 ≤ θ ∧ 1 - τ ≤ θ ∧ θ ≤ 1 + τ ∧ Rel p 7 w.normSq (θ * speed ^ 2) := by
  have hτ : 0 ≤ τ := (abs_nonneg _).trans (ht.unit 0)
  obtain ⟨he, hB0, hB1⟩ := isoVecR_eq R ar har rng hv speed s
  set B := R.rd (R.rd (2 * (rng.rand s).1) - 1)
  set Z := R.rd (B * B) with hZ
  set A := R.rd (Real.sqrt (R.rd (1 - Z))) with hA
  set C := R.rd (R.rd (2 * ar.pi) * (rng.rand (rng.rand s).2).1)
  have hBB : B * B ≤ 1 := by nlinarith
  have hZ0 : 0 ≤ Z := R.nonneg (mul_self_nonneg B)
  have hZ1 : Z ≤ 1 := R.le_of_le fp_one hBB
  have hy0 : 0 ≤ R.rd (1 - Z) := R.nonneg (by linarith)
  have hy1 : R.rd (1 - Z) ≤ 1 := R.le_of_le fp_one (by linarith)
  have hA0 : 0 ≤ A := R.nonneg (Real.sqrt_nonneg _)
  have hA1 : A ≤ 1 := R.le_of_le fp_one (by
    calc Real.sqrt (R.rd (1 - Z)) ≤ Real.sqrt 1 := Real.sqrt_le_sqrt hy1
      _ = 1 := Real.sqrt_one)
  have habs : ∀ x M : ℝ, M ∈ FP p → |x| ≤ M → |R.rd x| ≤ M := by
    intro x M hM h
    rw [abs_le] at h ⊢
    exact ⟨R.ge_of_ge (fp_neg hM) h.1, R.le_of_le hM h.2⟩
  have hmul : ∀ x, |x| ≤ 1 → |R.rd (x * speed)| ≤ speed := by
    intro x h
    refine habs _ _ hs ?_
    rw [abs_mul, abs_of_nonneg h0]
    nlinarith
  have hAc : ∀ c, |c| ≤ 1 → |R.rd (A * c)| ≤ 1 := by
    intro c h
    refine habs _ _ fp_one ?_
    rw [abs_mul, abs_of_nonneg hA0]
    nlinarith [abs_nonneg c]
  refine ⟨_, _, he, hmul B (abs_le.2 ⟨hB0, hB1⟩), hmul _ (hAc _ (ht.cos_le C)), hmul _ (hAc _ (ht.sin_le C)), ?_⟩
  -- the length
  have rB : Rel p 1 (B ^ 2) Z := by
    have : Rel p 1 Z (B * B) := R.rel (mul_self_nonneg B)
    rw [pow_two]; exact this.symm
  have rA : Rel p 3 (A ^ 2) (1 - Z) := by
    have a1 : Rel p 2 (A ^ 2) (Real.sqrt (R.rd (1 - Z)) ^ 2) := R.rel_sq _
    rw [Real.sq_sqrt hy0] at a1
    have a2 : Rel p 1 (R.rd (1 - Z)) (1 - Z) := R.rel (by linarith)
    exact a1.trans a2
  have rx : Rel p 7 (R.rd (B * speed) ^ 2) (Z * speed ^ 2) := by
    have b1 : Rel p 2 (R.rd (B * speed) ^ 2) ((B * speed) ^ 2) := R.rel_sq _
    rw [mul_pow] at b1
    exact (b1.trans (rB.mul (Rel.refl (sq_nonneg speed)))).mono (by omega)
  have ry : ∀ c, Rel p 7 (R.rd (R.rd (A * c) * speed) ^ 2) ((1 - Z) * c ^ 2 * speed ^ 2) := by
    intro c
    have b1 : Rel p 2 (R.rd (R.rd (A * c) * speed) ^ 2) ((R.rd (A * c) * speed) ^ 2) := R.rel_sq _
    have b2 : Rel p 2 (R.rd (A * c) ^ 2) ((A * c) ^ 2) := R.rel_sq _
    rw [mul_pow] at b1 b2
    have b3 := (b2.trans (rA.mul (Rel.refl (sq_nonneg c)))).mul (Rel.refl (sq_nonneg speed))
    exact (b1.trans b3).mono (by omega)
  set σ := ar.cos C ^ 2 + ar.sin C ^ 2 with hσ
  have hσ1 := abs_le.1 (ht.unit C)
  rw [← hσ] at hσ1
  have hσ0 : 0 ≤ σ := by positivity
  refine ⟨Z + (1 - Z) * σ, ?_, ?_, ?_, ?_⟩
  · have : 0 ≤ (1 - Z) * σ := mul_nonneg (by linarith) hσ0
    linarith
  · nlinarith [mul_nonneg (by linarith : 0 ≤ 1 - Z) (by linarith [hσ1.1] : 0 ≤ σ - (1 - τ)), mul_nonneg hZ0 hτ]
  · nlinarith [mul_nonneg (by linarith : 0 ≤ 1 - Z) (by linarith [hσ1.2] : 0 ≤ (1 + τ) - σ), mul_nonneg hZ0 hτ]
  · have := (rx.add (ry (ar.cos C))).add (ry (ar.sin C))
    have e : Z * speed ^ 2 + (1 - Z) * ar.cos C ^ 2 * speed ^ 2 + (1 - Z) * ar.sin C ^ 2 * speed ^ 2 =
        (Z + (1 - Z) * σ) * speed ^ 2 := by rw [hσ]; ring
    rw [e] at this
    exact this

/-- The relative speed. -/
theorem relSpeedR_rel (v1 v2 : Vec) : Rel p 4 (relSpeedR R.rd v1 v2) (v1 - v2).abs :=
  R.rel_rd (((normSqR_rel R v1 v2).mono (by omega : 5 ≤ 2 * 3)).sqrt)

theorem relSpeedR_sq (v1 v2 : Vec) : Rel p 7 (relSpeedR R.rd v1 v2 ^ 2) (v1 - v2).normSq := by
  have h1 : Rel p 2 (relSpeedR R.rd v1 v2 ^ 2) (Real.sqrt (normSqR R.rd (vSub R.rd v1 v2)) ^ 2) := R.rel_sq _
  rw [Real.sq_sqrt (normSqR_nonneg R _)] at h1
  exact h1.trans (normSqR_rel R v1 v2)

theorem err_of_scaled {k : ℕ} {c c' : ℝ} (h : Rel p k c' c) (x : ℝ) : Err p (k + 1) (R.rd (c' * x)) (c * x) (c * |x|) :=
  ((Err.of_rel h).mul (Err.refl x)).rd R

/-- A component of the velocity of the centre of mass. -/
theorem err_cm {a b a' b' : ℝ} (ha : Rel p 3 a' a) (hb : Rel p 3 b' b) (x y : ℝ) :
    Err p 5 (R.rd (R.rd (b' * x) + R.rd (a' * y))) (b * x + a * y) (b * |x| + a * |y|) :=
  ((err_of_scaled R hb x).add (err_of_scaled R ha y)).rd R

/-- A component of a velocity afterwards. -/
theorem err_post {k K : ℕ} {c c' g g' G : ℝ} (hg : Err p k g' g G) {j : ℕ} (hc : Rel p j c' c) (hk : k + 1 ≤ K)
    (hj : j + 2 ≤ K) (w : ℝ) :
    Err p K (R.rd (g' + R.rd (c' * w))) (g + c * w) (G + c * |w|) ∧
      Err p K (R.rd (g' - R.rd (c' * w))) (g - c * w) (G + c * |w|) := by
  obtain ⟨L, rfl⟩ : ∃ L, K = L + 1 := ⟨K - 1, by omega⟩
  have h1 := hg.mono (by omega : k ≤ L) le_rfl
  have h2 := (err_of_scaled R hc w).mono (by omega : j + 1 ≤ L) le_rfl
  exact ⟨(h1.add h2).rd R, (h1.sub h2).rd R⟩

/-- An absolute error followed by a relative one. -/
theorem Err.rel_trans {j k : ℕ} {x y z M : ℝ} (h : Err p k y z M) (hx : Rel p j x y) : Err p (k + j) x z M := by
  refine ⟨h.bound, ?_⟩
  have h1 := hx.abs_sub
  have h2 := (le_abs_self y).trans h.left
  have h3 := h.err
  have h4 := abs_sub_le x y z
  have h5 := mul_le_mul_of_nonneg_left h2 (by linarith [growth_one_le (p := p) j] : 0 ≤ growth p j - 1)
  rw [growth_add]
  nlinarith

/-! ### Two products, one component -/

section

variable {m1 m2 m3 m4 α β ρ mu : ℝ}

/-- One component of the momentum. -/
theorem momentum2 {K : ℕ} (h1 : 0 < m1) (h2 : 0 < m2) (h3 : 0 < m3) (h4 : 0 < m4) (hM : m3 + m4 = m1 + m2)
    (hα : m3 * α = ρ) (hβ : m4 * β = ρ) {x y w v3 v4 : ℝ}
    (e3 : Err p K v3 (m1 / (m1 + m2) * x + m2 / (m1 + m2) * y + α * w)
      (m1 / (m1 + m2) * |x| + m2 / (m1 + m2) * |y| + α * |w|))
    (e4 : Err p K v4 (m1 / (m1 + m2) * x + m2 / (m1 + m2) * y - β * w)
      (m1 / (m1 + m2) * |x| + m2 / (m1 + m2) * |y| + β * |w|)) :
    |m3 * v3 + m4 * v4 - (m1 * x + m2 * y)| ≤ (growth p K - 1) * (m1 * |x| + m2 * |y| + 2 * ρ * |w|) := by
  have hs : 0 < m1 + m2 := by positivity
  set P := m1 / (m1 + m2) * x + m2 / (m1 + m2) * y with hP
  set Q := m1 / (m1 + m2) * |x| + m2 / (m1 + m2) * |y| with hQ
  have hPe : (m1 + m2) * P = m1 * x + m2 * y := by rw [hP]; field_simp
  have hQe : (m1 + m2) * Q = m1 * |x| + m2 * |y| := by rw [hQ]; field_simp
  have e : m3 * v3 + m4 * v4 - (m1 * x + m2 * y) = m3 * (v3 - (P + α * w)) + m4 * (v4 - (P - β * w)) := by
    linear_combination hPe + P * hM + w * hα - w * hβ
  rw [e]
  refine (abs_add_le _ _).trans ?_
  rw [abs_mul, abs_mul, abs_of_pos h3, abs_of_pos h4]
  have a3 := mul_le_mul_of_nonneg_left e3.err h3.le
  have a4 := mul_le_mul_of_nonneg_left e4.err h4.le
  have e' : m3 * ((growth p K - 1) * (Q + α * |w|)) + m4 * ((growth p K - 1) * (Q + β * |w|)) =
      (growth p K - 1) * (m1 * |x| + m2 * |y| + 2 * ρ * |w|) := by
    linear_combination (growth p K - 1) * (hQe + Q * hM + |w| * hα + |w| * hβ)
  linarith

/-- Convexity of the square, with the masses as weights. -/
theorem cm_sq_le (h1 : 0 < m1) (h2 : 0 < m2) (x y : ℝ) :
    (m1 + m2) * (m1 / (m1 + m2) * |x| + m2 / (m1 + m2) * |y|) ^ 2 ≤ m1 * x ^ 2 + m2 * y ^ 2 := by
  have hs : 0 < m1 + m2 := by positivity
  have e : m1 * x ^ 2 + m2 * y ^ 2 - (m1 + m2) * (m1 / (m1 + m2) * |x| + m2 / (m1 + m2) * |y|) ^ 2 =
      m1 * m2 / (m1 + m2) * (|x| - |y|) ^ 2 := by
    rw [← sq_abs x, ← sq_abs y]; field_simp; ring
  have : 0 ≤ m1 * m2 / (m1 + m2) * (|x| - |y|) ^ 2 := by positivity
  linarith

/-- One component of the energy. -/
theorem energy2 {K : ℕ} (h1 : 0 < m1) (h2 : 0 < m2) (h3 : 0 < m3) (h4 : 0 < m4) (hM : m3 + m4 = m1 + m2)
    (hα : m3 * α = ρ) (hβ : m4 * β = ρ) (hmu : m3 * α ^ 2 + m4 * β ^ 2 = mu) {x y w v3 v4 : ℝ}
    (e3 : Err p K v3 (m1 / (m1 + m2) * x + m2 / (m1 + m2) * y + α * w)
      (m1 / (m1 + m2) * |x| + m2 / (m1 + m2) * |y| + α * |w|))
    (e4 : Err p K v4 (m1 / (m1 + m2) * x + m2 / (m1 + m2) * y - β * w)
      (m1 / (m1 + m2) * |x| + m2 / (m1 + m2) * |y| + β * |w|)) :
    |m3 * v3 ^ 2 + m4 * v4 ^ 2 - ((m1 + m2) * (m1 / (m1 + m2) * x + m2 / (m1 + m2) * y) ^ 2 + mu * w ^ 2)| ≤
      2 * (growth p (2 * K) - 1) * (m1 * x ^ 2 + m2 * y ^ 2 + mu * w ^ 2) := by
  set P := m1 / (m1 + m2) * x + m2 / (m1 + m2) * y with hP
  set Q := m1 / (m1 + m2) * |x| + m2 / (m1 + m2) * |y| with hQ
  have hg : 0 ≤ growth p (2 * K) - 1 := by linarith [growth_one_le (p := p) (2 * K)]
  have e : m3 * v3 ^ 2 + m4 * v4 ^ 2 - ((m1 + m2) * P ^ 2 + mu * w ^ 2) =
      m3 * (v3 ^ 2 - (P + α * w) ^ 2) + m4 * (v4 ^ 2 - (P - β * w) ^ 2) := by
    linear_combination P ^ 2 * hM + w ^ 2 * hmu + 2 * P * w * hα - 2 * P * w * hβ
  rw [e]
  refine (abs_add_le _ _).trans ?_
  rw [abs_mul, abs_mul, abs_of_pos h3, abs_of_pos h4]
  have a3 := mul_le_mul_of_nonneg_left e3.sq h3.le
  have a4 := mul_le_mul_of_nonneg_left e4.sq h4.le
  have b : m3 * (Q + α * |w|) ^ 2 + m4 * (Q + β * |w|) ^ 2 ≤ 2 * (m1 * x ^ 2 + m2 * y ^ 2 + mu * w ^ 2) := by
    have c3 : (Q + α * |w|) ^ 2 ≤ 2 * (Q ^ 2 + α ^ 2 * w ^ 2) := by
      rw [← sq_abs w]
      linarith [sq_nonneg (Q - α * |w|), show (Q + α * |w|) ^ 2 + (Q - α * |w|) ^ 2 = 2 * (Q ^ 2 + α ^ 2 * |w| ^ 2) by ring]
    have c4 : (Q + β * |w|) ^ 2 ≤ 2 * (Q ^ 2 + β ^ 2 * w ^ 2) := by
      rw [← sq_abs w]
      linarith [sq_nonneg (Q - β * |w|), show (Q + β * |w|) ^ 2 + (Q - β * |w|) ^ 2 = 2 * (Q ^ 2 + β ^ 2 * |w| ^ 2) by ring]
    have c := cm_sq_le h1 h2 x y
    rw [← hQ] at c
    have d : m3 * (2 * (Q ^ 2 + α ^ 2 * w ^ 2)) + m4 * (2 * (Q ^ 2 + β ^ 2 * w ^ 2)) =
        2 * ((m1 + m2) * Q ^ 2 + mu * w ^ 2) := by
      linear_combination 2 * Q ^ 2 * hM + 2 * w ^ 2 * hmu
    linarith [mul_le_mul_of_nonneg_left c3 h3.le, mul_le_mul_of_nonneg_left c4 h4.le]
  have := mul_le_mul_of_nonneg_left b hg
  linarith

end

/-! ### Three products, one component -/

section

variable {m1 m2 m3 m4 m5 α₁ β₁ α₂ β₂ ρ₁ ρ₂ mu : ℝ}

/-- One component of the momentum. -/
theorem momentum3 {K : ℕ} (h1 : 0 < m1) (h2 : 0 < m2) (h3 : 0 < m3) (h4 : 0 < m4) (h5 : 0 < m5)
    (hM : m3 + (m4 + m5) = m1 + m2) (hα : m3 * α₁ = ρ₁) (hβ : (m4 + m5) * β₁ = ρ₁) (hα' : m4 * α₂ = ρ₂)
    (hβ' : m5 * β₂ = ρ₂) {x y w w' v3 v4 v5 : ℝ}
    (e3 : Err p K v3 (m1 / (m1 + m2) * x + m2 / (m1 + m2) * y + α₁ * w)
      (m1 / (m1 + m2) * |x| + m2 / (m1 + m2) * |y| + α₁ * |w|))
    (e4 : Err p K v4 (m1 / (m1 + m2) * x + m2 / (m1 + m2) * y - β₁ * w + α₂ * w')
      (m1 / (m1 + m2) * |x| + m2 / (m1 + m2) * |y| + β₁ * |w| + α₂ * |w'|))
    (e5 : Err p K v5 (m1 / (m1 + m2) * x + m2 / (m1 + m2) * y - β₁ * w - β₂ * w')
      (m1 / (m1 + m2) * |x| + m2 / (m1 + m2) * |y| + β₁ * |w| + β₂ * |w'|)) :
    |m3 * v3 + m4 * v4 + m5 * v5 - (m1 * x + m2 * y)| ≤
      (growth p K - 1) * (m1 * |x| + m2 * |y| + (2 * ρ₁ * |w| + 2 * ρ₂ * |w'|)) := by
  have hs : 0 < m1 + m2 := by positivity
  set P := m1 / (m1 + m2) * x + m2 / (m1 + m2) * y with hP
  set Q := m1 / (m1 + m2) * |x| + m2 / (m1 + m2) * |y| with hQ
  have hPe : (m1 + m2) * P = m1 * x + m2 * y := by rw [hP]; field_simp
  have hQe : (m1 + m2) * Q = m1 * |x| + m2 * |y| := by rw [hQ]; field_simp
  have e : m3 * v3 + m4 * v4 + m5 * v5 - (m1 * x + m2 * y) =
      m3 * (v3 - (P + α₁ * w)) + m4 * (v4 - (P - β₁ * w + α₂ * w')) + m5 * (v5 - (P - β₁ * w - β₂ * w')) := by
    linear_combination hPe + P * hM + w * hα - w * hβ + w' * hα' - w' * hβ'
  rw [e]
  refine ((abs_add_le _ _).trans (add_le_add_left (abs_add_le _ _) _)).trans ?_
  rw [abs_mul, abs_mul, abs_mul, abs_of_pos h3, abs_of_pos h4, abs_of_pos h5]
  have a3 := mul_le_mul_of_nonneg_left e3.err h3.le
  have a4 := mul_le_mul_of_nonneg_left e4.err h4.le
  have a5 := mul_le_mul_of_nonneg_left e5.err h5.le
  have e' : m3 * ((growth p K - 1) * (Q + α₁ * |w|)) + m4 * ((growth p K - 1) * (Q + β₁ * |w| + α₂ * |w'|)) +
        m5 * ((growth p K - 1) * (Q + β₁ * |w| + β₂ * |w'|)) =
      (growth p K - 1) * (m1 * |x| + m2 * |y| + (2 * ρ₁ * |w| + 2 * ρ₂ * |w'|)) := by
    linear_combination (growth p K - 1) * (hQe + Q * hM + |w| * hα + |w| * hβ + |w'| * hα' + |w'| * hβ')
  linarith

private theorem sq3 (a b c : ℝ) : (a + b + c) ^ 2 ≤ 3 * (a ^ 2 + b ^ 2 + c ^ 2) := by
  nlinarith [sq_nonneg (a - b), sq_nonneg (b - c), sq_nonneg (a - c)]

/-- One component of the energy. -/
theorem energy3 {K : ℕ} (h1 : 0 < m1) (h2 : 0 < m2) (h3 : 0 < m3) (h4 : 0 < m4) (h5 : 0 < m5)
    (hM : m3 + (m4 + m5) = m1 + m2) (hα : m3 * α₁ = ρ₁) (hβ : (m4 + m5) * β₁ = ρ₁) (hα' : m4 * α₂ = ρ₂)
    (hβ' : m5 * β₂ = ρ₂) (hmu : m3 * α₁ ^ 2 + (m4 + m5) * β₁ ^ 2 = mu) (hmu' : m4 * α₂ ^ 2 + m5 * β₂ ^ 2 = mu)
    {x y w w' v3 v4 v5 : ℝ}
    (e3 : Err p K v3 (m1 / (m1 + m2) * x + m2 / (m1 + m2) * y + α₁ * w)
      (m1 / (m1 + m2) * |x| + m2 / (m1 + m2) * |y| + α₁ * |w|))
    (e4 : Err p K v4 (m1 / (m1 + m2) * x + m2 / (m1 + m2) * y - β₁ * w + α₂ * w')
      (m1 / (m1 + m2) * |x| + m2 / (m1 + m2) * |y| + β₁ * |w| + α₂ * |w'|))
    (e5 : Err p K v5 (m1 / (m1 + m2) * x + m2 / (m1 + m2) * y - β₁ * w - β₂ * w')
      (m1 / (m1 + m2) * |x| + m2 / (m1 + m2) * |y| + β₁ * |w| + β₂ * |w'|)) :
    |m3 * v3 ^ 2 + m4 * v4 ^ 2 + m5 * v5 ^ 2 -
        ((m1 + m2) * (m1 / (m1 + m2) * x + m2 / (m1 + m2) * y) ^ 2 + mu * (w ^ 2 + w' ^ 2))| ≤
      3 * (growth p (2 * K) - 1) * (m1 * x ^ 2 + m2 * y ^ 2 + mu * (w ^ 2 + w' ^ 2)) := by
  set P := m1 / (m1 + m2) * x + m2 / (m1 + m2) * y with hP
  set Q := m1 / (m1 + m2) * |x| + m2 / (m1 + m2) * |y| with hQ
  have hg : 0 ≤ growth p (2 * K) - 1 := by linarith [growth_one_le (p := p) (2 * K)]
  have e : m3 * v3 ^ 2 + m4 * v4 ^ 2 + m5 * v5 ^ 2 - ((m1 + m2) * P ^ 2 + mu * (w ^ 2 + w' ^ 2)) =
      m3 * (v3 ^ 2 - (P + α₁ * w) ^ 2) + m4 * (v4 ^ 2 - (P - β₁ * w + α₂ * w') ^ 2) +
        m5 * (v5 ^ 2 - (P - β₁ * w - β₂ * w') ^ 2) := by
    linear_combination P ^ 2 * hM + w ^ 2 * hmu + w' ^ 2 * hmu' + 2 * P * w * hα - 2 * P * w * hβ +
      (2 * P * w' - 2 * β₁ * w * w') * hα' - (2 * P * w' - 2 * β₁ * w * w') * hβ'
  rw [e]
  refine ((abs_add_le _ _).trans (add_le_add_left (abs_add_le _ _) _)).trans ?_
  rw [abs_mul, abs_mul, abs_mul, abs_of_pos h3, abs_of_pos h4, abs_of_pos h5]
  have a3 := mul_le_mul_of_nonneg_left e3.sq h3.le
  have a4 := mul_le_mul_of_nonneg_left e4.sq h4.le
  have a5 := mul_le_mul_of_nonneg_left e5.sq h5.le
  have b : m3 * (Q + α₁ * |w|) ^ 2 + m4 * (Q + β₁ * |w| + α₂ * |w'|) ^ 2 + m5 * (Q + β₁ * |w| + β₂ * |w'|) ^ 2 ≤
      3 * (m1 * x ^ 2 + m2 * y ^ 2 + mu * (w ^ 2 + w' ^ 2)) := by
    have c3 : (Q + α₁ * |w|) ^ 2 ≤ 3 * (Q ^ 2 + α₁ ^ 2 * w ^ 2) := by
      have := sq3 Q (α₁ * |w|) 0
      rw [add_zero, mul_pow, sq_abs] at this
      linarith
    have c4 : (Q + β₁ * |w| + α₂ * |w'|) ^ 2 ≤ 3 * (Q ^ 2 + β₁ ^ 2 * w ^ 2 + α₂ ^ 2 * w' ^ 2) := by
      have := sq3 Q (β₁ * |w|) (α₂ * |w'|)
      rwa [mul_pow, mul_pow, sq_abs, sq_abs] at this
    have c5 : (Q + β₁ * |w| + β₂ * |w'|) ^ 2 ≤ 3 * (Q ^ 2 + β₁ ^ 2 * w ^ 2 + β₂ ^ 2 * w' ^ 2) := by
      have := sq3 Q (β₁ * |w|) (β₂ * |w'|)
      rwa [mul_pow, mul_pow, sq_abs, sq_abs] at this
    have c := cm_sq_le h1 h2 x y
    rw [← hQ] at c
    have d : m3 * (3 * (Q ^ 2 + α₁ ^ 2 * w ^ 2)) + m4 * (3 * (Q ^ 2 + β₁ ^ 2 * w ^ 2 + α₂ ^ 2 * w' ^ 2)) +
          m5 * (3 * (Q ^ 2 + β₁ ^ 2 * w ^ 2 + β₂ ^ 2 * w' ^ 2)) =
        3 * ((m1 + m2) * Q ^ 2 + mu * (w ^ 2 + w' ^ 2)) := by
      linear_combination 3 * Q ^ 2 * hM + 3 * w ^ 2 * hmu + 3 * w' ^ 2 * hmu'
    linarith [mul_le_mul_of_nonneg_left c3 h3.le, mul_le_mul_of_nonneg_left c4 h4.le, mul_le_mul_of_nonneg_left c5 h5.le]
  have := mul_le_mul_of_nonneg_left b hg
  linarith

end

/-! ### The relative speed afterwards -/

/-- The relative speed that an inelastic interaction gives. -/
theorem calcVRelR_spec {mu mu' dE : ℝ} (hr : Rel p 3 mu' mu) (v1 v2 : Vec) {sp : ℝ}
    (h : calcVRelR R.rd (decide (dE ≠ 0)) v1 v2 (dV2relR R.rd dE mu') = some sp) :
    0 ≤ sp ∧ sp ∈ FP p ∧
      Err p 8 (sp ^ 2) ((v1 - v2).normSq + dE / (1 / 2 * mu)) ((v1 - v2).normSq + |dE| / (1 / 2 * mu)) := by
  have hq := normSqR_rel R v1 v2
  by_cases hE : dE = 0
  · subst hE
    simp only [ne_eq, not_true, decide_false, calcVRelR, Bool.false_eq_true, if_false, Option.some.injEq] at h
    subst h
    refine ⟨(relSpeedR_rel R v1 v2).left_nonneg, R.mem _, ?_⟩
    rw [zero_div, abs_zero, zero_div, add_zero]
    exact (Err.of_rel (relSpeedR_sq R v1 v2)).mono (by omega) le_rfl
  · rw [decide_eq_true hE, calcVRelR, if_pos rfl, sqrtR] at h
    split_ifs at h with h0
    simp only [Option.some.injEq] at h
    subst h
    refine ⟨R.nonneg (Real.sqrt_nonneg _), R.mem _, ?_⟩
    have r1 : Rel p 4 (R.rd (1 / 2 * mu')) (1 / 2 * mu) :=
      R.rel_rd (((Rel.refl (by norm_num : (0 : ℝ) ≤ 1 / 2)).mul hr).mono (by omega))
    have e1 : Err p 5 (dV2relR R.rd dE mu') (dE / (1 / 2 * mu)) (|dE| / (1 / 2 * mu)) := by
      have := ((Err.of_rel r1.inv).mul (Err.refl dE)).rd R
      rw [mul_comm _ dE, mul_comm _ dE, mul_comm _ |dE|] at this
      exact this
    have e2 := (((Err.of_rel hq).add e1).rd R)
    have e3 : Rel p 2 (R.rd (Real.sqrt (R.rd (normSqR R.rd (vSub R.rd v1 v2) + dV2relR R.rd dE mu'))) ^ 2)
        (R.rd (normSqR R.rd (vSub R.rd v1 v2) + dV2relR R.rd dE mu')) := by
      have := R.rel_sq (Real.sqrt (R.rd (normSqR R.rd (vSub R.rd v1 v2) + dV2relR R.rd dE mu')))
      rwa [Real.sq_sqrt h0] at this
    exact e2.rel_trans e3

/-- The square of a vector whose length is the speed up to `θ`. -/
theorem length_err {k j : ℕ} {τ θ x s T M : ℝ} (h0 : 0 ≤ θ) (h1 : 1 - τ ≤ θ) (h2 : θ ≤ 1 + τ) (hs : Err p k s T M)
    (hx : Rel p j x (θ * s)) : |x - T| ≤ (growth p (k + j) * (1 + τ) - 1) * M := by
  have e : Err p k (θ * s) (θ * T) (θ * M) := by
    have := (Err.refl (p := p) θ).mul hs
    rwa [abs_of_nonneg h0, Nat.zero_add] at this
  have e2 := (e.rel_trans hx).err
  have e3 : |θ * T - T| ≤ τ * M := by
    rw [show θ * T - T = (θ - 1) * T by ring, abs_mul]
    exact mul_le_mul (abs_le.2 ⟨by linarith, by linarith⟩) hs.bound (abs_nonneg _) (by linarith)
  have e4 := abs_sub_le x (θ * T) T
  have e5 : (growth p (k + j) - 1) * (θ * M) ≤ (growth p (k + j) - 1) * ((1 + τ) * M) :=
    mul_le_mul_of_nonneg_left (mul_le_mul_of_nonneg_right h2 hs.nonneg) (by linarith [growth_one_le (p := p) (k + j)])
  nlinarith

/-- `1 + n (g - 1)` is at most `g ^ n`. -/
theorem growth_bernoulli (n k : ℕ) : 1 + n * (growth p k - 1) ≤ growth p (n * k) := by
  have := one_add_mul_le_pow (a := growth p k - 1) (by linarith [growth_pos (p := p) k]) n
  rw [show 1 + (growth p k - 1) = growth p k by ring] at this
  rw [growth, growth, mul_comm n k, pow_mul]
  exact this

/-- From the errors of the velocities and of the relative speed to that of the energy; `Sv` is twice the energy
afterwards, `X` that of the relative motion with the computed length. -/
theorem energy_total {c k : ℕ} {Sv X E D mu dE G : ℝ} (hG : 1 ≤ G) (hD : 0 ≤ mu * D) (hE : mu * D ≤ 2 * E)
    (hS : |Sv - (2 * E - mu * D + X)| ≤ c * (growth p k - 1) * (2 * E + X))
    (hX : |X - (mu * D + 2 * dE)| ≤ (G - 1) * (mu * D + 2 * |dE|)) :
    X ≤ 2 * G * (E + |dE|) ∧ |Sv - (2 * E + 2 * dE)| ≤ 2 * (growth p (2 * c * k) * G - 1) * (E + |dE|) := by
  have ha : 0 ≤ |dE| := abs_nonneg dE
  have hb := le_abs_self dE
  have hF : mu * D + 2 * |dE| ≤ 2 * (E + |dE|) := by linarith
  have hX1 : |X - (mu * D + 2 * dE)| ≤ (G - 1) * (2 * (E + |dE|)) :=
    hX.trans (mul_le_mul_of_nonneg_left hF (by linarith))
  have hX2 : X ≤ 2 * G * (E + |dE|) := by
    have := (abs_le.1 hX1).2
    nlinarith
  refine ⟨hX2, ?_⟩
  have hg : 0 ≤ growth p k - 1 := by linarith [growth_one_le (p := p) k]
  have h1 : c * (growth p k - 1) * (2 * E + X) ≤ c * (growth p k - 1) * (2 * (1 + G) * (E + |dE|)) :=
    mul_le_mul_of_nonneg_left (by nlinarith) (by positivity)
  have h2 : |Sv - (2 * E + 2 * dE)| ≤
      c * (growth p k - 1) * (2 * (1 + G) * (E + |dE|)) + (G - 1) * (2 * (E + |dE|)) := by
    have := abs_sub_le Sv (2 * E - mu * D + X) (2 * E + 2 * dE)
    rw [show 2 * E - mu * D + X - (2 * E + 2 * dE) = X - (mu * D + 2 * dE) by ring] at this
    linarith
  refine h2.trans ?_
  have h3 := growth_bernoulli (p := p) (2 * c) k
  push_cast at h3
  have hF0 : 0 ≤ E + |dE| := by linarith
  have h4 : c * (growth p k - 1) * (1 + G) + (G - 1) ≤ growth p (2 * c * k) * G - 1 := by
    have h5 : (1 + 2 * c * (growth p k - 1)) * G ≤ growth p (2 * c * k) * G :=
      mul_le_mul_of_nonneg_right h3 (by linarith)
    have h6 : c * (growth p k - 1) * (1 + G) ≤ c * (growth p k - 1) * (2 * G) :=
      mul_le_mul_of_nonneg_left (by linarith) (by positivity)
    linarith
  have := mul_le_mul_of_nonneg_right h4 hF0
  linarith

/-- From one component of the momentum to the bound by the energy. -/
theorem momentum_total {K : ℕ} {m1 m2 x y E F G Y Z c : ℝ} (h1 : 0 < m1) (h2 : 0 < m2) (hG : 1 ≤ G) (hc : 1 ≤ c)
    (hEF : E ≤ F) (hxy : m1 * x ^ 2 + m2 * y ^ 2 ≤ 2 * E) (hY : Y ^ 2 ≤ c ^ 2 * ((m1 + m2) * (2 * G * F)))
    (hZ : Z ≤ (growth p K - 1) * (m1 * |x| + m2 * |y| + Y)) :
    Z ≤ (1 + c) * (growth p K * G - 1) * Real.sqrt (2 * (m1 + m2) * F) := by
  have hs : 0 < m1 + m2 := by positivity
  have hg : 0 ≤ growth p K - 1 := by linarith [growth_one_le (p := p) K]
  have hE0 : 0 ≤ E := by
    have : 0 ≤ m1 * x ^ 2 + m2 * y ^ 2 := by positivity
    linarith
  have hF0 : 0 ≤ 2 * (m1 + m2) * F := mul_nonneg (by positivity) (hE0.trans hEF)
  have a : m1 * |x| + m2 * |y| ≤ Real.sqrt (2 * (m1 + m2) * F) := by
    apply Real.le_sqrt_of_sq_le
    have e : (m1 * |x| + m2 * |y|) ^ 2 = (m1 + m2) * (m1 * x ^ 2 + m2 * y ^ 2) - m1 * m2 * (|x| - |y|) ^ 2 := by
      rw [← sq_abs x, ← sq_abs y]; ring
    have : 0 ≤ m1 * m2 * (|x| - |y|) ^ 2 := by positivity
    nlinarith
  have b : Y ≤ c * G * Real.sqrt (2 * (m1 + m2) * F) := by
    have hcG : 0 ≤ c * G := by positivity
    rw [← Real.sqrt_sq hcG, ← Real.sqrt_mul (sq_nonneg (c * G))]
    apply Real.le_sqrt_of_sq_le
    have : G * (2 * (m1 + m2) * F) ≤ G ^ 2 * (2 * (m1 + m2) * F) := by
      rw [pow_two, mul_assoc]
      have := mul_le_mul_of_nonneg_right hG (mul_nonneg (by linarith : 0 ≤ G) hF0)
      linarith
    have := mul_le_mul_of_nonneg_left this (sq_nonneg c)
    linarith
  have r0 := Real.sqrt_nonneg (2 * (m1 + m2) * F)
  calc Z ≤ (growth p K - 1) * (m1 * |x| + m2 * |y| + Y) := hZ
    _ ≤ (growth p K - 1) * ((1 + c * G) * Real.sqrt (2 * (m1 + m2) * F)) :=
      mul_le_mul_of_nonneg_left (by linarith) hg
    _ = ((growth p K - 1) * (1 + c * G)) * Real.sqrt (2 * (m1 + m2) * F) := by ring
    _ ≤ _ := by
      refine mul_le_mul_of_nonneg_right ?_ r0
      have h3 : (growth p K - 1) * (1 + c * G) ≤ (growth p K - 1) * ((1 + c) * G) :=
        mul_le_mul_of_nonneg_left (by nlinarith) hg
      have h4 : 0 ≤ (1 + c) * (G - 1) := mul_nonneg (by linarith) (by linarith)
      linarith

/-! ### The whole vectors -/

/-- Two vectors agree in each component within `δ`. -/
def Vec.Within (δ : ℝ) (a b : Vec) : Prop := |a.x - b.x| ≤ δ ∧ |a.y - b.y| ≤ δ ∧ |a.z - b.z| ≤ δ

theorem four_mul_le {m n ρ α β mu : ℝ} (hm : 0 < m) (hn : 0 < n) (hα : m * α = ρ) (hβ : n * β = ρ)
    (hmu : m * α ^ 2 + n * β ^ 2 = mu) : 4 * ρ ^ 2 ≤ (m + n) * mu := by
  have e : (m + n) * mu = (m * α - n * β) ^ 2 + m * n * (α - β) ^ 2 + 4 * (m * α * (n * β)) := by
    rw [← hmu]; ring
  rw [hα, hβ] at e
  have : 0 ≤ m * n * (α - β) ^ 2 := by positivity
  nlinarith

/-- Energy and momentum of two products. -/
theorem two_products {m1 m2 m3 m4 α β α' β' ρ mu a' b' G dE : ℝ} {j K : ℕ} (h1 : 0 < m1) (h2 : 0 < m2) (h3 : 0 < m3)
    (h4 : 0 < m4) (hM : m3 + m4 = m1 + m2) (hmu0 : mu = m1 * m2 / (m1 + m2)) (hα : m3 * α = ρ) (hβ : m4 * β = ρ)
    (hmu : m3 * α ^ 2 + m4 * β ^ 2 = mu) (rα : Rel p j α' α) (rβ : Rel p j β' β)
    (ra : Rel p 3 a' (m2 / (m1 + m2))) (rb : Rel p 3 b' (m1 / (m1 + m2))) (hK : 6 ≤ K) (hj : j + 2 ≤ K) (hG : 1 ≤ G)
    (v1 v2 w : Vec)
    (hw : |w.normSq - ((v1 - v2).normSq + dE / (1 / 2 * mu))| ≤
      (G - 1) * ((v1 - v2).normSq + |dE| / (1 / 2 * mu))) :
    let cm := vAdd R.rd (vScale R.rd b' v1) (vScale R.rd a' v2)
    let w1 := vAdd R.rd cm (vScale R.rd α' w)
    let w2 := vSub R.rd cm (vScale R.rd β' w)
    let F := ke m1 v1 + ke m2 v2 + |dE|
    Vec.Within (2 * (growth p K * G - 1) * Real.sqrt (2 * (m1 + m2) * F)) (m3 • w1 + m4 • w2) (m1 • v1 + m2 • v2) ∧
    |ke m3 w1 + ke m4 w2 - (ke m1 v1 + ke m2 v2 + dE)| ≤ (growth p (8 * K) * G - 1) * F := by
  intro cm w1 w2 F
  have hs : 0 < m1 + m2 := by positivity
  have hmup : 0 < mu := by rw [hmu0]; positivity
  have comp : ∀ x y u : ℝ,
      Err p K (R.rd (R.rd (R.rd (b' * x) + R.rd (a' * y)) + R.rd (α' * u)))
        (m1 / (m1 + m2) * x + m2 / (m1 + m2) * y + α * u)
        (m1 / (m1 + m2) * |x| + m2 / (m1 + m2) * |y| + α * |u|) ∧
      Err p K (R.rd (R.rd (R.rd (b' * x) + R.rd (a' * y)) - R.rd (β' * u)))
        (m1 / (m1 + m2) * x + m2 / (m1 + m2) * y - β * u)
        (m1 / (m1 + m2) * |x| + m2 / (m1 + m2) * |y| + β * |u|) := fun x y u =>
    ⟨(err_post R (err_cm R ra rb x y) rα (by omega) hj u).1, (err_post R (err_cm R ra rb x y) rβ (by omega) hj u).2⟩
  have mom := fun x y u : ℝ => momentum2 h1 h2 h3 h4 hM hα hβ (comp x y u).1 (comp x y u).2
  have en := fun x y u : ℝ => energy2 h1 h2 h3 h4 hM hα hβ hmu (comp x y u).1 (comp x y u).2
  set D := (v1 - v2).normSq with hD
  have hDe : D = (v1.x - v2.x) ^ 2 + (v1.y - v2.y) ^ 2 + (v1.z - v2.z) ^ 2 := rfl
  have hD0 : 0 ≤ D := by rw [hDe]; positivity
  have hcm : ∀ x y : ℝ, (m1 + m2) * (m1 / (m1 + m2) * x + m2 / (m1 + m2) * y) ^ 2 =
      m1 * x ^ 2 + m2 * y ^ 2 - mu * (x - y) ^ 2 := by
    intro x y; rw [hmu0]; field_simp; ring
  set E := ke m1 v1 + ke m2 v2 with hE
  have hEe : 2 * E = m1 * v1.x ^ 2 + m2 * v2.x ^ 2 + (m1 * v1.y ^ 2 + m2 * v2.y ^ 2) + (m1 * v1.z ^ 2 + m2 * v2.z ^ 2) := by
    rw [hE]; simp only [ke, Vec.normSq]; ring
  have hX : |mu * w.normSq - (mu * D + 2 * dE)| ≤ (G - 1) * (mu * D + 2 * |dE|) := by
    have e1 : mu * w.normSq - (mu * D + 2 * dE) = mu * (w.normSq - (D + dE / (1 / 2 * mu))) := by field_simp
    have e2 : (G - 1) * (mu * D + 2 * |dE|) = mu * ((G - 1) * (D + |dE| / (1 / 2 * mu))) := by field_simp
    rw [e1, e2, abs_mul, abs_of_pos hmup]
    exact mul_le_mul_of_nonneg_left hw hmup.le
  have hDE : mu * D ≤ 2 * E := by
    have c1 := hcm v1.x v2.x
    have c2 := hcm v1.y v2.y
    have c3 := hcm v1.z v2.z
    have d1 : 0 ≤ (m1 + m2) * (m1 / (m1 + m2) * v1.x + m2 / (m1 + m2) * v2.x) ^ 2 := by positivity
    have d2 : 0 ≤ (m1 + m2) * (m1 / (m1 + m2) * v1.y + m2 / (m1 + m2) * v2.y) ^ 2 := by positivity
    have d3 : 0 ≤ (m1 + m2) * (m1 / (m1 + m2) * v1.z + m2 / (m1 + m2) * v2.z) ^ 2 := by positivity
    rw [hDe, hEe]
    linarith
  have hS : |(2 * (ke m3 w1 + ke m4 w2)) - (2 * E - mu * D + mu * w.normSq)| ≤
      ((2 : ℕ) : ℝ) * (growth p (2 * K) - 1) * (2 * E + mu * w.normSq) := by
    have a1 := en v1.x v2.x w.x
    have a2 := en v1.y v2.y w.y
    have a3 := en v1.z v2.z w.z
    rw [hcm] at a1 a2 a3
    have e : 2 * (ke m3 w1 + ke m4 w2) - (2 * E - mu * D + mu * w.normSq) =
        (m3 * w1.x ^ 2 + m4 * w2.x ^ 2 - (m1 * v1.x ^ 2 + m2 * v2.x ^ 2 - mu * (v1.x - v2.x) ^ 2 + mu * w.x ^ 2)) +
        (m3 * w1.y ^ 2 + m4 * w2.y ^ 2 - (m1 * v1.y ^ 2 + m2 * v2.y ^ 2 - mu * (v1.y - v2.y) ^ 2 + mu * w.y ^ 2)) +
        (m3 * w1.z ^ 2 + m4 * w2.z ^ 2 - (m1 * v1.z ^ 2 + m2 * v2.z ^ 2 - mu * (v1.z - v2.z) ^ 2 + mu * w.z ^ 2)) := by
      rw [hEe, hDe]; simp only [ke, Vec.normSq]; ring
    rw [e]
    refine ((abs_add_le _ _).trans (add_le_add_left (abs_add_le _ _) _)).trans ?_
    refine (add_le_add (add_le_add a1 a2) a3).trans (le_of_eq ?_)
    rw [hEe]; simp only [Vec.normSq]; push_cast; ring
  obtain ⟨hXle, hfin⟩ := energy_total hG (by positivity) hDE hS hX
  have hF : E + |dE| = F := rfl
  rw [hF] at hXle hfin
  have hw0 : 0 ≤ mu * w.x ^ 2 ∧ 0 ≤ mu * w.y ^ 2 ∧ 0 ≤ mu * w.z ^ 2 := ⟨by positivity, by positivity, by positivity⟩
  have hX3 : mu * w.normSq = mu * w.x ^ 2 + mu * w.y ^ 2 + mu * w.z ^ 2 := by simp only [Vec.normSq]; ring
  have q1 : 0 ≤ m1 * v1.x ^ 2 + m2 * v2.x ^ 2 := by positivity
  have q2 : 0 ≤ m1 * v1.y ^ 2 + m2 * v2.y ^ 2 := by positivity
  have q3 : 0 ≤ m1 * v1.z ^ 2 + m2 * v2.z ^ 2 := by positivity
  have hρ := four_mul_le h3 h4 hα hβ hmu
  rw [hM] at hρ
  have hEF : E ≤ F := by rw [← hF]; linarith [abs_nonneg dE]
  have mt : ∀ x y u Z : ℝ, m1 * x ^ 2 + m2 * y ^ 2 ≤ 2 * E → mu * u ^ 2 ≤ 2 * G * F →
      Z ≤ (growth p K - 1) * (m1 * |x| + m2 * |y| + 2 * ρ * |u|) →
      Z ≤ 2 * (growth p K * G - 1) * Real.sqrt (2 * (m1 + m2) * F) := by
    intro x y u Z hxy hu hZ
    have := momentum_total (c := 1) h1 h2 hG le_rfl hEF hxy (Y := 2 * ρ * |u|) ?_ hZ
    · rwa [show (1 : ℝ) + 1 = 2 by norm_num] at this
    · rw [mul_pow, sq_abs]
      have t1 := mul_le_mul_of_nonneg_right hρ (sq_nonneg u)
      have t2 := mul_le_mul_of_nonneg_left hu hs.le
      linarith
  refine ⟨⟨?_, ?_, ?_⟩, ?_⟩
  · exact mt _ _ _ _ (by rw [hEe]; linarith) (by linarith [hw0.2.1, hw0.2.2]) (mom v1.x v2.x w.x)
  · exact mt _ _ _ _ (by rw [hEe]; linarith) (by linarith [hw0.1, hw0.2.2]) (mom v1.y v2.y w.y)
  · exact mt _ _ _ _ (by rw [hEe]; linarith) (by linarith [hw0.1, hw0.2.1]) (mom v1.z v2.z w.z)
  · rw [show 2 * (ke m3 w1 + ke m4 w2) - (2 * E + 2 * dE) = 2 * (ke m3 w1 + ke m4 w2 - (E + dE)) by ring, abs_mul,
      abs_of_pos two_pos, show 2 * 2 * (2 * K) = 8 * K by ring] at hfin
    linarith

/-- Energy and momentum of three products. -/
theorem three_products {m1 m2 m3 m4 m5 α β α' β' ρ γ δ γ' δ' σ mu a' b' G dE : ℝ} {j K : ℕ} (h1 : 0 < m1) (h2 : 0 < m2)
    (h3 : 0 < m3) (h4 : 0 < m4) (h5 : 0 < m5) (hM : m3 + (m4 + m5) = m1 + m2) (hmu0 : mu = m1 * m2 / (m1 + m2))
    (hα : m3 * α = ρ) (hβ : (m4 + m5) * β = ρ) (hγ : m4 * γ = σ) (hδ : m5 * δ = σ)
    (hmu : m3 * α ^ 2 + (m4 + m5) * β ^ 2 = mu) (hmu' : m4 * γ ^ 2 + m5 * δ ^ 2 = mu)
    (rα : Rel p j α' α) (rβ : Rel p j β' β) (rγ : Rel p j γ' γ) (rδ : Rel p j δ' δ)
    (ra : Rel p 3 a' (m2 / (m1 + m2))) (rb : Rel p 3 b' (m1 / (m1 + m2))) (hK : 7 ≤ K) (hj : j + 3 ≤ K) (hG : 1 ≤ G)
    (v1 v2 w u : Vec)
    (hw : |w.normSq + u.normSq - ((v1 - v2).normSq + dE / (1 / 2 * mu))| ≤
      (G - 1) * ((v1 - v2).normSq + |dE| / (1 / 2 * mu))) :
    let cm := vAdd R.rd (vScale R.rd b' v1) (vScale R.rd a' v2)
    let w1 := vAdd R.rd cm (vScale R.rd α' w)
    let cm' := vSub R.rd cm (vScale R.rd β' w)
    let w2 := vAdd R.rd cm' (vScale R.rd γ' u)
    let w3 := vSub R.rd cm' (vScale R.rd δ' u)
    let F := ke m1 v1 + ke m2 v2 + |dE|
    Vec.Within (3 * (growth p K * G - 1) * Real.sqrt (2 * (m1 + m2) * F)) (m3 • w1 + m4 • w2 + m5 • w3) (m1 • v1 + m2 • v2) ∧
    |ke m3 w1 + ke m4 w2 + ke m5 w3 - (ke m1 v1 + ke m2 v2 + dE)| ≤ (growth p (12 * K) * G - 1) * F := by
  intro cm w1 cm' w2 w3 F
  have hs : 0 < m1 + m2 := by positivity
  have hmup : 0 < mu := by rw [hmu0]; positivity
  have comp : ∀ x y r r' : ℝ,
      Err p K (R.rd (R.rd (R.rd (b' * x) + R.rd (a' * y)) + R.rd (α' * r)))
        (m1 / (m1 + m2) * x + m2 / (m1 + m2) * y + α * r)
        (m1 / (m1 + m2) * |x| + m2 / (m1 + m2) * |y| + α * |r|) ∧
      Err p K (R.rd (R.rd (R.rd (R.rd (b' * x) + R.rd (a' * y)) - R.rd (β' * r)) + R.rd (γ' * r')))
        (m1 / (m1 + m2) * x + m2 / (m1 + m2) * y - β * r + γ * r')
        (m1 / (m1 + m2) * |x| + m2 / (m1 + m2) * |y| + β * |r| + γ * |r'|) ∧
      Err p K (R.rd (R.rd (R.rd (R.rd (b' * x) + R.rd (a' * y)) - R.rd (β' * r)) - R.rd (δ' * r')))
        (m1 / (m1 + m2) * x + m2 / (m1 + m2) * y - β * r - δ * r')
        (m1 / (m1 + m2) * |x| + m2 / (m1 + m2) * |y| + β * |r| + δ * |r'|) := by
    intro x y r r'
    obtain ⟨L, rfl⟩ : ∃ L, K = L + 1 := ⟨K - 1, by omega⟩
    have c := (err_post R (err_cm R ra rb x y) rβ (by omega : 5 + 1 ≤ L) (by omega) r).2
    exact ⟨(err_post R (err_cm R ra rb x y) rα (by omega) (by omega) r).1,
      (err_post R c rγ (by omega) (by omega) r').1, (err_post R c rδ (by omega) (by omega) r').2⟩
  have mom := fun x y r r' : ℝ =>
    momentum3 h1 h2 h3 h4 h5 hM hα hβ hγ hδ (comp x y r r').1 (comp x y r r').2.1 (comp x y r r').2.2
  have en := fun x y r r' : ℝ =>
    energy3 h1 h2 h3 h4 h5 hM hα hβ hγ hδ hmu hmu' (comp x y r r').1 (comp x y r r').2.1 (comp x y r r').2.2
  set D := (v1 - v2).normSq with hD
  have hDe : D = (v1.x - v2.x) ^ 2 + (v1.y - v2.y) ^ 2 + (v1.z - v2.z) ^ 2 := rfl
  have hD0 : 0 ≤ D := by rw [hDe]; positivity
  have hcm : ∀ x y : ℝ, (m1 + m2) * (m1 / (m1 + m2) * x + m2 / (m1 + m2) * y) ^ 2 =
      m1 * x ^ 2 + m2 * y ^ 2 - mu * (x - y) ^ 2 := by
    intro x y; rw [hmu0]; field_simp; ring
  set E := ke m1 v1 + ke m2 v2 with hE
  have hEe : 2 * E = m1 * v1.x ^ 2 + m2 * v2.x ^ 2 + (m1 * v1.y ^ 2 + m2 * v2.y ^ 2) + (m1 * v1.z ^ 2 + m2 * v2.z ^ 2) := by
    rw [hE]; simp only [ke, Vec.normSq]; ring
  have hX : |mu * (w.normSq + u.normSq) - (mu * D + 2 * dE)| ≤ (G - 1) * (mu * D + 2 * |dE|) := by
    have e1 : mu * (w.normSq + u.normSq) - (mu * D + 2 * dE) = mu * (w.normSq + u.normSq - (D + dE / (1 / 2 * mu))) := by field_simp
    have e2 : (G - 1) * (mu * D + 2 * |dE|) = mu * ((G - 1) * (D + |dE| / (1 / 2 * mu))) := by field_simp
    rw [e1, e2, abs_mul, abs_of_pos hmup]
    exact mul_le_mul_of_nonneg_left hw hmup.le
  have hDE : mu * D ≤ 2 * E := by
    have c1 := hcm v1.x v2.x
    have c2 := hcm v1.y v2.y
    have c3 := hcm v1.z v2.z
    have d1 : 0 ≤ (m1 + m2) * (m1 / (m1 + m2) * v1.x + m2 / (m1 + m2) * v2.x) ^ 2 := by positivity
    have d2 : 0 ≤ (m1 + m2) * (m1 / (m1 + m2) * v1.y + m2 / (m1 + m2) * v2.y) ^ 2 := by positivity
    have d3 : 0 ≤ (m1 + m2) * (m1 / (m1 + m2) * v1.z + m2 / (m1 + m2) * v2.z) ^ 2 := by positivity
    rw [hDe, hEe]
    linarith
  have hS : |(2 * (ke m3 w1 + ke m4 w2 + ke m5 w3)) - (2 * E - mu * D + mu * (w.normSq + u.normSq))| ≤
      ((3 : ℕ) : ℝ) * (growth p (2 * K) - 1) * (2 * E + mu * (w.normSq + u.normSq)) := by
    have a1 := en v1.x v2.x w.x u.x
    have a2 := en v1.y v2.y w.y u.y
    have a3 := en v1.z v2.z w.z u.z
    rw [hcm] at a1 a2 a3
    have e : 2 * (ke m3 w1 + ke m4 w2 + ke m5 w3) - (2 * E - mu * D + mu * (w.normSq + u.normSq)) =
        (m3 * w1.x ^ 2 + m4 * w2.x ^ 2 + m5 * w3.x ^ 2 - (m1 * v1.x ^ 2 + m2 * v2.x ^ 2 - mu * (v1.x - v2.x) ^ 2 + mu * (w.x ^ 2 + u.x ^ 2))) +
        (m3 * w1.y ^ 2 + m4 * w2.y ^ 2 + m5 * w3.y ^ 2 - (m1 * v1.y ^ 2 + m2 * v2.y ^ 2 - mu * (v1.y - v2.y) ^ 2 + mu * (w.y ^ 2 + u.y ^ 2))) +
        (m3 * w1.z ^ 2 + m4 * w2.z ^ 2 + m5 * w3.z ^ 2 - (m1 * v1.z ^ 2 + m2 * v2.z ^ 2 - mu * (v1.z - v2.z) ^ 2 + mu * (w.z ^ 2 + u.z ^ 2))) := by
      rw [hEe, hDe]; simp only [ke, Vec.normSq]; ring
    rw [e]
    refine ((abs_add_le _ _).trans (add_le_add_left (abs_add_le _ _) _)).trans ?_
    refine (add_le_add (add_le_add a1 a2) a3).trans (le_of_eq ?_)
    rw [hEe]; simp only [Vec.normSq]; push_cast; ring
  obtain ⟨hXle, hfin⟩ := energy_total hG (by positivity) hDE hS hX
  have hF : E + |dE| = F := rfl
  rw [hF] at hXle hfin
  have hw0 : 0 ≤ mu * (w.x ^ 2 + u.x ^ 2) ∧ 0 ≤ mu * (w.y ^ 2 + u.y ^ 2) ∧ 0 ≤ mu * (w.z ^ 2 + u.z ^ 2) := ⟨by positivity, by positivity, by positivity⟩
  have hX3 : mu * (w.normSq + u.normSq) =
      mu * (w.x ^ 2 + u.x ^ 2) + mu * (w.y ^ 2 + u.y ^ 2) + mu * (w.z ^ 2 + u.z ^ 2) := by simp only [Vec.normSq]; ring
  have q1 : 0 ≤ m1 * v1.x ^ 2 + m2 * v2.x ^ 2 := by positivity
  have q2 : 0 ≤ m1 * v1.y ^ 2 + m2 * v2.y ^ 2 := by positivity
  have q3 : 0 ≤ m1 * v1.z ^ 2 + m2 * v2.z ^ 2 := by positivity
  have hρ := four_mul_le h3 (by positivity : 0 < m4 + m5) hα hβ hmu
  rw [hM] at hρ
  have hσ : 4 * σ ^ 2 ≤ (m1 + m2) * mu := by
    refine (four_mul_le h4 h5 hγ hδ hmu').trans (mul_le_mul_of_nonneg_right (by linarith) hmup.le)
  have hEF : E ≤ F := by rw [← hF]; linarith [abs_nonneg dE]
  have mt : ∀ x y r r' Z : ℝ, m1 * x ^ 2 + m2 * y ^ 2 ≤ 2 * E → mu * (r ^ 2 + r' ^ 2) ≤ 2 * G * F →
      Z ≤ (growth p K - 1) * (m1 * |x| + m2 * |y| + (2 * ρ * |r| + 2 * σ * |r'|)) →
      Z ≤ 3 * (growth p K * G - 1) * Real.sqrt (2 * (m1 + m2) * F) := by
    intro x y r r' Z hxy hu hZ
    have := momentum_total (c := 2) h1 h2 hG one_le_two hEF hxy (Y := 2 * ρ * |r| + 2 * σ * |r'|) ?_ hZ
    · rwa [show (1 : ℝ) + 2 = 3 by norm_num] at this
    · have t0 : (2 * ρ * |r| + 2 * σ * |r'|) ^ 2 ≤ 2 * (4 * ρ ^ 2 * r ^ 2 + 4 * σ ^ 2 * r' ^ 2) := by
        rw [← sq_abs r, ← sq_abs r']
        linarith [sq_nonneg (2 * ρ * |r| - 2 * σ * |r'|),
          show (2 * ρ * |r| + 2 * σ * |r'|) ^ 2 + (2 * ρ * |r| - 2 * σ * |r'|) ^ 2 =
            2 * (4 * ρ ^ 2 * |r| ^ 2 + 4 * σ ^ 2 * |r'| ^ 2) by ring]
      have t1 := mul_le_mul_of_nonneg_right hρ (sq_nonneg r)
      have t2 := mul_le_mul_of_nonneg_right hσ (sq_nonneg r')
      have t3 := mul_le_mul_of_nonneg_left hu hs.le
      have t4 : 0 ≤ (m1 + m2) * (mu * (r ^ 2 + r' ^ 2)) := by positivity
      linarith
  refine ⟨⟨?_, ?_, ?_⟩, ?_⟩
  · exact mt _ _ _ _ _ (by rw [hEe]; linarith) (by linarith [hw0.2.1, hw0.2.2]) (mom v1.x v2.x w.x u.x)
  · exact mt _ _ _ _ _ (by rw [hEe]; linarith) (by linarith [hw0.1, hw0.2.2]) (mom v1.y v2.y w.y u.y)
  · exact mt _ _ _ _ _ (by rw [hEe]; linarith) (by linarith [hw0.1, hw0.2.1]) (mom v1.z v2.z w.z u.z)
  · rw [show 2 * (ke m3 w1 + ke m4 w2 + ke m5 w3) - (2 * E + 2 * dE) = 2 * (ke m3 w1 + ke m4 w2 + ke m5 w3 - (E + dE)) by ring, abs_mul,
      abs_of_pos two_pos, show 2 * 3 * (2 * K) = 12 * K by ring] at hfin
    linarith

end Chimp
