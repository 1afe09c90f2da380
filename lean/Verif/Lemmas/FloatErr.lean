import Verif.Lemmas.Float
import Mathlib.Analysis.SpecialFunctions.Pow.NNReal
import Mathlib.Analysis.SpecialFunctions.Sqrt

/-!
# Propagation of rounding errors

`Rel p k x y`: the nonnegative numbers `x` and `y` differ by at most `k` factors `1 + 2 ^ -p`.  `Err p k x y M`: `x` is
within `(1 + 2 ^ -p) ^ k - 1` times `M` of `y`, where `M` bounds `y`.
-/

namespace Chimp

variable {p : ℕ}

/-- `k` factors of `1 + 2 ^ -p`. -/
noncomputable def growth (p k : ℕ) : ℝ := (1 + unitError p) ^ k

theorem growth_one_le (k : ℕ) : 1 ≤ growth p k := one_le_pow₀ (by linarith [unitError_pos (p := p)])

theorem growth_pos (k : ℕ) : 0 < growth p k := lt_of_lt_of_le one_pos (growth_one_le k)

theorem growth_zero : growth p 0 = 1 := by simp [growth]

theorem growth_add (j k : ℕ) : growth p (j + k) = growth p j * growth p k := pow_add _ _ _

theorem growth_mono {j k : ℕ} (h : j ≤ k) : growth p j ≤ growth p k :=
  pow_le_pow_right₀ (by linarith [unitError_pos (p := p)]) h

theorem growth_one : growth p 1 = 1 + unitError p := by simp [growth]

/-- `k` factors are hardly more than `k` times the error of one. -/
theorem growth_sub_one_le (k : ℕ) (hk : (k : ℝ) ^ 2 * unitError p ≤ 1) : growth p k - 1 ≤ (k + 1) * unitError p := by
  have he := unitError_pos (p := p)
  have key : ∀ j : ℕ, j ≤ k → growth p j ≤ 1 + j * unitError p + j ^ 2 * unitError p ^ 2 := by
    intro j
    induction j with
    | zero => intro; simp [growth]
    | succ j ih =>
      intro hj
      have h1 := ih (by omega)
      rw [growth_add, growth_one]
      have h2 : (j : ℝ) ≤ k := by exact_mod_cast (by omega : j ≤ k)
      have h3 : (j : ℝ) ^ 2 * unitError p ≤ 1 := 
        (mul_le_mul_of_nonneg_right (pow_le_pow_left₀ (Nat.cast_nonneg j) h2 2) he.le).trans hk
      have h4 := mul_le_mul_of_nonneg_right h1 (by linarith : 0 ≤ 1 + unitError p)
      refine h4.trans ?_
      push_cast
      have h5 : (j : ℝ) ^ 2 * unitError p * unitError p ^ 2 ≤ 1 * unitError p ^ 2 :=
        mul_le_mul_of_nonneg_right h3 (by positivity)
      nlinarith [mul_nonneg (Nat.cast_nonneg j : (0 : ℝ) ≤ j) (sq_nonneg (unitError p))]
  have := key k le_rfl
  nlinarith

/-! ### Relative errors of nonnegative numbers -/

/-- `x` and `y` differ by at most `k` factors. -/
structure Rel (p k : ℕ) (x y : ℝ) : Prop where
  nonneg : 0 ≤ y
  le : x ≤ growth p k * y
  ge : y ≤ growth p k * x

namespace Rel

variable {j k : ℕ} {x y x' y' z : ℝ}

theorem left_nonneg (h : Rel p k x y) : 0 ≤ x := by
  by_contra hc
  have := h.ge
  nlinarith [h.nonneg, growth_pos (p := p) k]

theorem refl (h : 0 ≤ x) : Rel p 0 x x := ⟨h, by simp [growth_zero], by simp [growth_zero]⟩

theorem mono (h : Rel p j x y) (hjk : j ≤ k) : Rel p k x y :=
  ⟨h.nonneg, h.le.trans (mul_le_mul_of_nonneg_right (growth_mono hjk) h.nonneg),
    h.ge.trans (mul_le_mul_of_nonneg_right (growth_mono hjk) h.left_nonneg)⟩

theorem symm (h : Rel p k x y) : Rel p k y x := ⟨h.left_nonneg, h.ge, h.le⟩

theorem trans (h : Rel p j x y) (h' : Rel p k y z) : Rel p (j + k) x z := by
  refine ⟨h'.nonneg, ?_, ?_⟩
  · rw [growth_add, mul_assoc]
    exact h.le.trans (mul_le_mul_of_nonneg_left h'.le (growth_pos j).le)
  · rw [growth_add, mul_comm (growth p j), mul_assoc]
    exact h'.ge.trans (mul_le_mul_of_nonneg_left h.ge (growth_pos k).le)

theorem mul (h : Rel p j x y) (h' : Rel p k x' y') : Rel p (j + k) (x * x') (y * y') := by
  refine ⟨mul_nonneg h.nonneg h'.nonneg, ?_, ?_⟩
  · calc x * x' ≤ (growth p j * y) * (growth p k * y') :=
        mul_le_mul h.le h'.le h'.left_nonneg (mul_nonneg (growth_pos j).le h.nonneg)
      _ = growth p (j + k) * (y * y') := by rw [growth_add]; ring
  · calc y * y' ≤ (growth p j * x) * (growth p k * x') :=
        mul_le_mul h.ge h'.ge h'.nonneg (mul_nonneg (growth_pos j).le h.left_nonneg)
      _ = growth p (j + k) * (x * x') := by rw [growth_add]; ring

theorem add (h : Rel p k x y) (h' : Rel p k x' y') : Rel p k (x + x') (y + y') :=
  ⟨add_nonneg h.nonneg h'.nonneg, by linarith [h.le, h'.le], by linarith [h.ge, h'.ge]⟩

theorem pos (h : Rel p k x y) (hy : 0 < y) : 0 < x := by
  by_contra hc
  nlinarith [h.ge, growth_pos (p := p) k]

theorem inv (h : Rel p k x y) : Rel p k x⁻¹ y⁻¹ := by
  rcases h.nonneg.lt_or_eq with hy | hy
  · have hx := h.pos hy
    refine ⟨by positivity, ?_, ?_⟩
    · rw [← div_eq_mul_inv, le_div_iff₀ hy, inv_mul_le_iff₀ hx, mul_comm]
      exact h.ge
    · rw [← div_eq_mul_inv, le_div_iff₀ hx, inv_mul_le_iff₀ hy, mul_comm]
      exact h.le
  · subst hy
    have hx : x = 0 := le_antisymm (by simpa using h.le) h.left_nonneg
    subst hx
    exact ⟨by simp, by simp, by simp⟩

theorem div (h : Rel p j x y) (h' : Rel p k x' y') : Rel p (j + k) (x / x') (y / y') := by
  rw [div_eq_mul_inv, div_eq_mul_inv]
  exact h.mul h'.inv

theorem sqrt (h : Rel p (2 * k) x y) : Rel p k (Real.sqrt x) (Real.sqrt y) := by
  have hg : ∀ z : ℝ, Real.sqrt (growth p (2 * k) * z) = growth p k * Real.sqrt z := by
    intro z
    have : growth p (2 * k) = growth p k ^ 2 := by rw [two_mul, growth_add, sq]
    rw [this, Real.sqrt_mul (sq_nonneg _), Real.sqrt_sq (growth_pos k).le]
  refine ⟨Real.sqrt_nonneg _, ?_, ?_⟩
  · rw [← hg]; exact Real.sqrt_le_sqrt h.le
  · rw [← hg]; exact Real.sqrt_le_sqrt h.ge

/-- The absolute error. -/
theorem abs_sub (h : Rel p k x y) : |x - y| ≤ (growth p k - 1) * y := by
  rw [abs_le]
  have h1 := h.le
  have h2 := h.ge
  have h3 := growth_one_le (p := p) k
  have h4 := h.nonneg
  constructor
  · have h5 : y - x ≤ (growth p k - 1) * x := by linarith
    by_cases hxy : x ≤ y
    · nlinarith
    · nlinarith
  · linarith

end Rel

/-- Rounding a nonnegative number costs one factor. -/
theorem Rounding.rel (R : Rounding p) {x : ℝ} (hx : 0 ≤ x) : Rel p 1 (R.rd x) x := by
  have h1 := abs_le.1 (R.error x)
  have h2 := abs_le.1 (R.error_back x)
  rw [abs_of_nonneg hx] at h1
  rw [abs_of_nonneg (R.nonneg hx)] at h2
  rw [← unitError] at h1 h2
  refine ⟨hx, ?_, ?_⟩ <;> rw [growth_one]
  · linarith [h1.2]
  · linarith [h2.1]

/-- Rounding after a computation costs one factor more. -/
theorem Rounding.rel_rd (R : Rounding p) {k : ℕ} {x y : ℝ} (h : Rel p k x y) : Rel p (k + 1) (R.rd x) y := by
  have := (R.rel h.left_nonneg).trans h
  rwa [add_comm] at this

/-- Also for negative numbers: the absolute values. -/
theorem Rounding.rel_abs (R : Rounding p) (x : ℝ) : Rel p 1 |R.rd x| |x| := by
  have h1 := R.error x
  have h2 := R.error_back x
  rw [← unitError] at h1 h2
  have h3 := abs_le.1 ((abs_abs_sub_abs_le_abs_sub (R.rd x) x))
  refine ⟨abs_nonneg _, ?_, ?_⟩ <;> rw [growth_one] <;> linarith [h3.1, h3.2]

/-! ### Absolute errors -/

/-- `x` is within `(growth p k - 1) M` of `y`, and `M` bounds `y`. -/
structure Err (p k : ℕ) (x y M : ℝ) : Prop where
  bound : |y| ≤ M
  err : |x - y| ≤ (growth p k - 1) * M

namespace Err

variable {j k : ℕ} {x y x' y' M M' : ℝ}

theorem nonneg (h : Err p k x y M) : 0 ≤ M := (abs_nonneg _).trans h.bound

theorem left (h : Err p k x y M) : |x| ≤ growth p k * M := by
  have := abs_sub_abs_le_abs_sub x y
  have h1 := h.err
  have h2 := h.bound
  nlinarith

theorem refl (x : ℝ) : Err p 0 x x |x| := ⟨le_rfl, by simp [growth_zero]⟩

theorem mono (h : Err p j x y M) (hjk : j ≤ k) (hM : M ≤ M') : Err p k x y M' := by
  refine ⟨h.bound.trans hM, h.err.trans ?_⟩
  exact mul_le_mul (by linarith [growth_mono (p := p) hjk]) hM h.nonneg (by linarith [growth_one_le (p := p) k])

theorem of_rel (h : Rel p k x y) : Err p k x y y := ⟨by rw [abs_of_nonneg h.nonneg], h.abs_sub⟩

theorem mul (h : Err p j x y M) (h' : Err p k x' y' M') : Err p (j + k) (x * x') (y * y') (M * M') := by
  refine ⟨by rw [abs_mul]; exact mul_le_mul h.bound h'.bound (abs_nonneg _) h.nonneg, ?_⟩
  have e : x * x' - y * y' = (x - y) * x' + y * (x' - y') := by ring
  rw [e]
  refine (abs_add_le _ _).trans ?_
  rw [abs_mul, abs_mul]
  have h1 : |x - y| * |x'| ≤ ((growth p j - 1) * M) * (growth p k * M') :=
    mul_le_mul h.err h'.left (abs_nonneg _) (mul_nonneg (by linarith [growth_one_le (p := p) j]) h.nonneg)
  have h2 : |y| * |x' - y'| ≤ M * ((growth p k - 1) * M') := mul_le_mul h.bound h'.err (abs_nonneg _) h.nonneg
  rw [growth_add]
  nlinarith

theorem add (h : Err p k x y M) (h' : Err p k x' y' M') : Err p k (x + x') (y + y') (M + M') := by
  refine ⟨(abs_add_le _ _).trans (add_le_add h.bound h'.bound), ?_⟩
  have e : x + x' - (y + y') = (x - y) + (x' - y') := by ring
  rw [e]
  refine (abs_add_le _ _).trans ?_
  linarith [h.err, h'.err]

theorem neg (h : Err p k x y M) : Err p k (-x) (-y) M := by
  refine ⟨by rw [abs_neg]; exact h.bound, ?_⟩
  rw [show -x - -y = -(x - y) by ring, abs_neg]; exact h.err

theorem sub (h : Err p k x y M) (h' : Err p k x' y' M') : Err p k (x - x') (y - y') (M + M') := by
  rw [sub_eq_add_neg, sub_eq_add_neg]; exact h.add h'.neg

theorem rd (R : Rounding p) (h : Err p k x y M) : Err p (k + 1) (R.rd x) y M := by
  refine ⟨h.bound, ?_⟩
  have h1 := R.error x
  rw [← unitError] at h1
  have h2 := h.left
  have h3 := h.err
  have h4 := abs_sub_le (R.rd x) x y
  have h5 := mul_le_mul_of_nonneg_left h2 (unitError_pos (p := p)).le
  rw [growth_add, growth_one]
  nlinarith

/-- The error of the square. -/
theorem sq (h : Err p k x y M) : |x ^ 2 - y ^ 2| ≤ (growth p (2 * k) - 1) * M ^ 2 := by
  have := (h.mul h).err
  rw [← two_mul] at this
  simpa [pow_two] using this

end Err

/-! ### Exact results -/

/-- Rounding to a number that is nearer than half a step. -/
theorem Rounding.rd_eq (R : Rounding p) (hp : 0 < p) {x : ℝ} {M k : ℤ} (h1 : 2 ^ p < 2 * M) (h2 : M ≤ 2 ^ p)
    (hx : |x - M * (2 : ℝ) ^ k| < 2 ^ k / 2) : R.rd x = M * (2 : ℝ) ^ k := by
  have hM0 : (0 : ℤ) < 2 * M := lt_trans (by positivity) h1
  have hnear := R.near x _ ⟨M, k, by rw [abs_of_pos (by omega)]; exact h2, rfl⟩
  have hclose : |R.rd x - M * (2 : ℝ) ^ k| < 2 ^ k := by
    have := abs_sub_le (R.rd x) x (M * (2 : ℝ) ^ k)
    rw [abs_sub_comm (R.rd x) x] at this
    linarith
  have h3 := abs_lt.1 hclose
  apply le_antisymm
  · have := fp_gap hp (M := M + 1) (k := k) (by omega) (R.mem x) (by push_cast; linarith [h3.2])
    push_cast at this
    linarith
  · by_contra hc
    push Not at hc
    have := fp_gap hp h1 (R.mem x) hc
    linarith [h3.1]

end Chimp
