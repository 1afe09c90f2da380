import Verif.Model.Float
import Mathlib.Algebra.Order.Round
import Mathlib.Algebra.Order.Field.Power
import Mathlib.Algebra.Order.Archimedean.Basic
import Mathlib.Data.Nat.Log
import Mathlib.Tactic.Linarith
import Mathlib.Tactic.Positivity
import Mathlib.Tactic.Ring
import Mathlib.Tactic.FieldSimp

/-!
# Floating-point numbers and roundings
-/

namespace Chimp

variable {p : ℕ}

theorem fp_zero : (0 : ℝ) ∈ FP p := ⟨0, 0, by positivity, by simp⟩

theorem fp_neg {x : ℝ} (h : x ∈ FP p) : -x ∈ FP p := by
  obtain ⟨m, e, hm, rfl⟩ := h
  exact ⟨-m, e, by rwa [abs_neg], by push_cast; ring⟩

theorem fp_scale {x : ℝ} (h : x ∈ FP p) (k : ℤ) : x * (2 : ℝ) ^ k ∈ FP p := by
  obtain ⟨m, e, hm, rfl⟩ := h
  exact ⟨m, e + k, hm, by rw [zpow_add₀ (by norm_num)]; ring⟩

theorem fp_int {m : ℤ} (h : |m| ≤ 2 ^ p) : (m : ℝ) ∈ FP p := ⟨m, 0, h, by simp⟩

theorem fp_nat {n : ℕ} (h : n ≤ 2 ^ p) : (n : ℝ) ∈ FP p := by
  have := fp_int (p := p) (m := (n : ℤ)) (by rw [abs_of_nonneg (by positivity)]; exact_mod_cast h)
  simpa using this

theorem fp_one : (1 : ℝ) ∈ FP p := by simpa using fp_nat (p := p) (n := 1) Nat.one_le_two_pow

theorem fp_pow (k : ℤ) : (2 : ℝ) ^ k ∈ FP p := by simpa using fp_scale (p := p) fp_one k

/-- A positive number with `p` digits, written with as many digits as possible. -/
theorem fp_normal {x : ℝ} (h : x ∈ FP p) (hx : 0 < x) :
    ∃ M k : ℤ, 2 ^ p < 2 * M ∧ M ≤ 2 ^ p ∧ x = M * (2 : ℝ) ^ k := by
  obtain ⟨m, e, hm, rfl⟩ := h
  have hm0 : 0 < m := by
    have h2 : (0 : ℝ) < 2 ^ e := by positivity
    have := pos_of_mul_pos_left hx h2.le
    exact_mod_cast this
  rw [abs_of_pos hm0] at hm
  obtain ⟨n, rfl⟩ := Int.eq_ofNat_of_zero_le hm0.le
  have hn : n ≤ 2 ^ p := by exact_mod_cast hm
  have hn0 : 0 < n := by exact_mod_cast hm0
  -- `j` digits
  have hj : Nat.clog 2 n ≤ p := (Nat.clog_le_iff_le_pow (by norm_num)).2 hn
  have h1 : n ≤ 2 ^ Nat.clog 2 n := Nat.le_pow_clog (by norm_num) n
  have h2 : 2 ^ Nat.clog 2 n < 2 * n := by
    rcases Nat.lt_or_ge 1 n with h | h
    · have h3 := Nat.pow_pred_clog_lt_self (b := 2) (by norm_num) h
      have h4 : 0 < Nat.clog 2 n := Nat.clog_pos (by norm_num) h
      obtain ⟨c, hc⟩ : ∃ c, Nat.clog 2 n = c + 1 := ⟨Nat.clog 2 n - 1, by omega⟩
      rw [hc] at h3 ⊢
      simp only [Nat.pred_succ] at h3
      rw [pow_succ]; omega
    · have : n = 1 := by omega
      subst this; simp
  obtain ⟨d, hd⟩ := Nat.exists_eq_add_of_le hj
  refine ⟨n * 2 ^ d, e - d, ?_, ?_, ?_⟩
  · have : 2 ^ p < 2 * (n * 2 ^ d) := by
      rw [hd, pow_add]
      have : 0 < 2 ^ d := by positivity
      nlinarith
    exact_mod_cast this
  · have : n * 2 ^ d ≤ 2 ^ p := by
      rw [hd, pow_add]
      exact Nat.mul_le_mul_right _ h1
    exact_mod_cast this
  · push_cast
    rw [zpow_sub₀ (by norm_num), zpow_natCast]
    field_simp

/-- Below one there is a gap. -/
theorem fp_lt_one {u : ℝ} (hp : 0 < p) (h : u ∈ FP p) (h1 : u < 1) : u ≤ 1 - (2 : ℝ) ^ (-(p : ℤ)) := by
  have hq : (2 : ℝ) ^ (-(p : ℤ)) ≤ 1 / 2 := by
    rw [zpow_neg, zpow_natCast, inv_eq_one_div]
    apply one_div_le_one_div_of_le (by norm_num)
    calc (2 : ℝ) = 2 ^ 1 := by norm_num
      _ ≤ 2 ^ p := pow_le_pow_right₀ (by norm_num) hp
  rcases le_or_gt u 0 with h0 | h0
  · linarith
  obtain ⟨M, k, hM, hM', rfl⟩ := fp_normal h h0
  have hMr : (2 : ℝ) ^ p < 2 * M := by exact_mod_cast hM
  have hMr' : (M : ℝ) ≤ 2 ^ p := by exact_mod_cast hM'
  have hk : (0 : ℝ) < 2 ^ k := by positivity
  -- the exponent is at most `-p`
  have hkp : k ≤ -(p : ℤ) := by
    by_contra hc
    have h3 : (2 : ℝ) ^ (1 - (p : ℤ)) ≤ 2 ^ k := zpow_le_zpow_right₀ (by norm_num) (by omega)
    have h4 : (2 : ℝ) ^ p * 2 ^ (1 - (p : ℤ)) = 2 := by
      rw [← zpow_natCast, ← zpow_add₀ (by norm_num)]; simp
    nlinarith
  have hkp' : (2 : ℝ) ^ k ≤ 2 ^ (-(p : ℤ)) := zpow_le_zpow_right₀ (by norm_num) hkp
  have hpp : (2 : ℝ) ^ p * 2 ^ (-(p : ℤ)) = 1 := by
    rw [← zpow_natCast, ← zpow_add₀ (by norm_num)]; simp
  rcases eq_or_lt_of_le hkp with hke | hkl
  · subst hke
    have hlt : (M : ℝ) < 2 ^ p := by
      have h0' : (0 : ℝ) < 2 ^ p := by positivity
      nlinarith
    have hM1 : M ≤ 2 ^ p - 1 := by
      have : M < 2 ^ p := by exact_mod_cast hlt
      omega
    have hM1' : (M : ℝ) ≤ 2 ^ p - 1 := by exact_mod_cast hM1
    nlinarith
  · have h5 : (2 : ℝ) ^ k ≤ 2 ^ (-(p : ℤ) - 1) := zpow_le_zpow_right₀ (by norm_num) (by omega)
    rw [zpow_sub_one₀ (by norm_num)] at h5
    have h6 : (M : ℝ) * 2 ^ k ≤ 2 ^ p * (2 ^ (-(p : ℤ)) * 2⁻¹) := mul_le_mul hMr' h5 hk.le (by positivity)
    nlinarith

/-- Whole numbers can be taken off exactly. -/
theorem fp_sub_nat {x : ℝ} (h : x ∈ FP p) {n : ℕ} (hn : (n : ℝ) ≤ x) (hx : x ≤ 2 ^ p) : x - n ∈ FP p := by
  obtain ⟨m, e, hm, rfl⟩ := h
  rcases le_or_gt 0 e with he | he
  · obtain ⟨d, rfl⟩ := Int.eq_ofNat_of_zero_le he
    have hc : (m : ℝ) * 2 ^ (d : ℤ) - n = ((m * 2 ^ d - n : ℤ) : ℝ) := by push_cast; simp
    rw [hc]
    refine fp_int (abs_le.2 ⟨?_, ?_⟩)
    · have : (n : ℝ) ≤ ((m * 2 ^ d : ℤ) : ℝ) := by simpa using hn
      have : (n : ℤ) ≤ m * 2 ^ d := by exact_mod_cast this
      have : (0 : ℤ) ≤ 2 ^ p := by positivity
      omega
    · have : ((m * 2 ^ d : ℤ) : ℝ) ≤ ((2 ^ p : ℤ) : ℝ) := by push_cast; simpa using hx
      have : m * 2 ^ d ≤ 2 ^ p := by exact_mod_cast this
      omega
  · obtain ⟨d, hd⟩ := Int.eq_ofNat_of_zero_le (a := -e) (by omega)
    obtain rfl : e = -(d : ℤ) := by omega
    have h2 : (2 : ℝ) ^ (-(d : ℤ)) * 2 ^ d = 1 := by
      rw [← zpow_natCast, ← zpow_add₀ (by norm_num)]; simp
    refine ⟨m - n * 2 ^ d, -(d : ℤ), abs_le.2 ⟨?_, ?_⟩, ?_⟩
    · have h0 : (0 : ℝ) < 2 ^ d := by positivity
      have : (n : ℝ) * 2 ^ d ≤ m := by
        have := mul_le_mul_of_nonneg_right hn h0.le
        rwa [mul_assoc, h2, mul_one] at this
      have : (n : ℤ) * 2 ^ d ≤ m := by exact_mod_cast this
      have : (0 : ℤ) ≤ 2 ^ p := by positivity
      omega
    · have h3 := (abs_le.1 hm).2
      have : (0 : ℤ) ≤ n * 2 ^ d := by positivity
      omega
    · push_cast
      rw [sub_mul, mul_assoc (n : ℝ), mul_comm ((2 : ℝ) ^ d), h2, mul_one]

/-- Large numbers are whole. -/
theorem fp_large {x : ℝ} (h : x ∈ FP p) (hx : 2 ^ p ≤ x) : ∃ n : ℤ, x = n := by
  have hx0 : 0 < x := lt_of_lt_of_le (by positivity) hx
  obtain ⟨M, k, hM, hM', rfl⟩ := fp_normal h hx0
  have hMr' : (M : ℝ) ≤ 2 ^ p := by exact_mod_cast hM'
  have hk : 0 ≤ k := by
    by_contra hc
    have h3 : (2 : ℝ) ^ k ≤ 2 ^ (-1 : ℤ) := zpow_le_zpow_right₀ (by norm_num) (by omega)
    have h4 : (0 : ℝ) < 2 ^ k := by positivity
    have h5 : (0 : ℝ) < 2 ^ p := by positivity
    norm_num at h3
    nlinarith
  obtain ⟨d, rfl⟩ := Int.eq_ofNat_of_zero_le hk
  exact ⟨M * 2 ^ d, by push_cast; simp⟩

/-- The fractional part is a number with `p` digits. -/
theorem fp_fract {x : ℝ} (h : x ∈ FP p) (hx : 0 ≤ x) : x - ⌊x⌋ ∈ FP p := by
  rcases le_or_gt x (2 ^ p) with h1 | h1
  · obtain ⟨n, hn⟩ := Int.eq_ofNat_of_zero_le (Int.floor_nonneg.2 hx)
    rw [hn]
    have := Int.floor_le x
    rw [hn] at this
    exact_mod_cast fp_sub_nat h (n := n) (by exact_mod_cast this) h1
  · obtain ⟨n, rfl⟩ := fp_large h h1.le
    simp [fp_zero]

/-- The largest number below a number written with all its digits. -/
theorem fp_gap (hp : 0 < p) {M k : ℤ} (hM : 2 ^ p < 2 * M) {z : ℝ} (hz : z ∈ FP p) (hlt : z < M * (2 : ℝ) ^ k) :
    z ≤ (M - 1) * (2 : ℝ) ^ k := by
  obtain ⟨m, e, hm, rfl⟩ := hz
  by_contra hc
  push Not at hc
  have hk0 : (0 : ℝ) < 2 ^ k := by positivity
  have he0 : (0 : ℝ) < 2 ^ e := by positivity
  have hm' : (m : ℝ) ≤ 2 ^ p := by exact_mod_cast (le_abs_self m).trans hm
  have hM1 : (2 : ℝ) ^ p ≤ 2 * (M - 1) := by
    have : (2 : ℤ) ^ p ≤ 2 * (M - 1) := by
      rcases p with _ | n
      · omega
      · rw [pow_succ] at hM ⊢; omega
    exact_mod_cast this
  -- the exponent cannot be smaller
  have hek : k ≤ e := by
    by_contra hek
    have h1 : (2 : ℝ) ^ e ≤ 2 ^ (k - 1) := zpow_le_zpow_right₀ (by norm_num) (by omega)
    have h2 : (2 : ℝ) ^ (k - 1) = 2 ^ k / 2 := by rw [zpow_sub₀ (by norm_num), zpow_one]
    have h3 : (m : ℝ) * 2 ^ e ≤ 2 ^ p * (2 ^ k / 2) := by
      rw [← h2]; exact mul_le_mul hm' h1 he0.le (by positivity)
    nlinarith
  obtain ⟨d, hd⟩ := Int.eq_ofNat_of_zero_le (sub_nonneg.2 hek)
  have he : (2 : ℝ) ^ e = 2 ^ d * 2 ^ k := by
    rw [show e = (d : ℤ) + k by omega, zpow_add₀ (by norm_num), zpow_natCast]
  rw [he, ← mul_assoc] at hlt hc
  have a1 := lt_of_mul_lt_mul_right hlt hk0.le
  have a2 := lt_of_mul_lt_mul_right hc hk0.le
  have b1 : m * 2 ^ d < M := by exact_mod_cast a1
  have b2 : M - 1 < m * 2 ^ d := by exact_mod_cast a2
  omega

/-- The largest relative error of one rounding to `p` digits. -/
noncomputable def unitError (p : ℕ) : ℝ := (2 : ℝ) ^ (-(p : ℤ))

theorem unitError_pos : 0 < unitError p := by unfold unitError; positivity

theorem unitError_le_half (hp : 0 < p) : unitError p ≤ 1 / 2 := by
  unfold unitError
  rw [zpow_neg, zpow_natCast, inv_eq_one_div]
  apply one_div_le_one_div_of_le (by norm_num)
  calc (2 : ℝ) = 2 ^ 1 := by norm_num
    _ ≤ 2 ^ p := pow_le_pow_right₀ (by norm_num) hp

namespace Rounding

variable (R : Rounding p)

theorem rd_of_mem {x : ℝ} (h : x ∈ FP p) : R.rd x = x := by
  have := R.near x x h
  simp only [sub_self, abs_zero] at this
  have := abs_nonpos_iff.1 this
  linarith

theorem mono {x y : ℝ} (h : x ≤ y) : R.rd x ≤ R.rd y := by
  by_contra hc
  push Not at hc
  have h1 := R.near x _ (R.mem y)
  have h2 := R.near y _ (R.mem x)
  have h3 : x = y := by
    refine le_antisymm h ?_
    by_contra hlt
    push Not at hlt
    rcases abs_cases (x - R.rd x) with ⟨e1, _⟩ | ⟨e1, _⟩ <;>
    rcases abs_cases (x - R.rd y) with ⟨e2, _⟩ | ⟨e2, _⟩ <;>
    rcases abs_cases (y - R.rd x) with ⟨e3, _⟩ | ⟨e3, _⟩ <;>
    rcases abs_cases (y - R.rd y) with ⟨e4, _⟩ | ⟨e4, _⟩ <;>
    first
      | linarith [R.near x _ (R.mem y), R.near y _ (R.mem x)]
  subst h3
  exact lt_irrefl _ hc

theorem le_of_le {x z : ℝ} (hz : z ∈ FP p) (h : x ≤ z) : R.rd x ≤ z := by
  have := R.mono h
  rwa [R.rd_of_mem hz] at this

theorem ge_of_ge {x z : ℝ} (hz : z ∈ FP p) (h : z ≤ x) : z ≤ R.rd x := by
  have := R.mono h
  rwa [R.rd_of_mem hz] at this

theorem nonneg {x : ℝ} (h : 0 ≤ x) : 0 ≤ R.rd x := R.ge_of_ge fp_zero h

theorem rd_zero : R.rd 0 = 0 := R.rd_of_mem fp_zero

/-- The error of one rounding, by the power of two below the number. -/
theorem error_pow {x : ℝ} (hx : x ≠ 0) :
    ∃ e : ℤ, (2 : ℝ) ^ e ≤ |x| ∧ |R.rd x - x| ≤ (2 : ℝ) ^ (-(p : ℤ)) * 2 ^ e := by
  obtain ⟨e, he1, he2⟩ := exists_mem_Ico_zpow (abs_pos.2 hx) (by norm_num : (1 : ℝ) < 2)
  set s : ℝ := 2 ^ (e + 1 - (p : ℤ)) with hs
  have hs0 : 0 < s := by positivity
  have hsp : (2 : ℝ) ^ (p : ℕ) * s = 2 ^ (e + 1) := by
    rw [hs, ← zpow_natCast, ← zpow_add₀ (by norm_num)]; congr 1; ring
  have hmem : (round (x / s) : ℝ) * s ∈ FP p := by
    refine ⟨round (x / s), _, ?_, rfl⟩
    have h1 : |x / s| ≤ 2 ^ p := by
      rw [abs_div, abs_of_pos hs0, div_le_iff₀ hs0, hsp]
      exact he2.le
    have h2 := abs_sub_round (x / s)
    have h3 : |(round (x / s) : ℝ)| ≤ 2 ^ p + 1 / 2 := by
      have := abs_sub_abs_le_abs_sub (round (x / s) : ℝ) (x / s)
      rw [abs_sub_comm] at this
      linarith
    have h4 : ((|round (x / s)| : ℤ) : ℝ) < ((2 ^ p + 1 : ℤ) : ℝ) := by
      push_cast; linarith
    have : |round (x / s)| < 2 ^ p + 1 := by exact_mod_cast h4
    omega
  refine ⟨e, he1, ?_⟩
  have h5 := R.near x _ hmem
  rw [abs_sub_comm]
  refine h5.trans ?_
  have h6 : |x - round (x / s) * s| ≤ 1 / 2 * s := by
    have h7 : x - round (x / s) * s = (x / s - round (x / s)) * s := by field_simp
    rw [h7, abs_mul, abs_of_pos hs0]
    exact mul_le_mul_of_nonneg_right (abs_sub_round _) hs0.le
  refine h6.trans ?_
  have h8 : 1 / 2 * s = (2 : ℝ) ^ (-(p : ℤ)) * 2 ^ e := by
    rw [hs, ← zpow_add₀ (by norm_num), show e + 1 - (p : ℤ) = (-(p : ℤ) + e) + 1 by ring, zpow_add_one₀ (by norm_num)]
    ring
  rw [h8]

/-- The relative error of one rounding. -/
theorem error (x : ℝ) : |R.rd x - x| ≤ (2 : ℝ) ^ (-(p : ℤ)) * |x| := by
  rcases eq_or_ne x 0 with rfl | hx
  · simp [R.rd_zero]
  obtain ⟨e, he, h⟩ := R.error_pow hx
  exact h.trans (mul_le_mul_of_nonneg_left he (by positivity))

/-- The error relative to the rounded number. -/
theorem error_back (x : ℝ) : |R.rd x - x| ≤ (2 : ℝ) ^ (-(p : ℤ)) * |R.rd x| := by
  rcases eq_or_ne x 0 with rfl | hx
  · simp [R.rd_zero]
  obtain ⟨e, he, h⟩ := R.error_pow hx
  refine h.trans (mul_le_mul_of_nonneg_left ?_ (by positivity))
  rcases le_total 0 x with h0 | h0
  · rw [abs_of_nonneg h0] at he
    exact (R.ge_of_ge (fp_pow e) he).trans (le_abs_self _)
  · rw [abs_of_nonpos h0] at he
    have := R.le_of_le (fp_neg (fp_pow (p := p) e)) (by linarith : x ≤ -2 ^ e)
    linarith [neg_le_abs (R.rd x)]

theorem bounds {x : ℝ} (hx : 0 ≤ x) :
    (1 - unitError p) * x ≤ R.rd x ∧ R.rd x ≤ (1 + unitError p) * x := by
  have := abs_le.1 (R.error x)
  rw [abs_of_nonneg hx] at this
  unfold unitError
  constructor <;> nlinarith [this.1, this.2]

theorem pos (hp : 0 < p) {x : ℝ} (hx : 0 < x) : 0 < R.rd x := by
  have := (R.bounds hx.le).1
  have := unitError_le_half hp
  nlinarith

/-- The product of a number below one and a positive number stays below that number. -/
theorem mul_lt (hp : 0 < p) {u T : ℝ} (hu : u ∈ FP p) (h1 : u < 1) (hT : T ∈ FP p) (h0 : 0 < T) :
    R.rd (u * T) < T := by
  refine lt_of_le_of_ne (R.le_of_le hT (by nlinarith)) ?_
  intro heq
  have hgap := fp_lt_one hp hu h1
  obtain ⟨M, k, hM, hM', hTk⟩ := fp_normal hT h0
  have hMr : (2 : ℝ) ^ p < 2 * M := by exact_mod_cast hM
  have hk : (0 : ℝ) < 2 ^ k := by positivity
  have hz : ((M - 1 : ℤ) : ℝ) * 2 ^ k ∈ FP p := by
    refine ⟨M - 1, k, abs_le.2 ⟨?_, by omega⟩, rfl⟩
    have : (0 : ℤ) < 2 ^ p := by positivity
    omega
  have hn := R.near (u * T) _ hz
  rw [heq] at hn
  have hpp : (2 : ℝ) ^ p * 2 ^ (-(p : ℤ)) = 1 := by
    rw [← zpow_natCast, ← zpow_add₀ (by norm_num)]; simp
  have hq : (0 : ℝ) < 2 ^ (-(p : ℤ)) := by positivity
  have hd : 2 ^ k / 2 < T - u * T := by
    have h2 : (2 : ℝ) ^ (-(p : ℤ)) * T ≤ T - u * T := by nlinarith
    have h3 : 2 ^ k / 2 < (2 : ℝ) ^ (-(p : ℤ)) * T := by
      rw [hTk]
      have : (2 : ℝ) ^ (-(p : ℤ)) * 2 ^ p < 2 ^ (-(p : ℤ)) * (2 * M) := mul_lt_mul_of_pos_left hMr hq
      rw [mul_comm, hpp] at this
      nlinarith
    linarith
  have hzz : ((M - 1 : ℤ) : ℝ) * 2 ^ k = T - 2 ^ k := by rw [hTk]; push_cast; ring
  rw [hzz] at hn
  rw [show u * T - T = -(T - u * T) by ring, abs_neg, abs_of_pos (by linarith)] at hn
  rcases abs_cases (u * T - (T - 2 ^ k)) with ⟨e1, _⟩ | ⟨e1, _⟩ <;> linarith

/-- There is such a rounding. -/
theorem exists_rounding (hp : 0 < p) : Nonempty (Rounding p) := by
  have key : ∀ x : ℝ, ∃ y ∈ FP p, ∀ z ∈ FP p, |x - y| ≤ |x - z| := by
    intro x
    rcases eq_or_ne x 0 with rfl | hx
    · exact ⟨0, fp_zero, by simp⟩
    obtain ⟨e, he1, he2⟩ := exists_mem_Ico_zpow (abs_pos.2 hx) (by norm_num : (1 : ℝ) < 2)
    set s : ℝ := 2 ^ (e + 1 - (p : ℤ)) with hs
    have hs0 : 0 < s := by positivity
    have hsp : (2 : ℝ) ^ (p : ℕ) * s = 2 ^ (e + 1) := by
      rw [hs, ← zpow_natCast, ← zpow_add₀ (by norm_num)]; congr 1; ring
    have hse : ((2 ^ (p - 1) : ℤ) : ℝ) * s = 2 ^ e := by
      obtain ⟨q, rfl⟩ : ∃ q, p = q + 1 := ⟨p - 1, by omega⟩
      push_cast
      rw [hs, ← zpow_natCast, ← zpow_add₀ (by norm_num)]
      congr 1; push_cast; ring
    refine ⟨round (x / s) * s, ⟨round (x / s), _, ?_, rfl⟩, ?_⟩
    · have h1 : |x / s| ≤ 2 ^ p := by
        rw [abs_div, abs_of_pos hs0, div_le_iff₀ hs0, hsp]
        exact he2.le
      have h2 := abs_sub_round (x / s)
      have h3 : |(round (x / s) : ℝ)| ≤ 2 ^ p + 1 / 2 := by
        have := abs_sub_abs_le_abs_sub (round (x / s) : ℝ) (x / s)
        rw [abs_sub_comm] at this
        linarith
      have h4 : ((|round (x / s)| : ℤ) : ℝ) < ((2 ^ p + 1 : ℤ) : ℝ) := by
        push_cast; linarith
      have : |round (x / s)| < 2 ^ p + 1 := by exact_mod_cast h4
      omega
    · have hgrid : ∀ n : ℤ, |x - round (x / s) * s| ≤ |x - n * s| := by
        intro n
        have h7 : ∀ n : ℤ, x - n * s = (x / s - n) * s := by intro n; field_simp
        rw [h7, h7, abs_mul, abs_mul]
        exact mul_le_mul_of_nonneg_right (round_le _ _) (abs_nonneg _)
      intro z hz
      rcases lt_or_ge |z| (2 ^ e) with hlt | hge
      · -- closer to zero than the power of two below `x`
        rcases lt_or_gt_of_ne hx with hneg | hpos
        · have h := hgrid (-(2 ^ (p - 1)))
          push_cast at h hse
          rw [neg_mul, hse] at h
          refine h.trans ?_
          rw [abs_of_neg hneg] at he1
          have := neg_abs_le z
          rw [abs_of_nonpos (by linarith), abs_of_nonpos (by linarith)]
          linarith
        · have h := hgrid (2 ^ (p - 1))
          rw [hse] at h
          refine h.trans ?_
          rw [abs_of_pos hpos] at he1
          have := le_abs_self z
          rw [abs_of_nonneg (by linarith), abs_of_nonneg (by linarith)]
          linarith
      · obtain ⟨m, f, hm, rfl⟩ := hz
        have hmr : |(m : ℝ)| ≤ 2 ^ p := by exact_mod_cast hm
        have hf0 : (0 : ℝ) < 2 ^ f := by positivity
        rw [abs_mul, abs_of_pos hf0] at hge
        have hfe : e - p ≤ f := by
          by_contra hc
          have h3 : (2 : ℝ) ^ f ≤ 2 ^ (e - p - 1) := zpow_le_zpow_right₀ (by norm_num) (by omega)
          have h4 : (2 : ℝ) ^ p * 2 ^ (e - p - 1) = 2 ^ e / 2 := by
            rw [← zpow_natCast, ← zpow_add₀ (by norm_num), show (p : ℤ) + (e - p - 1) = e - 1 by ring,
              zpow_sub_one₀ (by norm_num)]; rfl
          have h5 : |(m : ℝ)| * 2 ^ f ≤ 2 ^ p * 2 ^ (e - p - 1) := mul_le_mul hmr h3 hf0.le (by positivity)
          have h6 : (0 : ℝ) < 2 ^ e := by positivity
          linarith
        rcases eq_or_lt_of_le hfe with hfe | hfe
        · -- then it is the power of two itself
          have h4 : (2 : ℝ) ^ p * 2 ^ f = 2 ^ e := by
            rw [← hfe, ← zpow_natCast, ← zpow_add₀ (by norm_num)]; congr 1; ring
          have h5 : (2 : ℝ) ^ p ≤ |(m : ℝ)| := by
            rw [← h4] at hge
            exact le_of_mul_le_mul_right hge hf0
          have h6 : |(m : ℝ)| = 2 ^ p := le_antisymm hmr h5
          rcases abs_choice (m : ℝ) with h | h
          · have := hgrid (2 ^ (p - 1))
            rw [hse] at this
            rwa [← h, h6, h4]
          · have hm' : (m : ℝ) = -2 ^ p := by linarith
            have := hgrid (-2 ^ (p - 1))
            push_cast at this hse
            rw [neg_mul, hse] at this
            rwa [hm', neg_mul, h4]
        · obtain ⟨d, hd⟩ := Int.eq_ofNat_of_zero_le (a := f - (e + 1 - p)) (by omega)
          have : (2 : ℝ) ^ f = 2 ^ d * s := by
            rw [hs, ← zpow_natCast, ← zpow_add₀ (by norm_num)]; congr 1; omega
          have h := hgrid (m * 2 ^ d)
          push_cast at h
          rwa [this, ← mul_assoc]
  choose f hf hf' using key
  exact ⟨⟨f, hf, hf'⟩⟩

end Rounding

end Chimp
