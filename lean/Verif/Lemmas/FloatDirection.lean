import Verif.Lemmas.FloatCollide
import Mathlib.Analysis.SpecialFunctions.Trigonometric.Bounds
import Mathlib.Analysis.Real.Pi.Bounds

/-!
# Directions drawn in floating-point arithmetic, for C98
-/

namespace Chimp

variable {S : Type} {p : ℕ} (R : Rounding p)

/-- A C library: cosine and sine within `κ` and at most one, `M_PI` with the relative error `κ`. -/
structure Arith.Lib (ar : Arith) (κ : ℝ) : Prop where
  cos_le : ∀ x, |ar.cos x| ≤ 1
  sin_le : ∀ x, |ar.sin x| ≤ 1
  cos_near : ∀ x, |ar.cos x - Real.cos x| ≤ κ
  sin_near : ∀ x, |ar.sin x - Real.sin x| ≤ κ
  pi_near : |ar.pi - Real.pi| ≤ κ * Real.pi

theorem Arith.Lib.nonneg {ar : Arith} {κ : ℝ} (h : ar.Lib κ) : 0 ≤ κ := (abs_nonneg _).trans (h.cos_near 0)

theorem Arith.Lib.trig {ar : Arith} {κ : ℝ} (h : ar.Lib κ) : ar.Trig (4 * κ) := by
  refine ⟨h.cos_le, h.sin_le, fun x => ?_⟩
  have key : ∀ a b : ℝ, |a| ≤ 1 → |b| ≤ 1 → |a - b| ≤ κ → |a ^ 2 - b ^ 2| ≤ 2 * κ := by
    intro a b ha hb hab
    rw [show a ^ 2 - b ^ 2 = (a + b) * (a - b) by ring, abs_mul]
    exact mul_le_mul ((abs_add_le a b).trans (by linarith)) hab (abs_nonneg _) (by norm_num)
  have h1 := key _ _ (h.cos_le x) (Real.abs_cos_le_one x) (h.cos_near x)
  have h2 := key _ _ (h.sin_le x) (Real.abs_sin_le_one x) (h.sin_near x)
  have e : ar.cos x ^ 2 + ar.sin x ^ 2 - 1 =
      (ar.cos x ^ 2 - Real.cos x ^ 2) + (ar.sin x ^ 2 - Real.sin x ^ 2) := by
    have := Real.cos_sq_add_sin_sq x
    linarith
  rw [e]
  exact (abs_add_le _ _).trans (by linarith)

/-- A correctly rounded library. -/
noncomputable def Rounding.arith (R : Rounding p) : Arith :=
  ⟨R.rd, fun x => R.rd (Real.cos x), fun x => R.rd (Real.sin x), R.rd Real.pi⟩

theorem Rounding.arith_lib : R.arith.Lib (unitError p) := by
  have hle : ∀ x : ℝ, |x| ≤ 1 → |R.rd x| ≤ 1 := fun x h => by
    rw [abs_le] at h ⊢
    exact ⟨R.ge_of_ge (fp_neg fp_one) h.1, R.le_of_le fp_one h.2⟩
  have hnear : ∀ x : ℝ, |x| ≤ 1 → |R.rd x - x| ≤ unitError p := fun x h => by
    have := R.error x
    rw [← unitError] at this
    nlinarith [unitError_pos (p := p)]
  refine ⟨fun x => hle _ (Real.abs_cos_le_one x), fun x => hle _ (Real.abs_sin_le_one x),
    fun x => hnear _ (Real.abs_cos_le_one x), fun x => hnear _ (Real.abs_sin_le_one x), ?_⟩
  have := R.error Real.pi
  rw [← unitError, abs_of_pos Real.pi_pos] at this
  exact this

theorem unitError_le_ten (hp : 10 ≤ p) : unitError p ≤ 1 / 1024 := by
  have : unitError p ≤ unitError 10 := by
    rw [unitError, unitError]
    exact zpow_le_zpow_right₀ (by norm_num) (by push_cast; omega)
  refine this.trans ?_
  rw [unitError]; norm_num

theorem Rounding.err_le {x M : ℝ} (h : |x| ≤ M) : |R.rd x - x| ≤ unitError p * M := by
  have := R.error x
  rw [← unitError] at this
  exact this.trans (mul_le_mul_of_nonneg_left h unitError_pos.le)

theorem Rounding.abs_le_one {x : ℝ} (h : |x| ≤ 1) : |R.rd x| ≤ 1 := by
  rw [abs_le] at h ⊢
  exact ⟨R.ge_of_ge (fp_neg fp_one) h.1, R.le_of_le fp_one h.2⟩

theorem abs_sub_le_add {a b c x y : ℝ} (h : |a - b| ≤ x) (h' : |b - c| ≤ y) : |a - c| ≤ x + y :=
  (abs_sub_le a b c).trans (add_le_add h h')

/-- The cosine of the angle with the axis. -/
theorem cosine_near {u : ℝ} (u0 : 0 ≤ u) (u1 : u ≤ 1) :
    |R.rd (R.rd (2 * u) - 1) - (2 * u - 1)| ≤ 3 * unitError p := by
  have a1 := R.err_le (x := 2 * u) (M := 2) (by rw [abs_of_nonneg (by linarith)]; linarith)
  have a0 : 0 ≤ R.rd (2 * u) := R.nonneg (by linarith)
  have a2 : R.rd (2 * u) ≤ 2 := R.le_of_le fp_two (by linarith)
  have a3 := R.err_le (x := R.rd (2 * u) - 1) (M := 1) (by rw [abs_le]; constructor <;> linarith)
  have a4 : |R.rd (2 * u) - 1 - (2 * u - 1)| ≤ unitError p * 2 := by
    rwa [show R.rd (2 * u) - 1 - (2 * u - 1) = R.rd (2 * u) - 2 * u by ring]
  exact (abs_sub_le_add a3 a4).trans (by linarith)

theorem sqrt_near {x y d : ℝ} (hx : 0 ≤ x) (hy : 0 ≤ y) (hd : 0 ≤ d) (h : |x - y| ≤ d ^ 2) :
    |Real.sqrt x - Real.sqrt y| ≤ d := by
  refine abs_le_of_sq_le_sq (le_trans ?_ h) hd
  have sY := Real.mul_self_sqrt hx
  have sX := Real.mul_self_sqrt hy
  have pY := Real.sqrt_nonneg x
  have pX := Real.sqrt_nonneg y
  rcases le_total (Real.sqrt x) (Real.sqrt y) with hh | hh
  · have : x ≤ y := by nlinarith
    rw [abs_of_nonpos (by linarith)]; nlinarith
  · have : y ≤ x := by nlinarith
    rw [abs_of_nonneg (by linarith)]; nlinarith

/-- The sine of that angle. -/
theorem sine_near {B b q : ℝ} (hB : |B| ≤ 1) (hb : |b| ≤ 1) (h : |B - b| ≤ 3 * unitError p) (q0 : 0 ≤ q)
    (hq : q * q = unitError p) :
    let A := R.rd (Real.sqrt (R.rd (1 - R.rd (B * B))))
    0 ≤ A ∧ A ≤ 1 ∧ |A - Real.sqrt (1 - b ^ 2)| ≤ 2.9 * q + unitError p := by
  intro A
  have hBB : B * B ≤ 1 := by
    have := mul_le_one₀ hB (abs_nonneg B) hB
    rwa [abs_mul_abs_self] at this
  have hbb : b * b ≤ 1 := by
    have := mul_le_one₀ hb (abs_nonneg b) hb
    rwa [abs_mul_abs_self] at this
  have eZ := R.err_le (x := B * B) (M := 1) (by rwa [abs_of_nonneg (mul_self_nonneg B)])
  have Z0 : 0 ≤ R.rd (B * B) := R.nonneg (mul_self_nonneg B)
  have Z1 : R.rd (B * B) ≤ 1 := R.le_of_le fp_one hBB
  have eY := R.err_le (x := 1 - R.rd (B * B)) (M := 1) (by rw [abs_of_nonneg (by linarith)]; linarith)
  have Y0 : 0 ≤ R.rd (1 - R.rd (B * B)) := R.nonneg (by linarith)
  have Y1 : R.rd (1 - R.rd (B * B)) ≤ 1 := R.le_of_le fp_one (by linarith)
  have eBB : |B * B - b * b| ≤ 6 * unitError p := by
    rw [show B * B - b * b = (B + b) * (B - b) by ring, abs_mul]
    have := mul_le_mul ((abs_add_le B b).trans (by linarith : _ ≤ (2 : ℝ))) h (abs_nonneg _) (by norm_num)
    linarith
  have eZ2 := abs_sub_le_add eZ eBB
  have eY2 : |1 - R.rd (B * B) - (1 - b ^ 2)| ≤ unitError p * 1 + 6 * unitError p := by
    rwa [show 1 - R.rd (B * B) - (1 - b ^ 2) = -(R.rd (B * B) - b * b) by ring, abs_neg]
  have eX := abs_sub_le_add eY eY2
  have eS := sqrt_near (d := 2.9 * q) Y0 (by nlinarith : 0 ≤ 1 - b ^ 2) (by positivity) (by nlinarith [unitError_pos (p := p)])
  have s1 : Real.sqrt (R.rd (1 - R.rd (B * B))) ≤ 1 := Real.sqrt_le_one.2 Y1
  have eA := R.err_le (x := Real.sqrt (R.rd (1 - R.rd (B * B)))) (M := 1)
    (by rwa [abs_of_nonneg (Real.sqrt_nonneg _)])
  exact ⟨R.nonneg (Real.sqrt_nonneg _), R.le_of_le fp_one s1, (abs_sub_le_add eA eS).trans (by linarith)⟩

/-- The azimuth. -/
theorem azimuth_near {π' t : ℝ} (hη : unitError p ≤ 1 / 1024) (h : |π' - Real.pi| ≤ unitError p * Real.pi) (t0 : 0 ≤ t)
    (t1 : t ≤ 1) : |R.rd (R.rd (2 * π') * t) - 2 * Real.pi * t| ≤ 19 * unitError p := by
  have hpi := Real.pi_pos
  have hpi4 : Real.pi < 3.15 := Real.pi_lt_d2
  have η0 := unitError_pos (p := p)
  set η := unitError p
  have b2 : |2 * π' - 2 * Real.pi| ≤ 2 * Real.pi * η := by
    rw [show 2 * π' - 2 * Real.pi = 2 * (π' - Real.pi) by ring, abs_mul, abs_two]
    linarith
  have b3 : |2 * π'| ≤ 2 * Real.pi * (1 + η) := by
    have := abs_sub_abs_le_abs_sub (2 * π') (2 * Real.pi)
    rw [abs_of_pos (by positivity : 0 < 2 * Real.pi)] at this
    linarith
  have b5 := abs_sub_le_add (R.err_le b3) b2
  have b6 : |R.rd (2 * π') * t - 2 * Real.pi * t| ≤ η * (2 * Real.pi * (1 + η)) + 2 * Real.pi * η := by
    rw [← sub_mul, abs_mul, abs_of_nonneg t0]
    exact (mul_le_of_le_one_right (abs_nonneg _) t1).trans b5
  have b7 : |R.rd (2 * π') * t| ≤ 2 * Real.pi + (η * (2 * Real.pi * (1 + η)) + 2 * Real.pi * η) := by
    have := abs_sub_abs_le_abs_sub (R.rd (2 * π') * t) (2 * Real.pi * t)
    rw [abs_of_nonneg (by positivity : 0 ≤ 2 * Real.pi * t)] at this
    have := mul_le_of_le_one_right (by positivity : 0 ≤ 2 * Real.pi) t1
    linarith
  refine (abs_sub_le_add (R.err_le b7) b6).trans ?_
  have e1 : 3 + 3 * η + η * η ≤ 3.01 := by nlinarith
  have e2 := mul_le_mul_of_nonneg_left e1 (by positivity : 0 ≤ 2 * Real.pi)
  have e3 := mul_le_mul_of_nonneg_left (by linarith : 2 * Real.pi * (3 + 3 * η + η * η) ≤ 19) η0.le
  change η * _ + _ ≤ _
  linarith

/-- A component perpendicular to the axis. -/
theorem component_near {A X c c0 q speed : ℝ} (hη : unitError p ≤ 1 / 1024) (q0 : 0 ≤ q) (hq : q * q = unitError p)
    (A0 : 0 ≤ A) (A1 : A ≤ 1) (eA : |A - X| ≤ 2.9 * q + unitError p) (h1 : |c| ≤ 1) (h2 : |c0| ≤ 1)
    (h3 : |c - c0| ≤ 20 * unitError p) (h0 : 0 ≤ speed) :
    |R.rd (R.rd (A * c) * speed) - X * c0 * speed| ≤ 4 * q * speed := by
  have η0 := unitError_pos (p := p)
  set η := unitError p
  have d1 : |A * c - X * c0| ≤ 2.9 * q + 21 * η := by
    rw [show A * c - X * c0 = A * (c - c0) + (A - X) * c0 by ring]
    refine (abs_add_le _ _).trans ?_
    rw [abs_mul, abs_mul, abs_of_nonneg A0]
    have g1 := mul_le_mul A1 h3 (abs_nonneg _) zero_le_one
    have g2 := mul_le_mul eA h2 (abs_nonneg _) (by positivity)
    linarith
  have d2 : |A * c| ≤ 1 := by
    rw [abs_mul, abs_of_nonneg A0]
    exact mul_le_one₀ A1 (abs_nonneg _) h1
  have d7 := abs_sub_le_add (R.err_le d2) d1
  have d5 : |R.rd (A * c) * speed| ≤ speed := by
    rw [abs_mul, abs_of_nonneg h0]
    exact mul_le_of_le_one_left h0 (R.abs_le_one d2)
  have d8 : |R.rd (A * c) * speed - X * c0 * speed| ≤ (η * 1 + (2.9 * q + 21 * η)) * speed := by
    rw [← sub_mul, abs_mul, abs_of_nonneg h0]
    exact mul_le_mul_of_nonneg_right d7 h0
  refine (abs_sub_le_add (R.err_le d5) d8).trans ?_
  change η * _ + _ ≤ _
  rw [← add_mul]
  refine mul_le_mul_of_nonneg_right ?_ h0
  have q1 : q ≤ 1 / 32 := by nlinarith
  nlinarith

theorem isoVecR_near {κ : ℝ} (hp : 10 ≤ p) (ar : Arith) (har : ar.rd = R.rd) (hl : ar.Lib κ) (hκ : κ ≤ unitError p)
    (rng : RNG S ℝ) (hv : rng.Valid) {speed : ℝ} (h0 : 0 ≤ speed) (s : S) :
    ∃ w, isoVecR ar rng speed s = some (w, (isoVec rng speed s).2) ∧
      Vec.Within (4 * Real.sqrt (unitError p) * speed) w (isoVec rng speed s).1 := by
  have hη := unitError_le_ten hp
  have η0 := unitError_pos (p := p)
  obtain ⟨he, hB0, hB1⟩ := isoVecR_eq R ar har rng hv speed s
  obtain ⟨u0, u1⟩ := hv.rand_mem s
  obtain ⟨t0, t1⟩ := hv.rand_mem (rng.rand s).2
  have q0 := Real.sqrt_nonneg (unitError p)
  have qq := Real.mul_self_sqrt η0.le
  have eB := cosine_near R u0 u1
  have hb : |2 * (rng.rand s).1 - 1| ≤ 1 := by rw [abs_le]; constructor <;> linarith
  have hB := abs_le.2 ⟨hB0, hB1⟩
  obtain ⟨A0, A1, eA⟩ := sine_near R hB hb eB q0 qq
  have hpi : |ar.pi - Real.pi| ≤ unitError p * Real.pi :=
    hl.pi_near.trans (mul_le_mul_of_nonneg_right hκ Real.pi_pos.le)
  have eC := azimuth_near R hη hpi t0 t1
  refine ⟨_, he, ?_, ?_, ?_⟩
  · have d5 : |R.rd (R.rd (2 * (rng.rand s).1) - 1) * speed| ≤ speed := by
      rw [abs_mul, abs_of_nonneg h0]
      exact mul_le_of_le_one_left h0 hB
    have d8 := mul_le_mul_of_nonneg_right eB h0
    rw [← abs_of_nonneg h0, ← abs_mul, sub_mul, abs_of_nonneg h0] at d8
    refine (abs_sub_le_add (R.err_le d5) d8).trans ?_
    rw [← add_mul]
    refine mul_le_mul_of_nonneg_right ?_ h0
    have q1 : Real.sqrt (unitError p) ≤ 1 / 32 := by nlinarith
    nlinarith
  · refine component_near R hη q0 qq A0 A1 eA (hl.cos_le _) (Real.abs_cos_le_one _) ?_ h0
    exact (abs_sub_le_add (hl.cos_near _) ((Real.abs_cos_sub_cos_le _ _).trans eC)).trans (by linarith)
  · refine component_near R hη q0 qq A0 A1 eA (hl.sin_le _) (Real.abs_sin_le_one _) ?_ h0
    exact (abs_sub_le_add (hl.sin_near _) ((Real.abs_sin_sub_sin_le _ _).trans eC)).trans (by linarith)

end Chimp
