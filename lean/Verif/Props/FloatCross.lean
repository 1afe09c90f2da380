import Verif.Model.FloatCross
import Verif.Lemmas.FloatCollide
import Verif.Props.CrossSection
import Verif.Props.CrossData

/-!
# Property C100: cross sections in floating-point arithmetic
-/

namespace Chimp

variable {p : ℕ} (R : Rounding p)

/-! ## Specification -/

/-- No product `sigma(v) v` with `v` at most `vmax` exceeds the reported maximum by more than the factor `c`. -/
def SigmaVBoundUpTo (c : ℝ) (x : XSec) (vmax : ℝ) : Prop :=
  ∃ M vm, x.maxSV vmax = .ok (M, vm) ∧ 0 ≤ M ∧ ∀ v s, 0 ≤ v → v ≤ vmax → x.sigma v = .ok s → s * v ≤ c * M

/-- The reported maximum is the rounded product at the reported speed, which is in range. -/
def SigmaVAttainedR (rd : ℝ → ℝ) (x : XSec) (vmax : ℝ) : Prop :=
  ∃ M vm s, x.maxSV vmax = .ok (M, vm) ∧ 0 ≤ vm ∧ vm ≤ vmax ∧ x.sigma vm = .ok s ∧ rd (s * vm) = M

/-- The power function of the library has the relative error `κ`. -/
def PowLib (pw : ℝ → ℝ → ℝ) (κ : ℝ) : Prop := ∀ x, 0 < x → ∀ y, |pw x y - x ^ y| ≤ κ * x ^ y

/-! ## Exact operations -/

/-- **C100**  With exact operations the cross sections are those of C54 to C62. -/
theorem C100_exact_operations :
    (∀ value mu e, mkConstantR id value mu e = mkConstant value mu e) ∧
    (∀ q mu e, mkVHSR id (fun x y => x ^ y) q mu e = mkVHS q mu e) ∧
    (∀ k mu e, mkInverseR id k mu e = mkInverse k mu e) ∧
    (∀ c0 c1, mkAvgEasyR id c0 c1 = mkAvgEasy c0 c1) ∧
    (∀ allowed mu t, mkDataR id (fun t =>
      let co := setCoeffs allowed t.reverse
      if co.C = 0 then none else some fun v => extrapF (v ^ 2 - co.v02) co.C co.a co.b) mu t = mkData allowed mu t) := by
  have hthr : ∀ mu e, setThresholdR id mu e = setThreshold mu e := fun mu e => rfl
  refine ⟨fun value mu e => ?_, fun q mu e => ?_, fun k mu e => ?_, fun c0 c1 => ?_, fun allowed mu t => ?_⟩
  · unfold mkConstantR mkConstant
    rw [hthr]
    rcases setThreshold mu e with _ | ⟨tE, tv⟩ <;> rfl
  · unfold mkVHSR mkVHS
    rw [hthr]
    have h : ∀ tv v, vhsSigmaR id (fun x y => x ^ y) q mu tv v = vhsSigma q mu tv v := by
      intro tv v
      simp only [vhsSigmaR, vhsSigma, id, pow_two]
    rcases setThreshold mu e with _ | ⟨tE, tv⟩
    · rfl
    · simp only [h]; rfl
  · unfold mkInverseR mkInverse
    rw [hthr]
    rcases setThreshold mu e with _ | ⟨tE, tv⟩ <;> rfl
  · have h : ∀ s0 s1 : ℝ → Except XErr ℝ, ∀ v, avgSigmaR id s0 s1 v = avgSigma s0 s1 v := by
      intro s0 s1 v
      unfold avgSigmaR avgSigma
      rcases s0 v with _ | a
      · rfl
      rcases s1 v with _ | b
      · simp only [bind, Except.bind, sqrtER, sqrtE]; split_ifs <;> rfl
      · simp only [bind, Except.bind, sqrtER, sqrtE, pow_two]; split_ifs <;> rfl
    unfold mkAvgEasyR mkAvgEasy
    simp only [h, XSec.mk.injEq, true_and]
    refine ⟨funext fun v => h _ _ v, funext fun v => ?_⟩
    rcases avgSigma c0.sigma c1.sigma v <;> rfl
  · unfold mkDataR mkData
    rcases checkThreshold t with _ | t'
    · rfl
    · have h : ∀ co : Coeffs, ∀ v, dataSigmaR id
          (if co.C = 0 then none else some fun v => extrapF (v ^ 2 - co.v02) co.C co.a co.b) t' v = dataSigma t' co v := by
        intro co v
        unfold dataSigmaR dataSigma evalSplitR evalSplit
        rcases (belowOf t' v).getLast? with _ | d <;> rcases aboveOf t' v with _ | ⟨d', l⟩
        · rfl
        · rfl
        · simp only
          split_ifs <;> rfl
        · rfl
      simp only [Except.ok.injEq, XSec.mk.injEq]
      refine ⟨funext fun v => h _ v, ?_, funext fun v => ?_⟩
      · simp only [dataThresholdR, id, pow_two]; cases t' <;> rfl
      · unfold dataMaxR dataMax
        rw [h]
        rcases dataSigma t' (setCoeffs allowed t'.reverse) v <;> rfl

/-! ## Constant and inverse cross sections -/

private theorem threshold_cases {rd : ℝ → ℝ} {mu e tE tv : ℝ} (h : setThresholdR rd mu e = .ok (tE, tv)) :
    0 ≤ e ∧ tE = e ∧ tv = thresholdVR rd e mu := by
  unfold setThresholdR at h
  split_ifs at h with he
  · cases h
    exact ⟨not_lt.1 he, rfl, rfl⟩

private theorem thresholdVR_nonneg (E mu : ℝ) : 0 ≤ thresholdVR R.rd E mu := R.nonneg (Real.sqrt_nonneg _)

/-- **C100**  A constant cross section is its value from the threshold speed on.  No rounded product exceeds the reported
maximum. -/
theorem C100_constant {value mu e vmax : ℝ} (hval : 0 ≤ value) (hv : 0 ≤ vmax) {x : XSec}
    (hx : mkConstantR R.rd value mu e = .ok x) :
    (∃ M vm, x.maxSV vmax = .ok (M, vm) ∧ ∀ v s, 0 ≤ v → v ≤ vmax → x.sigma v = .ok s → R.rd (s * v) ≤ M) ∧
    SigmaVBoundUpTo (growth p 1) x vmax ∧ SigmaVAttainedR R.rd x vmax := by
  unfold mkConstantR at hx
  split at hx
  · cases hx
  · rename_i tE tv hthr
    obtain ⟨-, -, rfl⟩ := threshold_cases hthr
    have htv := thresholdVR_nonneg R e mu
    cases hx
    by_cases ht : vmax ≥ thresholdVR R.rd e mu
    · have key : ∀ v, v ≤ vmax → (if v ≥ thresholdVR R.rd e mu then value else 0) * v ≤ value * vmax := by
        intro v hle
        split_ifs
        · exact mul_le_mul_of_nonneg_left hle hval
        · rw [zero_mul]; positivity
      refine ⟨⟨R.rd (value * vmax), vmax, by simp only [ht, if_true], fun v s h0 hle hs => ?_⟩,
        ⟨R.rd (value * vmax), vmax, by simp only [ht, if_true], R.nonneg (by positivity), fun v s h0 hle hs => ?_⟩,
        ⟨_, _, value, by simp only [ht, if_true], hv, le_rfl, by simp only [ht, if_true], rfl⟩⟩
      · cases hs
        exact R.mono (key v hle)
      · cases hs
        exact (key v hle).trans (R.rel (mul_nonneg hval hv)).ge
    · have key : ∀ v, v ≤ vmax → (if v ≥ thresholdVR R.rd e mu then value else 0) * v = 0 := by
        intro v hle
        rw [if_neg (fun h => ht (h.trans hle)), zero_mul]
      refine ⟨⟨0, 0, by simp only [ht, if_false], fun v s h0 hle hs => ?_⟩,
        ⟨0, 0, by simp only [ht, if_false], le_rfl, fun v s h0 hle hs => ?_⟩,
        ⟨0, 0, 0, by simp only [ht, if_false], le_rfl, hv, ?_, by rw [zero_mul, R.rd_zero]⟩⟩
      · cases hs
        rw [key v hle, R.rd_zero]
      · cases hs
        rw [key v hle, mul_zero]
      · show Except.ok _ = _
        rw [if_neg (fun h => ht (le_trans h hv))]

/-- **C100**  An inverse cross section has the product `k` up to one rounding, and the reported maximum is `k`. -/
theorem C100_inverse {k mu e vmax : ℝ} (hk : 0 ≤ k) {x : XSec} (hx : mkInverseR R.rd k mu e = .ok x) :
    (∀ v s, 0 < v → thresholdVR R.rd e mu ≤ v → x.sigma v = .ok s → |s * v - k| ≤ unitError p * k) ∧
    (∀ v s, v < thresholdVR R.rd e mu → x.sigma v = .ok s → s = 0) ∧
    SigmaVBoundUpTo (growth p 1) x vmax := by
  unfold mkInverseR at hx
  split at hx
  · cases hx
  · rename_i tE tv hthr
    obtain ⟨-, -, rfl⟩ := threshold_cases hthr
    have htv := thresholdVR_nonneg R e mu
    cases hx
    have open_ : ∀ v s, 0 < v → thresholdVR R.rd e mu ≤ v →
        (if v < thresholdVR R.rd e mu then Except.ok 0 else if v = 0 then .error XErr.nonfinite else .ok (R.rd (k / v))) =
          .ok s → |s * v - k| ≤ unitError p * k := by
      intro v s h0 hle hs
      rw [if_neg (not_lt.2 hle), if_neg h0.ne'] at hs
      cases hs
      have h := (R.error (k / v))
      rw [← unitError, abs_of_nonneg (div_nonneg hk h0.le)] at h
      have h2 := mul_le_mul_of_nonneg_right h h0.le
      rw [← abs_of_pos h0, ← abs_mul, abs_of_pos h0, sub_mul, mul_assoc, div_mul_cancel₀ _ h0.ne'] at h2
      exact h2
    have closed : ∀ v s, v < thresholdVR R.rd e mu →
        (if v < thresholdVR R.rd e mu then Except.ok 0 else if v = 0 then .error XErr.nonfinite else .ok (R.rd (k / v))) =
          .ok s → s = 0 := by
      intro v s h hs
      rw [if_pos h] at hs
      cases hs; rfl
    refine ⟨open_, closed, ?_⟩
    by_cases ht : vmax ≥ thresholdVR R.rd e mu
    · refine ⟨k, thresholdVR R.rd e mu, by simp only [ht, if_true], hk, fun v s h0 hle hs => ?_⟩
      have hg := growth_pos (p := p) 1
      by_cases hc : v < thresholdVR R.rd e mu
      · rw [closed v s hc hs, zero_mul]; positivity
      · rcases h0.eq_or_lt with rfl | h0
        · rw [mul_zero]; positivity
        · have := (abs_le.1 (open_ v s h0 (not_lt.1 hc) hs)).2
          rw [growth_one]; linarith
    · refine ⟨0, 0, by simp only [ht, if_false], le_rfl, fun v s h0 hle hs => ?_⟩
      rw [closed v s (by linarith [not_le.1 ht]) hs, zero_mul, mul_zero]

/-- **C100**  In `double` the maximum reported by an inverse cross section can be exceeded, also by the rounded product. -/
theorem C100_inverse_exceeds (R : Rounding 53) {mu : ℝ} : ∃ x, mkInverseR R.rd 7 mu 0 = .ok x ∧
    ∃ M vm s, x.maxSV 25 = .ok (M, vm) ∧ x.sigma 25 = .ok s ∧ M < s * 25 ∧ M < R.rd (s * 25) := by
  have h0 : thresholdVR R.rd 0 mu = 0 := by simp [thresholdVR, R.rd_zero]
  have h1 : R.rd (7 / 25) = (5044031582654956 : ℤ) * 2 ^ (-54 : ℤ) :=
    R.rd_eq (by norm_num) (by norm_num) (by norm_num) (by rw [abs_lt]; constructor <;> norm_num)
  refine ⟨_, by unfold mkInverseR setThresholdR; rw [if_neg (lt_irrefl 0)], 7, 0, R.rd (7 / 25), by simp [h0], ?_, ?_, ?_⟩
  · show (if _ < _ then _ else _) = _
    rw [h0, if_neg (by norm_num), if_neg (by norm_num)]
  · rw [h1]; norm_num
  · rw [h1, show ((5044031582654956 : ℤ) : ℝ) * 2 ^ (-54 : ℤ) * 25 = 126100789566373900 * 2 ^ (-54 : ℤ) by push_cast; ring]
    have : R.rd (126100789566373900 * 2 ^ (-54 : ℤ)) = (7881299347898369 : ℤ) * 2 ^ (-50 : ℤ) :=
      R.rd_eq (by norm_num) (by norm_num) (by norm_num) (by rw [abs_lt]; constructor <;> norm_num)
    rw [this]; norm_num

/-! ## Variable hard spheres -/

private theorem Rel.rpow {k : ℕ} {x y w : ℝ} (h : Rel p (2 * k) x y) (h0 : 0 ≤ w) (h1 : w ≤ 1 / 2) :
    Rel p k (x ^ w) (y ^ w) := by
  have hg : growth p (2 * k) ^ w ≤ growth p k := by
    calc growth p (2 * k) ^ w ≤ growth p (2 * k) ^ (1 / 2 : ℝ) :=
          Real.rpow_le_rpow_of_exponent_le (growth_one_le _) h1
      _ = growth p k := by
          rw [← Real.sqrt_eq_rpow, two_mul, growth_add, Real.sqrt_mul_self (growth_pos k).le]
  have one : ∀ a b : ℝ, 0 ≤ a → 0 ≤ b → a ≤ growth p (2 * k) * b → a ^ w ≤ growth p k * b ^ w := by
    intro a b ha hb hab
    calc a ^ w ≤ (growth p (2 * k) * b) ^ w := Real.rpow_le_rpow ha hab h0
      _ = growth p (2 * k) ^ w * b ^ w := Real.mul_rpow (growth_pos _).le hb
      _ ≤ growth p k * b ^ w := mul_le_mul_of_nonneg_right hg (Real.rpow_nonneg hb _)
  exact ⟨Real.rpow_nonneg h.nonneg _, one _ _ h.left_nonneg h.nonneg h.le, one _ _ h.nonneg h.left_nonneg h.ge⟩

private theorem rd_sub_half (hp : 0 < p) {w : ℝ} (hm : w ∈ FP p) (h0 : 1 / 2 ≤ w) (h1 : w ≤ 1) :
    R.rd (w - 1 / 2) = w - 1 / 2 := by
  apply R.rd_of_mem
  have h2 : (2 : ℝ) ≤ 2 ^ p := by
    calc (2 : ℝ) = 2 ^ 1 := by norm_num
      _ ≤ 2 ^ p := pow_le_pow_right₀ (by norm_num) hp
  have h := fp_scale (fp_sub_nat (n := 1) (fp_scale hm 1) (by norm_num; linarith) (by norm_num; linarith)) (-1)
  have e : (w * (2 : ℝ) ^ (1 : ℤ) - (1 : ℕ)) * (2 : ℝ) ^ (-1 : ℤ) = w - 1 / 2 := by norm_num; ring
  rwa [e] at h

/-- The rounded value is the exact one up to five roundings and the error of the power function. -/
private theorem vhs_rel (hp : 0 < p) {pw : ℝ → ℝ → ℝ} {κ : ℝ} (hpw : PowLib pw κ) (hκ : κ < 1) {q : VHSParam} (hq : q.Good)
    (hm : q.viscTLaw ∈ FP p) (hw0 : 1 / 2 ≤ q.viscTLaw) (hw1 : q.viscTLaw ≤ 1) {mu tv v : ℝ} (hmu : 0 < mu)
    (htv : tv ≤ v) : ∃ θ, 1 - κ ≤ θ ∧ θ ≤ 1 + κ ∧
      Rel p 5 (vhsSigmaR R.rd pw q mu tv v) (θ * vhsSigma q mu tv v) := by
  obtain ⟨h1, h2, h3, h4, h5⟩ := hq
  unfold vhsSigmaR vhsSigma
  rw [if_neg (not_lt.2 htv), if_neg (not_lt.2 htv), rd_sub_half R hp hm hw0 hw1]
  set w := q.viscTLaw - 1 / 2
  have num : Rel p 2 (R.rd (R.rd (2 * q.KB) * q.Tref)) (2 * q.KB * q.Tref) :=
    R.rel_rd ((R.rel (by positivity)).mul (Rel.refl (by positivity)))
  have hvv : Rel p 1 (R.rd (v * v)) (v ^ 2) := by
    rw [← pow_two]; exact R.rel (sq_nonneg v)
  have den : Rel p 3 (R.rd (R.rd (mu * R.rd (v * v)) + q.tiny)) (mu * v ^ 2 + q.tiny) := by
    have h : Rel p (0 + 1 + 1) (R.rd (mu * R.rd (v * v))) (mu * v ^ 2) := R.rel_rd ((Rel.refl hmu.le).mul hvv)
    exact R.rel_rd (h.add ((Rel.refl h5.le).mono (by omega)))
  have arg := R.rel_rd (num.div den)
  set x := R.rd (R.rd (R.rd (2 * q.KB) * q.Tref) / R.rd (R.rd (mu * R.rd (v * v)) + q.tiny))
  set X := 2 * q.KB * q.Tref / (mu * v ^ 2 + q.tiny) with hX
  have hXpos : 0 < X := by positivity
  have hx : 0 < x := arg.pos hXpos
  have hr : Rel p 3 (x ^ w) (X ^ w) := Rel.rpow (arg.mono (by omega : _ ≤ 2 * 3)) (by simp only [w]; linarith)
    (by simp only [w]; linarith)
  have hxw : 0 < x ^ w := Real.rpow_pos_of_pos hx _
  obtain ⟨b1, b2⟩ := abs_le.1 (hpw x hx w)
  refine ⟨pw x w / x ^ w, ?_, ?_, ?_⟩
  · rw [le_div_iff₀ hxw]; linarith
  · rw [div_le_iff₀ hxw]; linarith
  · have hθ : 0 ≤ pw x w / x ^ w := by
      refine le_trans (by linarith) (?_ : 1 - κ ≤ _)
      rw [le_div_iff₀ hxw]; linarith
    have hpow : Rel p 3 (pw x w) (pw x w / x ^ w * X ^ w) := by
      have := (Rel.refl (p := p) hθ).mul hr
      rw [div_mul_cancel₀ _ hxw.ne'] at this
      exact this.mono (by omega)
    have := R.rel_rd ((R.rel_rd ((Rel.refl h1.le).mul hpow)).mul (Rel.refl h3.le))
    rw [show pw x w / x ^ w * (q.crossSection * X ^ w * q.gammaViscInv) =
      q.crossSection * (pw x w / x ^ w * X ^ w) * q.gammaViscInv by ring]
    exact this.mono (by omega)

/-- **C100**  With a viscosity exponent from 1/2 to 1 a variable hard sphere has its cross section up to five roundings and
the error of the power function.  The reported maximum is a bound up to rounding. -/
theorem C100_vhs (hp : 0 < p) {pw : ℝ → ℝ → ℝ} {κ : ℝ} (hpw : PowLib pw κ) (hκ0 : 0 ≤ κ) (hκ : κ < 1) {q : VHSParam}
    (hq : q.Good) (hm : q.viscTLaw ∈ FP p) (hw0 : 1 / 2 ≤ q.viscTLaw) (hw1 : q.viscTLaw ≤ 1) {mu e vmax : ℝ} (hmu : 0 < mu)
    (hv : 0 ≤ vmax) {x : XSec} (hx : mkVHSR R.rd pw q mu e = .ok x) :
    (∀ v, v < thresholdVR R.rd e mu → x.sigma v = .ok 0) ∧
    (∀ v, thresholdVR R.rd e mu ≤ v → ∃ s, x.sigma v = .ok s ∧
      |s - q.crossSection * (2 * q.KB * q.Tref / (mu * v ^ 2 + q.tiny)) ^ (q.viscTLaw - 1 / 2) * q.gammaViscInv| ≤
        (growth p 5 * (1 + κ) - 1) *
          (q.crossSection * (2 * q.KB * q.Tref / (mu * v ^ 2 + q.tiny)) ^ (q.viscTLaw - 1 / 2) * q.gammaViscInv)) ∧
    SigmaVBoundUpTo (growth p 11 * ((1 + κ) / (1 - κ))) x vmax ∧ SigmaVAttainedR R.rd x vmax := by
  unfold mkVHSR at hx
  split at hx
  · cases hx
  · rename_i tE tv hthr
    obtain ⟨-, -, rfl⟩ := threshold_cases hthr
    have htv := thresholdVR_nonneg R e mu
    set tv := thresholdVR R.rd e mu
    cases hx
    have hF : ∀ v, tv ≤ v → vhsSigma q mu tv v =
        q.crossSection * (2 * q.KB * q.Tref / (mu * v ^ 2 + q.tiny)) ^ (q.viscTLaw - 1 / 2) * q.gammaViscInv := by
      intro v h; unfold vhsSigma; rw [if_neg (not_lt.2 h)]
    have hFpos : ∀ v, tv ≤ v → 0 ≤ vhsSigma q mu tv v := by
      intro v h
      obtain ⟨h1, h2, h3, h4, h5⟩ := hq
      rw [hF v h]; positivity
    have zero : ∀ v, v < tv → vhsSigmaR R.rd pw q mu tv v = 0 := fun v h => by unfold vhsSigmaR; rw [if_pos h]
    have g5 := growth_one_le (p := p) 5
    have ub : ∀ v, tv ≤ v → vhsSigmaR R.rd pw q mu tv v ≤ growth p 5 * ((1 + κ) * vhsSigma q mu tv v) := by
      intro v h
      obtain ⟨θ, t1, t2, hr⟩ := vhs_rel R hp hpw hκ hq hm hw0 hw1 hmu h
      exact hr.le.trans (mul_le_mul_of_nonneg_left (mul_le_mul_of_nonneg_right t2 (hFpos v h)) (by linarith))
    have lb : ∀ v, tv ≤ v → (1 - κ) * vhsSigma q mu tv v ≤ growth p 5 * vhsSigmaR R.rd pw q mu tv v := by
      intro v h
      obtain ⟨θ, t1, t2, hr⟩ := vhs_rel R hp hpw hκ hq hm hw0 hw1 hmu h
      exact (mul_le_mul_of_nonneg_right t1 (hFpos v h)).trans hr.ge
    have nn : ∀ v, tv ≤ v → 0 ≤ vhsSigmaR R.rd pw q mu tv v := by
      intro v h
      obtain ⟨θ, t1, t2, hr⟩ := vhs_rel R hp hpw hκ hq hm hw0 hw1 hmu h
      exact hr.left_nonneg
    refine ⟨fun v h => by show Except.ok _ = _; rw [zero v h], fun v h => ⟨_, rfl, ?_⟩, ?_, ?_⟩
    · rw [← hF v h]
      have a := ub v h
      have b := lb v h
      have hF0 := hFpos v h
      generalize vhsSigma q mu tv v = F at *
      generalize vhsSigmaR R.rd pw q mu tv v = S at *
      rw [abs_le]
      constructor
      · have hc : growth p 5 * (F - S) ≤ (growth p 5 - 1 + κ) * F := by linarith
        have hd : 0 ≤ (growth p 5 * (1 + κ) - 1) * F := mul_nonneg (by nlinarith) hF0
        by_contra hn
        push Not at hn
        have h1 : (growth p 5 * (1 + κ) - 1) * F < F - S := by linarith
        have h2 : F - S ≤ growth p 5 * (F - S) := by nlinarith
        have h3 : (growth p 5 - 1 + κ) * F ≤ (growth p 5 * (1 + κ) - 1) * F :=
          mul_le_mul_of_nonneg_right (by nlinarith) hF0
        linarith
      · linarith
    · by_cases ht : vmax ≥ tv
      · refine ⟨_, vmax, by simp only [ht, if_true], R.nonneg (mul_nonneg (nn vmax ht) hv), fun v s h0 hle hs => ?_⟩
        cases hs
        have hM := (R.rel (mul_nonneg (nn vmax ht) hv)).ge
        set M := R.rd (vhsSigmaR R.rd pw q mu tv vmax * vmax) with hMdef
        have hM0 : 0 ≤ M := R.nonneg (mul_nonneg (nn vmax ht) hv)
        have hκ' : 0 < 1 - κ := by linarith
        by_cases hvt : v < tv
        · rw [zero v hvt, zero_mul]
          have := growth_pos (p := p) 11
          positivity
        · have hmono : vhsSigma q mu tv v * v ≤ vhsSigma q mu tv vmax * vmax := by
            rw [vhs_shape hq hmu (not_lt.1 hvt), vhs_shape hq hmu ht]
            obtain ⟨h1, h2, h3, h4, h5⟩ := hq
            exact mul_le_mul_of_nonneg_left (vhs_mono hmu h5 (by linarith) h0 hle) (by positivity)
          have a : vhsSigmaR R.rd pw q mu tv v * v ≤ growth p 5 * ((1 + κ) * (vhsSigma q mu tv v * v)) := by
            have := mul_le_mul_of_nonneg_right (ub v (not_lt.1 hvt)) h0
            linarith
          have b : (1 - κ) * (vhsSigma q mu tv vmax * vmax) ≤ growth p 5 * (growth p 1 * M) := by
            have := mul_le_mul_of_nonneg_right (lb vmax ht) hv
            have h' := mul_le_mul_of_nonneg_left hM (growth_pos (p := p) 5).le
            linarith
          have c : vhsSigma q mu tv vmax * vmax ≤ growth p 5 * (growth p 1 * M) / (1 - κ) := by
            rw [le_div_iff₀ hκ']; linarith
          calc _ ≤ growth p 5 * ((1 + κ) * (growth p 5 * (growth p 1 * M) / (1 - κ))) := by
                refine a.trans (mul_le_mul_of_nonneg_left (mul_le_mul_of_nonneg_left (hmono.trans c) (by linarith)) (by linarith))
            _ = _ := by
                rw [show 11 = 5 + 5 + 1 from rfl, growth_add, growth_add]; ring
      · refine ⟨0, 0, by simp only [ht, if_false], le_rfl, fun v s h0 hle hs => ?_⟩
        cases hs
        rw [zero v (by linarith [not_le.1 ht]), zero_mul, mul_zero]
    · by_cases ht : vmax ≥ tv
      · exact ⟨_, vmax, _, by simp only [ht, if_true], hv, le_rfl, rfl, rfl⟩
      · refine ⟨0, 0, 0, by simp only [ht, if_false], le_rfl, hv, ?_, by rw [zero_mul, R.rd_zero]⟩
        show Except.ok _ = _
        rw [zero 0 (by linarith [not_le.1 ht])]

/-! ## Tables -/

private theorem leverR_rel {i f : ℝ × ℝ} {v : ℝ} (hi : 0 ≤ i.2) (hf : 0 ≤ f.2) (h1 : i.1 ≤ v) (h2 : v ≤ f.1) :
    Rel p 6 (leverR R.rd i f v) (lever i f v) := by
  have hL : Rel p 2 (R.rd (1 / R.rd (f.1 - i.1))) (1 / (f.1 - i.1)) :=
    R.rel_rd ((Rel.refl zero_le_one).div (R.rel (by linarith : 0 ≤ f.1 - i.1)))
  have a := R.rel_rd ((R.rel_rd ((Rel.refl hi).mul hL)).mul (R.rel (by linarith : 0 ≤ f.1 - v)))
  have b := R.rel_rd ((R.rel_rd ((Rel.refl hf).mul hL)).mul (R.rel (by linarith : 0 ≤ v - i.1)))
  have c := R.rel_rd (a.add b)
  have e : lever i f v = i.2 * (1 / (f.1 - i.1)) * (f.1 - v) + f.2 * (1 / (f.1 - i.1)) * (v - i.1) := by
    unfold lever; ring
  rw [e]
  exact c.mono (by omega)

private theorem split_spec (t : XTable) (v : ℝ) :
    (∀ b ∈ belowOf t v, b ∈ t ∧ b.1 < v) ∧ (∀ a l, aboveOf t v = a :: l → a ∈ t ∧ v ≤ a.1) ∧
      ((∃ d ∈ t, v ≤ d.1) → aboveOf t v ≠ []) := by
  unfold belowOf aboveOf
  induction t with
  | nil => simp
  | cons c t ih =>
    obtain ⟨i1, i2, i3⟩ := ih
    by_cases hc : c.1 < v
    · rw [List.takeWhile_cons_of_pos (by simpa using hc), List.dropWhile_cons_of_pos (by simpa using hc)]
      refine ⟨fun b hb => ?_, fun a l h => ?_, ?_⟩
      · rcases List.mem_cons.1 hb with rfl | hb
        · exact ⟨by simp, hc⟩
        · exact ⟨List.mem_cons_of_mem _ (i1 b hb).1, (i1 b hb).2⟩
      · exact ⟨List.mem_cons_of_mem _ (i2 a l h).1, (i2 a l h).2⟩
      · rintro ⟨d, hd, hle⟩
        rcases List.mem_cons.1 hd with rfl | hd
        · linarith
        · exact i3 ⟨d, hd, hle⟩
    · rw [List.takeWhile_cons_of_neg (by simpa using hc), List.dropWhile_cons_of_neg (by simpa using hc)]
      refine ⟨by simp, fun a l h => ?_, fun _ => by simp⟩
      cases h
      exact ⟨by simp, not_lt.1 hc⟩

private theorem dataSigmaR_rel {t : XTable} (hpos : ∀ d ∈ t, 0 ≤ d.2) (ext : Option (ℝ → ℝ)) (co : Coeffs) {v : ℝ}
    (hv : ∃ d ∈ t, v ≤ d.1) : ∃ s s', dataSigmaR R.rd ext t v = .ok s ∧ dataSigma t co v = .ok s' ∧ Rel p 6 s s' := by
  obtain ⟨sp1, sp2, sp3⟩ := split_spec t v
  unfold dataSigmaR dataSigma evalSplitR evalSplit
  rcases ha : aboveOf t v with _ | ⟨a, l⟩
  · exact absurd ha (sp3 hv)
  obtain ⟨hamem, hva⟩ := sp2 a l ha
  rcases hb : (belowOf t v).getLast? with _ | b
  · refine ⟨_, _, rfl, rfl, ?_⟩
    have : 0 ≤ (if a.1 = v then a.2 else 0) := by
      split_ifs
      · exact hpos a hamem
      · exact le_rfl
    exact (Rel.refl this).mono (by omega)
  · obtain ⟨hbt, hbv⟩ := sp1 b (List.mem_of_getLast? hb)
    exact ⟨_, _, rfl, rfl, leverR_rel R (hpos b hbt) (hpos a hamem) hbv.le hva⟩

private theorem maxLoopR_spec (rd : ℝ → ℝ) (l : XTable) (r : ℝ × ℝ) :
    r.1 ≤ (maxLoopR rd l r).1 ∧ (∀ d ∈ l, rd (d.1 * d.2) ≤ (maxLoopR rd l r).1) ∧
      (maxLoopR rd l r = r ∨ ∃ d ∈ l, maxLoopR rd l r = (rd (d.1 * d.2), d.1)) := by
  induction l generalizing r with
  | nil => exact ⟨le_rfl, by simp, .inl rfl⟩
  | cons a l ih =>
    have e : maxLoopR rd (a :: l) r = maxLoopR rd l (if r.1 < rd (a.1 * a.2) then (rd (a.1 * a.2), a.1) else r) := rfl
    rw [e]
    split_ifs with h
    · obtain ⟨h1, h2, h3⟩ := ih (rd (a.1 * a.2), a.1)
      refine ⟨h.le.trans h1, fun d hd => ?_, .inr ?_⟩
      · rcases List.mem_cons.1 hd with rfl | hd
        · exact h1
        · exact h2 d hd
      · rcases h3 with h3 | ⟨d, hd, h3⟩
        · exact ⟨a, by simp, h3⟩
        · exact ⟨d, by simp [hd], h3⟩
    · obtain ⟨h1, h2, h3⟩ := ih r
      refine ⟨h1, fun d hd => ?_, ?_⟩
      · rcases List.mem_cons.1 hd with rfl | hd
        · exact (not_lt.1 h).trans h1
        · exact h2 d hd
      · rcases h3 with h3 | ⟨d, hd, h3⟩
        · exact .inl h3
        · exact .inr ⟨d, by simp [hd], h3⟩

/-- A rounded table beside the exact one. -/
private theorem table_pair {ext : XTable → Option (ℝ → ℝ)} {mu : ℝ} {t : XTable} {x : XSec} (ht : Increasing t)
    (hpos : ∀ d ∈ t, 0 ≤ d.2) (hx : mkDataR R.rd ext mu t = .ok x) :
    ∃ y pre t', mkData false mu t = .ok y ∧ t = pre ++ t' ∧ Increasing t' ∧ (∀ e ∈ pre, e.2 = 0) ∧
      (pre ≠ [] → ∀ e ∈ t'.head?, e.2 = 0) ∧ x.sigma = dataSigmaR R.rd (ext t') t' ∧
      x.maxSV = dataMaxR R.rd (ext t') t' ∧ y.maxSV = dataMax t' (setCoeffs false t'.reverse) ∧
      y.sigma = dataSigma t' (setCoeffs false t'.reverse) ∧
      ∀ v, (∃ d ∈ t, v ≤ d.1) → ∃ s s', x.sigma v = .ok s ∧ y.sigma v = .ok s' ∧ Rel p 6 s s' := by
  unfold mkDataR at hx
  rcases hc : checkThreshold t with _ | t'
  · rw [hc] at hx; cases hx
  rw [hc] at hx
  cases hx
  have hy : ∃ y, mkData false mu t = .ok y := by unfold mkData; rw [hc]; exact ⟨_, rfl⟩
  obtain ⟨y, hy⟩ := hy
  obtain ⟨zs, d, l, t'', rfl, hz, hd, ht'', hs, hm, -⟩ := mkData_ok hy
  obtain rfl : t' = t'' := by
    rw [checkThreshold_eq zs hz d hd l] at hc
    cases hc; exact ht''.symm
  obtain ⟨pre, hpre, hzero, hhead⟩ := trimmed_suffix zs hz d l
  rw [← ht''] at hpre hhead
  have hinc : Increasing t' := by
    rw [hpre] at ht
    exact (List.pairwise_append.1 ht).2.1
  refine ⟨y, pre, t', hy, hpre, hinc, hzero, hhead, rfl, rfl, hm, hs, fun v hv => ?_⟩
  rw [hs]
  refine dataSigmaR_rel R (fun e he => hpos e (by rw [hpre]; simp [he])) _ _ ?_
  obtain ⟨e, he, hle⟩ := hv
  rw [hpre] at he ht
  rcases List.mem_append.1 he with he | he
  · have hd' : d ∈ t' := by rw [ht'']; simp
    exact ⟨d, hd', hle.trans ((List.pairwise_append.1 ht).2.2 e he d hd').le⟩
  · exact ⟨e, he, hle⟩

/-- **C100**  Between two consecutive entries a table gives the straight line up to six roundings.  It is zero below the
first speed and exact at it. -/
theorem C100_table {ext : XTable → Option (ℝ → ℝ)} {mu : ℝ} {t : XTable} {x : XSec} (ht : Increasing t)
    (hpos : ∀ d ∈ t, 0 ≤ d.2) (hx : mkDataR R.rd ext mu t = .ok x) :
    (∀ l1 i f l2 v, t = l1 ++ i :: f :: l2 → i.1 ≤ v → v ≤ f.1 → ∃ s, x.sigma v = .ok s ∧ 0 ≤ s ∧
      |s - (i.2 + (f.2 - i.2) / (f.1 - i.1) * (v - i.1))| ≤
        (growth p 6 - 1) * (i.2 + (f.2 - i.2) / (f.1 - i.1) * (v - i.1)) ∧
      min i.2 f.2 ≤ growth p 6 * s ∧ s ≤ growth p 6 * max i.2 f.2) ∧
    (∀ d l, t = d :: l → x.sigma d.1 = .ok d.2 ∧ ∀ v, v < d.1 → x.sigma v = .ok 0) := by
  obtain ⟨y, pre, t', hy, hpre, hinc, hzero, hhead, hs, -, -, -, hrel⟩ := table_pair R ht hpos hx
  have of_zero : ∀ {s : ℝ}, Rel p 6 s 0 → s = 0 := fun h => le_antisymm (by have := h.le; simpa using this) h.left_nonneg
  constructor
  · rintro l1 i f l2 v rfl h1 h2
    obtain ⟨s, s', e1, e2, hr⟩ := hrel v ⟨f, by simp, h2⟩
    have e3 := C57_linear ht hy h1 h2
    obtain ⟨s'', e4, hmin, hmax⟩ := C57_between ht hy h1 h2
    rw [e2] at e3 e4
    cases e4
    cases e3
    exact ⟨s, e1, hr.left_nonneg, hr.abs_sub, hmin.trans hr.ge,
      hr.le.trans (mul_le_mul_of_nonneg_left hmax (growth_pos 6).le)⟩
  · rintro d l rfl
    refine ⟨?_, fun v hv => ?_⟩
    · rcases pre with _ | ⟨a, pre⟩
      · rw [List.nil_append] at hpre
        rw [hs, ← hpre]
        obtain ⟨e1, e2⟩ := takeWhile_split (t1 := []) (t2 := d :: l) (v := d.1) (by simp) (by simp)
        rw [List.nil_append] at e1 e2
        unfold dataSigmaR
        rw [e1, e2]
        simp [evalSplitR]
      · obtain ⟨s, s', e1, e2, hr⟩ := hrel d.1 ⟨d, by simp, le_rfl⟩
        rw [C57_points ht hy (d := d) (by simp)] at e2
        cases e2
        have hd : d.2 = 0 := hzero d (by rw [List.cons_append, List.cons.injEq] at hpre; simp [hpre.1])
        rw [hd] at hr
        rw [e1, hd, of_zero hr]
    · obtain ⟨s, s', e1, e2, hr⟩ := hrel v ⟨d, by simp, hv.le⟩
      rw [C57_below ht hy hv] at e2
      cases e2
      rw [e1, of_zero hr]

/-- **C100**  When every segment in range is safe, the maximum reported by a table is a bound up to thirteen roundings.  The
product at the reported speed comes up to it within seven. -/
theorem C100_table_bound {ext : XTable → Option (ℝ → ℝ)} {mu : ℝ} {t : XTable} {x : XSec} (ht : Increasing t)
    (hsp : ∀ d ∈ t, 0 ≤ d.1 ∧ 0 ≤ d.2) (hx : mkDataR R.rd ext mu t = .ok x) {vmax : ℝ} (h0 : 0 ≤ vmax)
    (hv : ∃ d ∈ t, vmax ≤ d.1) :
    (∃ M vm s, x.maxSV vmax = .ok (M, vm) ∧ 0 ≤ vm ∧ vm ≤ vmax ∧ x.sigma vm = .ok s ∧ M ≤ growth p 7 * (s * vm)) ∧
    ((∀ l1 i f l2, t = l1 ++ i :: f :: l2 → i.1 < vmax → SegmentSafe i f) → SigmaVBoundUpTo (growth p 13) x vmax) := by
  obtain ⟨y, pre, t', hy, hpre, hinc, hzero, hhead, hs, hm, hym, hyy, hrel⟩ := table_pair R ht (fun d hd => (hsp d hd).2) hx
  have hmem : ∀ d ∈ t', d ∈ t := fun d hd => by rw [hpre]; simp [hd]
  obtain ⟨s, s', e1, e2, hr⟩ := hrel vmax hv
  obtain ⟨b1, b2, b3⟩ := maxLoopR_spec R.rd (belowOf t' vmax) (0, 0)
  set r := maxLoopR R.rd (belowOf t' vmax) (0, 0) with hrdef
  have hmax : x.maxSV vmax = .ok (if r.1 < R.rd (vmax * s) then (R.rd (vmax * s), vmax) else r) := by
    rw [hm]
    unfold dataMaxR
    rw [← hs, e1]
  have hsv : 0 ≤ vmax * s := mul_nonneg h0 hr.left_nonneg
  obtain ⟨M, vm, hM, hMr, hMs, hcase⟩ : ∃ M vm, x.maxSV vmax = .ok (M, vm) ∧ r.1 ≤ M ∧ R.rd (vmax * s) ≤ M ∧
      ((M, vm) = r ∨ (M, vm) = (R.rd (vmax * s), vmax)) := by
    by_cases h : r.1 < R.rd (vmax * s)
    · exact ⟨_, _, by rw [hmax, if_pos h], h.le, le_rfl, .inr rfl⟩
    · exact ⟨r.1, r.2, by rw [hmax, if_neg h], le_rfl, not_lt.1 h, .inl rfl⟩
  have hM0 : 0 ≤ M := b1.trans hMr
  have h7 : growth p 6 * growth p 1 = growth p 7 := (growth_add 6 1).symm
  have hVs : vmax * s' ≤ growth p 7 * M := by
    calc vmax * s' ≤ vmax * (growth p 6 * s) := mul_le_mul_of_nonneg_left hr.ge h0
      _ = growth p 6 * (vmax * s) := by ring
      _ ≤ growth p 6 * (growth p 1 * M) := mul_le_mul_of_nonneg_left
          ((R.rel hsv).ge.trans (mul_le_mul_of_nonneg_left hMs (growth_pos 1).le)) (growth_pos 6).le
      _ = growth p 7 * M := by rw [← h7]; ring
  constructor
  · rcases hcase with hcase | hcase
    · rcases b3 with b3 | ⟨d, hd, b3⟩
      · rw [b3] at hcase
        cases hcase
        obtain ⟨s0, -, e0, -, hr0⟩ := hrel 0 (by obtain ⟨d, hd, -⟩ := hv; exact ⟨d, hd, (hsp d hd).1⟩)
        exact ⟨0, 0, s0, hM, le_rfl, h0, e0, by simp⟩
      · rw [b3] at hcase
        cases hcase
        obtain ⟨hdt, hdv⟩ := (mem_belowOf hinc).1 hd
        have hdt := hmem d hdt
        obtain ⟨s1, s1', f1, f2, hr1⟩ := hrel d.1 ⟨d, hdt, le_rfl⟩
        rw [C57_points ht hy hdt] at f2
        cases f2
        refine ⟨_, _, s1, hM, (hsp d hdt).1, hdv.le, f1, ?_⟩
        have a := (R.rel (mul_nonneg (hsp d hdt).1 (hsp d hdt).2)).le
        calc _ ≤ growth p 1 * (d.1 * d.2) := a
          _ ≤ growth p 1 * (d.1 * (growth p 6 * s1)) :=
            mul_le_mul_of_nonneg_left (mul_le_mul_of_nonneg_left hr1.ge (hsp d hdt).1) (growth_pos 1).le
          _ = growth p 7 * (s1 * d.1) := by rw [← h7]; ring
    · cases hcase
      refine ⟨_, _, s, hM, h0, le_rfl, e1, ?_⟩
      calc _ ≤ growth p 1 * (vmax * s) := (R.rel hsv).le
        _ ≤ growth p 7 * (vmax * s) := mul_le_mul_of_nonneg_right (growth_mono (by omega)) hsv
        _ = growth p 7 * (s * vmax) := by ring
  · intro hseg
    refine ⟨M, vm, hM, hM0, fun v w hv0 hle hw => ?_⟩
    obtain ⟨M', vm', hM', hbound⟩ := C58_bound ht hy hsp h0 hv hseg
    obtain ⟨a, a', f1, f2, hra⟩ := hrel v (by obtain ⟨d, hd, h⟩ := hv; exact ⟨d, hd, hle.trans h⟩)
    rw [hw] at f1
    cases f1
    have hM'le : M' ≤ growth p 7 * M := by
      have hM'' := hM'
      rw [hym] at hM''
      obtain ⟨-, -, s2, g1, -, g2⟩ := dataMax_spec hinc hM''
      have hs2 : s2 = s' := by
        rw [hyy, g1] at e2
        cases e2; rfl
      rw [hs2] at g2
      have hg := growth_pos (p := p) 7
      rcases g2 with ⟨rfl, -⟩ | ⟨d, hd, hdv, -, rfl⟩ | ⟨-, rfl⟩
      · positivity
      · have hdt := hmem d hd
        have c1 := (R.rel (mul_nonneg (hsp d hdt).1 (hsp d hdt).2)).ge
        have c2 := (b2 d ((mem_belowOf hinc).2 ⟨hd, hdv⟩)).trans hMr
        calc _ ≤ growth p 1 * M := c1.trans (mul_le_mul_of_nonneg_left c2 (growth_pos 1).le)
          _ ≤ _ := mul_le_mul_of_nonneg_right (growth_mono (by omega)) hM0
      · exact hVs
    calc w * v ≤ growth p 6 * a' * v := mul_le_mul_of_nonneg_right hra.le hv0
      _ = growth p 6 * (a' * v) := by ring
      _ ≤ growth p 6 * (growth p 7 * M) :=
          mul_le_mul_of_nonneg_left ((hbound v a' hv0 hle f2).trans hM'le) (growth_pos 6).le
      _ = growth p 13 * M := by rw [show 13 = 6 + 7 from rfl, growth_add]; ring

private theorem two_rows {rd : ℝ → ℝ} (ext : XTable → Option (ℝ → ℝ)) {mu : ℝ} {i f : ℝ × ℝ}
    (hf : f.2 ≠ 0) : ∃ x, mkDataR rd ext mu [i, f] = .ok x ∧ x.maxSV = dataMaxR rd (ext [i, f]) [i, f] ∧
      ∀ v, i.1 < v → v ≤ f.1 → x.sigma v = .ok (leverR rd i f v) := by
  have hc : checkThreshold [i, f] = .ok [i, f] := by
    by_cases hi : i.2 = 0
    · exact checkThreshold_eq [i] (by simpa using hi) f hf []
    · exact checkThreshold_eq [] (by simp) i hi [f]
  refine ⟨_, by unfold mkDataR; rw [hc], rfl, fun v h1 h2 => ?_⟩
  obtain ⟨e1, e2⟩ := takeWhile_split (t1 := [i]) (t2 := [f]) (v := v) (by simpa using h1) (by simpa using h2)
  show dataSigmaR _ _ ([i] ++ [f]) _ = _
  unfold dataSigmaR
  rw [e1, e2]
  rfl

/-- **C100**  In `double` a table need not return a tabulated value at its own speed: the value 1 at the speed 49 comes out
as the number before it. -/
theorem C100_table_point_off (R : Rounding 53) (ext : XTable → Option (ℝ → ℝ)) (mu : ℝ) :
    ∃ x, mkDataR R.rd ext mu [(0, 0), (49, 1)] = .ok x ∧ x.sigma 49 = .ok (1 - 2 ^ (-53 : ℤ)) := by
  obtain ⟨x, hx, -, hs⟩ := two_rows (rd := R.rd) ext (mu := mu) (i := (0, 0)) (f := (49, 1)) (by norm_num)
  refine ⟨x, hx, ?_⟩
  rw [hs 49 (by norm_num) (by norm_num)]
  have h49 : R.rd 49 = 49 := R.rd_of_mem (by exact_mod_cast fp_nat (p := 53) (n := 49) (by norm_num))
  have hL : R.rd (1 / 49) = (5882252574524729 : ℤ) * 2 ^ (-58 : ℤ) :=
    R.rd_eq (by norm_num) (by norm_num) (by norm_num) (by rw [abs_lt]; constructor <;> norm_num)
  have hg : R.rd (((5882252574524729 : ℤ) * (2 : ℝ) ^ (-58 : ℤ)) * 49) = (9007199254740991 : ℤ) * 2 ^ (-53 : ℤ) :=
    R.rd_eq (by norm_num) (by norm_num) (by norm_num) (by rw [abs_lt]; constructor <;> norm_num)
  unfold leverR
  simp only [sub_zero, sub_self, h49, zero_mul, one_mul, R.rd_zero, zero_add, R.rd_of_mem (R.mem _)]
  rw [hL, hg]
  norm_num

/-- **C100**  In `double` a flat table can give more than its value between its entries, at a number. -/
theorem C100_table_overshoots (R : Rounding 53) (ext : XTable → Option (ℝ → ℝ)) (mu : ℝ) :
    ∃ x, mkDataR R.rd ext mu [(0, 1), (91, 1)] = .ok x ∧ x.sigma 3 = .ok (1 + 2 ^ (-52 : ℤ)) := by
  obtain ⟨x, hx, -, hs⟩ := two_rows (rd := R.rd) ext (mu := mu) (i := (0, 1)) (f := (91, 1)) (by norm_num)
  refine ⟨x, hx, ?_⟩
  rw [hs 3 (by norm_num) (by norm_num)]
  have h91 : R.rd 91 = 91 := R.rd_of_mem (by exact_mod_cast fp_nat (p := 53) (n := 91) (by norm_num))
  have h88 : R.rd (91 - 3) = 88 := by
    rw [show (91 - 3 : ℝ) = 88 by norm_num]
    exact R.rd_of_mem (by exact_mod_cast fp_nat (p := 53) (n := 88) (by norm_num))
  have h3 : R.rd 3 = 3 := R.rd_of_mem (by exact_mod_cast fp_nat (p := 53) (n := 3) (by norm_num))
  have hL : R.rd (1 / 91) = (6334733541795863 : ℤ) * 2 ^ (-59 : ℤ) :=
    R.rd_eq (by norm_num) (by norm_num) (by norm_num) (by rw [abs_lt]; constructor <;> norm_num)
  have hc : R.rd (((6334733541795863 : ℤ) * (2 : ℝ) ^ (-59 : ℤ)) * 88) = (8710258619969312 : ℤ) * 2 ^ (-53 : ℤ) :=
    R.rd_eq (by norm_num) (by norm_num) (by norm_num) (by rw [abs_lt]; constructor <;> norm_num)
  have hg : R.rd (((6334733541795863 : ℤ) * (2 : ℝ) ^ (-59 : ℤ)) * 3) = (4751050156346897 : ℤ) * 2 ^ (-57 : ℤ) :=
    R.rd_eq (by norm_num) (by norm_num) (by norm_num) (by rw [abs_lt]; constructor <;> norm_num)
  have hr : R.rd ((8710258619969312 : ℤ) * (2 : ℝ) ^ (-53 : ℤ) + (4751050156346897 : ℤ) * (2 : ℝ) ^ (-57 : ℤ)) =
      (4503599627370497 : ℤ) * 2 ^ (-52 : ℤ) :=
    R.rd_eq (by norm_num) (by norm_num) (by norm_num) (by rw [abs_lt]; constructor <;> norm_num)
  unfold leverR
  simp only [sub_zero, h91, h3, h88, one_mul, R.rd_of_mem (R.mem _)]
  rw [hL, hc, hg, hr]
  norm_num

/-- Just above 1 the nearest number is 1. -/
private theorem rd_near_one (R : Rounding 53) : R.rd (1 + 2 ^ (-54 : ℤ)) = 1 := by
  have h := abs_le.1 (R.near (1 + 2 ^ (-54 : ℤ)) 1 fp_one)
  have e : |(1 + 2 ^ (-54 : ℤ) : ℝ) - 1| = 2 ^ (-54 : ℤ) := by
    rw [add_sub_cancel_left, abs_of_pos (by norm_num)]
  rw [e] at h
  have h1 : 1 ≤ R.rd (1 + 2 ^ (-54 : ℤ)) := by linarith [h.1, h.2]
  have h2 : R.rd (1 + 2 ^ (-54 : ℤ)) ≤ 1 + 2 * 2 ^ (-54 : ℤ) := by linarith [h.1, h.2]
  obtain ⟨M, k, n1, n2, n3⟩ := fp_normal (R.mem (1 + 2 ^ (-54 : ℤ))) (by linarith)
  rw [n3] at h1 h2 ⊢
  have m1 : (4503599627370497 : ℝ) ≤ M := by
    have : (4503599627370497 : ℤ) ≤ M := by norm_num at n1; omega
    exact_mod_cast this
  have m2 : (M : ℝ) ≤ 9007199254740992 := by
    have : M ≤ (9007199254740992 : ℤ) := by norm_num at n2; omega
    exact_mod_cast this
  rcases le_or_gt k (-53) with hk | hk
  · have hz : (2 : ℝ) ^ k ≤ 2 ^ (-53 : ℤ) := zpow_le_zpow_right₀ (by norm_num) hk
    refine le_antisymm ?_ h1
    calc (M : ℝ) * 2 ^ k ≤ 9007199254740992 * 2 ^ (-53 : ℤ) := mul_le_mul m2 hz (by positivity) (by norm_num)
      _ = 1 := by norm_num
  · have hz : (2 : ℝ) ^ (-52 : ℤ) ≤ 2 ^ k := zpow_le_zpow_right₀ (by norm_num) (by omega)
    have : (4503599627370497 : ℝ) * 2 ^ (-52 : ℤ) ≤ M * 2 ^ k := mul_le_mul m1 hz (by positivity) (by linarith)
    norm_num at this h2
    linarith

/-- **C100**  In `double` the maximum reported by a flat table can be exceeded at a number below `vmax`, also by the rounded
product. -/
theorem C100_table_exceeds (R : Rounding 53) (ext : XTable → Option (ℝ → ℝ)) (mu : ℝ) :
    ∃ x, mkDataR R.rd ext mu [(0, 1), (99, 1)] = .ok x ∧ ∃ M vm v s, x.maxSV 62 = .ok (M, vm) ∧ v ∈ FP 53 ∧ 0 ≤ v ∧
      v < 62 ∧ x.sigma v = .ok s ∧ M < s * v ∧ M < R.rd (s * v) := by
  obtain ⟨x, hx, hm, hs⟩ := two_rows (rd := R.rd) ext (mu := mu) (i := (0, 1)) (f := (99, 1)) (by norm_num)
  have nat : ∀ n : ℕ, n ≤ 2 ^ 53 → R.rd (n : ℝ) = n := fun n hn => R.rd_of_mem (fp_nat hn)
  have h99 : R.rd 99 = 99 := by exact_mod_cast nat 99 (by norm_num)
  have h62 : R.rd 62 = 62 := by exact_mod_cast nat 62 (by norm_num)
  have h37 : R.rd (99 - 62) = 37 := by rw [show (99 - 62 : ℝ) = (37 : ℕ) by norm_num]; exact_mod_cast nat 37 (by norm_num)
  have hL : R.rd (1 / 99) = (5822835881852763 : ℤ) * 2 ^ (-59 : ℤ) :=
    R.rd_eq (by norm_num) (by norm_num) (by norm_num) (by rw [abs_lt]; constructor <;> norm_num)
  -- the value at 62
  have hc : R.rd (((5822835881852763 : ℤ) * (2 : ℝ) ^ (-59 : ℤ)) * 37) = (6732653988392257 : ℤ) * 2 ^ (-54 : ℤ) :=
    R.rd_eq (by norm_num) (by norm_num) (by norm_num) (by rw [abs_lt]; constructor <;> norm_num)
  have hg : R.rd (((5822835881852763 : ℤ) * (2 : ℝ) ^ (-59 : ℤ)) * 62) = (5640872260544864 : ℤ) * 2 ^ (-53 : ℤ) :=
    R.rd_eq (by norm_num) (by norm_num) (by norm_num) (by rw [abs_lt]; constructor <;> norm_num)
  have hr : R.rd ((6732653988392257 : ℤ) * (2 : ℝ) ^ (-54 : ℤ) + (5640872260544864 : ℤ) * (2 : ℝ) ^ (-53 : ℤ)) =
      1 := by
    rw [show ((6732653988392257 : ℤ) : ℝ) * (2 : ℝ) ^ (-54 : ℤ) + ((5640872260544864 : ℤ) : ℝ) * (2 : ℝ) ^ (-53 : ℤ) =
      1 + 2 ^ (-54 : ℤ) by norm_num]
    exact rd_near_one R
  have s62 : leverR R.rd (0, 1) (99, 1) 62 = 1 := by
    unfold leverR
    simp only [sub_zero, h99, h62, h37, one_mul, R.rd_of_mem (R.mem _)]
    rw [hL, hc, hg, hr]
  -- the value at the number before 62
  set v : ℝ := (8725724278030335 : ℤ) * 2 ^ (-47 : ℤ) with hv
  have hvm : v ∈ FP 53 := ⟨8725724278030335, -47, by norm_num, rfl⟩
  have hv0 : 0 < v := by rw [hv]; norm_num
  have hv1 : v < 62 := by rw [hv]; norm_num
  have hb : R.rd (99 - v) = (5207287069147137 : ℤ) * 2 ^ (-47 : ℤ) := by
    have : (99 - v : ℝ) = (5207287069147137 : ℤ) * 2 ^ (-47 : ℤ) := by rw [hv]; norm_num
    rw [this]
    exact R.rd_of_mem ⟨5207287069147137, -47, by norm_num, rfl⟩
  have kc : R.rd (((5822835881852763 : ℤ) * (2 : ℝ) ^ (-59 : ℤ)) * ((5207287069147137 : ℤ) * (2 : ℝ) ^ (-47 : ℤ))) =
      (6732653988392259 : ℤ) * 2 ^ (-54 : ℤ) :=
    R.rd_eq (by norm_num) (by norm_num) (by norm_num) (by rw [abs_lt]; constructor <;> norm_num)
  have kg : R.rd (((5822835881852763 : ℤ) * (2 : ℝ) ^ (-59 : ℤ)) * v) = (5640872260544864 : ℤ) * 2 ^ (-53 : ℤ) :=
    R.rd_eq (by norm_num) (by norm_num) (by norm_num) (by rw [abs_lt, hv]; constructor <;> norm_num)
  have kr : R.rd ((6732653988392259 : ℤ) * (2 : ℝ) ^ (-54 : ℤ) + (5640872260544864 : ℤ) * (2 : ℝ) ^ (-53 : ℤ)) =
      (4503599627370497 : ℤ) * 2 ^ (-52 : ℤ) :=
    R.rd_eq (by norm_num) (by norm_num) (by norm_num) (by rw [abs_lt]; constructor <;> norm_num)
  have sv : leverR R.rd (0, 1) (99, 1) v = (4503599627370497 : ℤ) * 2 ^ (-52 : ℤ) := by
    unfold leverR
    simp only [sub_zero, h99, hb, one_mul, R.rd_of_mem (R.mem _), R.rd_of_mem hvm]
    rw [hL, kc, kg, kr]
  refine ⟨x, hx, 62, 62, v, _, ?_, hvm, hv0.le, hv1, by rw [hs v hv0 (by show v ≤ 99; linarith), sv], ?_, ?_⟩
  · have e : dataSigmaR R.rd (ext [(0, 1), (99, 1)]) [(0, 1), (99, 1)] 62 = .ok 1 := by
      obtain ⟨e1, e2⟩ := takeWhile_split (t1 := [((0 : ℝ), (1 : ℝ))]) (t2 := [(99, 1)]) (v := 62) (by simp) (by norm_num)
      have e3 : evalSplitR R.rd (ext [(0, 1), (99, 1)]) 62 [(0, 1)] [(99, 1)] = .ok 1 := by
        show Except.ok (leverR R.rd (0, 1) (99, 1) 62) = _
        rw [s62]
      unfold dataSigmaR
      simp only [List.singleton_append] at e1 e2
      rw [e1, e2, e3]
    obtain ⟨e1, -⟩ := takeWhile_split (t1 := [((0 : ℝ), (1 : ℝ))]) (t2 := [(99, 1)]) (v := 62) (by simp) (by norm_num)
    simp only [List.singleton_append] at e1
    rw [hm]
    unfold dataMaxR
    rw [e, e1]
    simp [maxLoopR, R.rd_zero, h62]
  · rw [hv]; norm_num
  · have : R.rd ((4503599627370497 : ℤ) * (2 : ℝ) ^ (-52 : ℤ) * v) = (8725724278030337 : ℤ) * 2 ^ (-47 : ℤ) :=
      R.rd_eq (by norm_num) (by norm_num) (by norm_num) (by rw [abs_lt, hv]; constructor <;> norm_num)
    rw [this]; norm_num

/-! ## Averages -/

private theorem avg_rel {s0 s1 : ℝ → Except XErr ℝ} {v a b : ℝ} (h0 : s0 v = .ok a) (h1 : s1 v = .ok b) (ha : 0 ≤ a)
    (hb : 0 ≤ b) : ∃ s, avgSigmaR R.rd s0 s1 v = .ok s ∧ avgSigmaR R.rd s1 s0 v = .ok s ∧
      Rel p 6 s (((Real.sqrt a + Real.sqrt b) / 2) ^ 2) := by
  have e : ∀ x y : ℝ, 0 ≤ x → 0 ≤ y → ∀ f g : ℝ → Except XErr ℝ, f v = .ok x → g v = .ok y → avgSigmaR R.rd f g v =
      .ok (R.rd (1 / 4 * R.rd (R.rd (R.rd (Real.sqrt x) + R.rd (Real.sqrt y)) *
        R.rd (R.rd (Real.sqrt x) + R.rd (Real.sqrt y))))) := by
    intro x y hx hy f g hf hg
    simp only [avgSigmaR, hf, hg, sqrtER, hx, hy, if_true, bind, Except.bind, pure, Except.pure]
  refine ⟨_, e a b ha hb _ _ h0 h1, ?_, ?_⟩
  · rw [e b a hb ha _ _ h1 h0, add_comm (R.rd (Real.sqrt b))]
  · have d := R.rel_rd ((R.rel (Real.sqrt_nonneg a)).add (R.rel (Real.sqrt_nonneg b)))
    have q := R.rel_rd ((Rel.refl (by norm_num : (0 : ℝ) ≤ 1 / 4)).mul (R.rel_rd (d.mul d)))
    rw [show ((Real.sqrt a + Real.sqrt b) / 2) ^ 2 =
      1 / 4 * ((Real.sqrt a + Real.sqrt b) * (Real.sqrt a + Real.sqrt b)) by ring]
    exact q.mono (by omega)

/-- **C100**  The average of two nonnegative cross sections is the square of the mean diameter up to six roundings.  The
order of the two does not matter, not even in the last digit. -/
theorem C100_average {c0 c1 : XSec} {v s0 s1 : ℝ} (h0 : c0.sigma v = .ok s0) (h1 : c1.sigma v = .ok s1) (p0 : 0 ≤ s0)
    (p1 : 0 ≤ s1) : ∃ s, (mkAvgEasyR R.rd c0 c1).sigma v = .ok s ∧ (mkAvgEasyR R.rd c1 c0).sigma v = .ok s ∧
      |s - ((Real.sqrt s0 + Real.sqrt s1) / 2) ^ 2| ≤ (growth p 6 - 1) * ((Real.sqrt s0 + Real.sqrt s1) / 2) ^ 2 ∧
      min s0 s1 ≤ growth p 6 * s ∧ s ≤ growth p 6 * max s0 s1 ∧ (s = 0 ↔ s0 = 0 ∧ s1 = 0) := by
  obtain ⟨s, e1, e2, hr⟩ := avg_rel R h0 h1 p0 p1
  have q0 := Real.sq_sqrt p0
  have q1 := Real.sq_sqrt p1
  have n0 := Real.sqrt_nonneg s0
  have n1 := Real.sqrt_nonneg s1
  have hmin : min s0 s1 ≤ ((Real.sqrt s0 + Real.sqrt s1) / 2) ^ 2 := by
    rcases le_total s0 s1 with h | h
    · rw [min_eq_left h]; have := Real.sqrt_le_sqrt h; nlinarith
    · rw [min_eq_right h]; have := Real.sqrt_le_sqrt h; nlinarith
  have hmax : ((Real.sqrt s0 + Real.sqrt s1) / 2) ^ 2 ≤ max s0 s1 := by
    rcases le_total s0 s1 with h | h
    · rw [max_eq_right h]; have := Real.sqrt_le_sqrt h; nlinarith
    · rw [max_eq_left h]; have := Real.sqrt_le_sqrt h; nlinarith
  refine ⟨s, e1, e2, hr.abs_sub, hmin.trans hr.ge, hr.le.trans (mul_le_mul_of_nonneg_left hmax (growth_pos 6).le), ?_⟩
  constructor
  · rintro rfl
    have hz : ((Real.sqrt s0 + Real.sqrt s1) / 2) ^ 2 = 0 := le_antisymm (by simpa using hr.ge) (sq_nonneg _)
    have hz : (Real.sqrt s0 + Real.sqrt s1) / 2 = 0 := by simpa using hz
    exact ⟨(Real.sqrt_eq_zero p0).1 (by linarith), (Real.sqrt_eq_zero p1).1 (by linarith)⟩
  · rintro ⟨rfl, rfl⟩
    have := hr.le
    simp only [Real.sqrt_zero, add_zero, zero_div, ne_eq, OfNat.ofNat_ne_zero, not_false_eq_true, zero_pow, mul_zero] at this
    exact le_antisymm this hr.left_nonneg

/-- **C100**  When the products of both components at lower speeds exceed those at `vmax` at most by the factor `c`, the
reported maximum of the average is a bound up to thirteen roundings and this factor. -/
theorem C100_average_bound {c0 c1 : XSec} {f0 f1 : ℝ → ℝ} {vmax c : ℝ} (hv : 0 ≤ vmax) (hc : 0 ≤ c)
    (h0 : ∀ v, 0 ≤ v → v ≤ vmax → c0.sigma v = .ok (f0 v) ∧ 0 ≤ f0 v)
    (h1 : ∀ v, 0 ≤ v → v ≤ vmax → c1.sigma v = .ok (f1 v) ∧ 0 ≤ f1 v)
    (m0 : ∀ v, 0 ≤ v → v ≤ vmax → f0 v * v ≤ c * (f0 vmax * vmax))
    (m1 : ∀ v, 0 ≤ v → v ≤ vmax → f1 v * v ≤ c * (f1 vmax * vmax)) :
    SigmaVBoundUpTo (growth p 13 * c) (mkAvgEasyR R.rd c0 c1) vmax ∧
      SigmaVAttainedR R.rd (mkAvgEasyR R.rd c0 c1) vmax := by
  obtain ⟨a0, b0⟩ := h0 vmax hv le_rfl
  obtain ⟨a1, b1⟩ := h1 vmax hv le_rfl
  obtain ⟨S, hS, -, hSr⟩ := avg_rel R a0 a1 b0 b1
  have hS0 := hSr.left_nonneg
  have prod : ∀ v, 0 ≤ v → v ≤ vmax → ((Real.sqrt (f0 v) + Real.sqrt (f1 v)) / 2) ^ 2 * v =
      ((Real.sqrt (f0 v * v) + Real.sqrt (f1 v * v)) / 2) ^ 2 := by
    intro v ha hb
    rw [Real.sqrt_mul (h0 v ha hb).2, Real.sqrt_mul (h1 v ha hb).2, ← add_mul, div_pow, div_pow, mul_pow, Real.sq_sqrt ha]
    ring
  have hle : ∀ v, 0 ≤ v → v ≤ vmax → ((Real.sqrt (f0 v) + Real.sqrt (f1 v)) / 2) ^ 2 * v ≤
      c * (((Real.sqrt (f0 vmax) + Real.sqrt (f1 vmax)) / 2) ^ 2 * vmax) := by
    intro v ha hb
    rw [prod v ha hb, prod vmax hv le_rfl]
    have a := Real.sqrt_le_sqrt (m0 v ha hb)
    have b := Real.sqrt_le_sqrt (m1 v ha hb)
    rw [Real.sqrt_mul hc] at a b
    have := Real.sqrt_nonneg (f0 v * v)
    have := Real.sqrt_nonneg (f1 v * v)
    calc _ ≤ ((Real.sqrt c * Real.sqrt (f0 vmax * vmax) + Real.sqrt c * Real.sqrt (f1 vmax * vmax)) / 2) ^ 2 := by gcongr
      _ = Real.sqrt c ^ 2 * ((Real.sqrt (f0 vmax * vmax) + Real.sqrt (f1 vmax * vmax)) / 2) ^ 2 := by ring
      _ = _ := by rw [Real.sq_sqrt hc]
  have hmax : (mkAvgEasyR R.rd c0 c1).maxSV vmax = .ok (if S > 0 then (R.rd (S * vmax), vmax) else (0, 0)) := by
    show (match avgSigmaR R.rd c0.sigma c1.sigma vmax with | .error x => _ | .ok val => _) = _
    rw [hS]
  obtain ⟨M, vm, hM, hMS, hatt⟩ : ∃ M vm, (mkAvgEasyR R.rd c0 c1).maxSV vmax = .ok (M, vm) ∧ M = R.rd (S * vmax) ∧
      (vm = vmax ∨ (vm = 0 ∧ M = 0)) := by
    by_cases h : S > 0
    · exact ⟨_, _, by rw [hmax, if_pos h], rfl, .inl rfl⟩
    · refine ⟨0, 0, by rw [hmax, if_neg h], ?_, .inr ⟨rfl, rfl⟩⟩
      rw [le_antisymm (not_lt.1 h) hS0, zero_mul, R.rd_zero]
  have hSv : 0 ≤ S * vmax := mul_nonneg hS0 hv
  have hM0 : 0 ≤ M := by rw [hMS]; exact R.nonneg hSv
  constructor
  · refine ⟨M, vm, hM, hM0, fun v s hv0 hvle hs => ?_⟩
    obtain ⟨s', e1, -, hr⟩ := avg_rel R (h0 v hv0 hvle).1 (h1 v hv0 hvle).1 (h0 v hv0 hvle).2 (h1 v hv0 hvle).2
    obtain rfl : s' = s := by
      have : (mkAvgEasyR R.rd c0 c1).sigma v = .ok s' := e1
      rw [this] at hs
      cases hs; rfl
    have g6 := (growth_pos (p := p) 6).le
    have k1 : S * vmax ≤ growth p 1 * M := by rw [hMS]; exact (R.rel hSv).ge
    have k2 := mul_le_mul_of_nonneg_right hSr.ge hv
    calc s' * v ≤ growth p 6 * ((Real.sqrt (f0 v) + Real.sqrt (f1 v)) / 2) ^ 2 * v := mul_le_mul_of_nonneg_right hr.le hv0
      _ = growth p 6 * (((Real.sqrt (f0 v) + Real.sqrt (f1 v)) / 2) ^ 2 * v) := by ring
      _ ≤ growth p 6 * (c * (growth p 6 * (growth p 1 * M))) := by
          refine mul_le_mul_of_nonneg_left ((hle v hv0 hvle).trans (mul_le_mul_of_nonneg_left ?_ hc)) g6
          refine k2.trans ?_
          rw [mul_assoc]
          exact mul_le_mul_of_nonneg_left k1 g6
      _ = growth p 13 * c * M := by rw [show 13 = 6 + 6 + 1 from rfl, growth_add, growth_add]; ring
  · rcases hatt with rfl | ⟨rfl, hz⟩
    · exact ⟨M, _, S, hM, hv, le_rfl, hS, hMS.symm⟩
    · obtain ⟨s, e1, -, -⟩ := avg_rel R (h0 0 le_rfl hv).1 (h1 0 le_rfl hv).1 (h0 0 le_rfl hv).2 (h1 0 le_rfl hv).2
      exact ⟨M, 0, s, hM, le_rfl, hv, e1, by rw [mul_zero, R.rd_zero, hz]⟩

/-! ## Cases -/

/-- A constant cross section in `double`. -/
example (R : Rounding 53) : ∃ x, mkConstantR R.rd 3 2 4 = .ok x ∧ SigmaVBoundUpTo (growth 53 1) x 5 := by
  have h : ∃ x, mkConstantR R.rd 3 2 4 = .ok x := by
    unfold mkConstantR setThresholdR; rw [if_neg (by norm_num)]; exact ⟨_, rfl⟩
  obtain ⟨x, hx⟩ := h
  exact ⟨x, hx, (C100_constant R (by norm_num) (by norm_num) hx).2.1⟩

/-- A hard-sphere gas with the exponent 3/4, a number, and an exact power function. -/
example (R : Rounding 53) : ∃ x, mkVHSR R.rd (fun x y => x ^ y) ⟨4, 273, 3 / 4, 1.1, 1, 1 / 1000⟩ 2 4 = .ok x ∧
    SigmaVBoundUpTo (growth 53 11 * ((1 + 0) / (1 - 0))) x 7 := by
  have h : ∃ x, mkVHSR R.rd (fun x y => x ^ y) ⟨4, 273, 3 / 4, 1.1, 1, 1 / 1000⟩ 2 4 = .ok x := by
    unfold mkVHSR setThresholdR; rw [if_neg (by norm_num)]; exact ⟨_, rfl⟩
  obtain ⟨x, hx⟩ := h
  refine ⟨x, hx, (C100_vhs R (by norm_num) (κ := 0) (fun x hx y => by simp) le_rfl (by norm_num)
    (by constructor <;> norm_num) ⟨3, -2, by norm_num, by norm_num⟩ (by norm_num) (by norm_num) (by norm_num) (by norm_num)
    hx).2.2.1⟩

/-- The table of C57. -/
example (R : Rounding 53) : ∃ x, mkDataR R.rd (fun _ => none) 2 [(1, 0), (2, 0), (3, 4), (5, 8)] = .ok x ∧
    SigmaVBoundUpTo (growth 53 13) x 4 ∧ x.sigma 1 = .ok 0 := by
  have hc := checkThreshold_eq [(1, 0), (2, 0)] (by simp) (3, 4) (by norm_num) [(5, 8)]
  have h : ∃ x, mkDataR R.rd (fun _ => none) 2 [(1, 0), (2, 0), (3, 4), (5, 8)] = .ok x := by
    unfold mkDataR
    rw [show ([(1, 0), (2, 0), (3, 4), (5, 8)] : XTable) = [(1, 0), (2, 0)] ++ (3, 4) :: [(5, 8)] from rfl, hc]
    exact ⟨_, rfl⟩
  obtain ⟨x, hx⟩ := h
  have hinc : Increasing [((1 : ℝ), (0 : ℝ)), (2, 0), (3, 4), (5, 8)] := by norm_num [Increasing]
  have hsp : ∀ d ∈ [((1 : ℝ), (0 : ℝ)), (2, 0), (3, 4), (5, 8)], 0 ≤ d.1 ∧ 0 ≤ d.2 := by
    intro d hd; simp only [List.mem_cons, List.not_mem_nil, or_false] at hd
    rcases hd with rfl | rfl | rfl | rfl <;> norm_num
  refine ⟨x, hx, (C100_table_bound R hinc hsp hx (by norm_num) ⟨(5, 8), by simp, by norm_num⟩).2 fun l1 i f l2 hl _ => ?_,
    ((C100_table R hinc (fun d hd => (hsp d hd).2) hx).2 _ _ rfl).1⟩
  have hif : i.1 < f.1 ∧ i.2 ≤ f.2 := by
    rcases l1 with _ | ⟨a, _ | ⟨b, _ | ⟨c, _ | ⟨d, l1⟩⟩⟩⟩
    · simp only [List.nil_append, List.cons.injEq] at hl; obtain ⟨rfl, rfl, -⟩ := hl; norm_num
    · simp only [List.cons_append, List.nil_append, List.cons.injEq] at hl; obtain ⟨-, rfl, rfl, -⟩ := hl; norm_num
    · simp only [List.cons_append, List.nil_append, List.cons.injEq] at hl; obtain ⟨-, -, rfl, rfl, -⟩ := hl; norm_num
    · simp at hl
    · simp at hl
  have hi : i ∈ [((1 : ℝ), (0 : ℝ)), (2, 0), (3, 4), (5, 8)] := by rw [hl]; simp
  exact segmentSafe_of_rising (hsp i hi).1 hif.1 (hsp i hi).2 hif.2

/-- The average of two constants. -/
example (R : Rounding 53) : ∃ x y, mkConstantR R.rd 4 2 0 = .ok x ∧ mkConstantR R.rd 9 2 0 = .ok y ∧
    SigmaVBoundUpTo (growth 53 13 * 1) (mkAvgEasyR R.rd x y) 5 := by
  have ht : thresholdVR R.rd 0 2 = 0 := by simp [thresholdVR, R.rd_zero]
  have h : ∀ c : ℝ, 0 ≤ c → ∃ x, mkConstantR R.rd c 2 0 = .ok x ∧ ∀ v, 0 ≤ v → v ≤ 5 → x.sigma v = .ok c ∧ 0 ≤ c := by
    intro c hc
    refine ⟨_, by unfold mkConstantR setThresholdR; rw [if_neg (lt_irrefl 0)], fun v h0 _ => ⟨?_, hc⟩⟩
    show Except.ok (if v ≥ thresholdVR R.rd 0 2 then c else 0) = _
    rw [ht, if_pos h0]
  obtain ⟨x, hx, sx⟩ := h 4 (by norm_num)
  obtain ⟨y, hy, sy⟩ := h 9 (by norm_num)
  exact ⟨x, y, hx, hy, (C100_average_bound R (f0 := fun _ => 4) (f1 := fun _ => 9) (by norm_num) zero_le_one sx sy
    (fun v _ h => by linarith) (fun v _ h => by linarith)).1⟩

end Chimp
