import Verif.Lemmas.CrossSection
import Mathlib.Tactic.NormNum
import Mathlib.Tactic.Linarith

/-!
# Closed-form and averaged cross sections: C54, C55, C56, C61, C62
-/

namespace Chimp

/-! ### C54: thresholds -/

/-- Specification: the threshold energy is `e`; at speeds whose kinetic energy is below it the cross section is
zero; at the others it is given by `f`. -/
def ThresholdRule (x : XSec) (mu e : ℝ) (f : ℝ → Except XErr ℝ) : Prop :=
  x.thrE = e ∧ ∀ v, 0 ≤ v →
    (1 / 2 * mu * v ^ 2 < e → x.sigma v = .ok 0) ∧ (e ≤ 1 / 2 * mu * v ^ 2 → x.sigma v = f v)

/-- **C54**, constant model. -/
theorem C54_constant {mu : ℝ} (hmu : 0 < mu) (value e : ℝ) :
    (e < 0 → mkConstant value mu e = .error .badThreshold) ∧
    (0 ≤ e → ∃ x, mkConstant value mu e = .ok x ∧ ThresholdRule x mu e fun _ => .ok value) := by
  refine ⟨fun he => by unfold mkConstant; rw [setThreshold_error he], fun he => ?_⟩
  unfold mkConstant
  rw [setThreshold_ok he]
  refine ⟨_, rfl, rfl, fun v hv => ?_⟩
  have h := lt_threshold_iff hmu he hv
  refine ⟨fun h' => ?_, fun h' => ?_⟩
  · show Except.ok (if v ≥ Real.sqrt (e / (1 / 2 * mu)) then value else 0) = _
    rw [if_neg (not_le.2 (h.2 h'))]
  · have : Real.sqrt (e / (1 / 2 * mu)) ≤ v := not_lt.1 fun hh => absurd (h.1 hh) (not_lt.2 h')
    show Except.ok (if v ≥ Real.sqrt (e / (1 / 2 * mu)) then value else 0) = _
    rw [if_pos this]

/-- **C54**, variable hard spheres. -/
theorem C54_vhs {mu : ℝ} (hmu : 0 < mu) (p : VHSParam) (e : ℝ) :
    (e < 0 → mkVHS p mu e = .error .badThreshold) ∧
    (0 ≤ e → ∃ x, mkVHS p mu e = .ok x ∧ ThresholdRule x mu e fun v =>
      .ok (p.crossSection * (2 * p.KB * p.Tref / (mu * v ^ 2 + p.tiny)) ^ (p.viscTLaw - 1 / 2)
        * p.gammaViscInv)) := by
  refine ⟨fun he => by unfold mkVHS; rw [setThreshold_error he], fun he => ?_⟩
  unfold mkVHS
  rw [setThreshold_ok he]
  refine ⟨_, rfl, rfl, fun v hv => ?_⟩
  have h := lt_threshold_iff hmu he hv
  refine ⟨fun h' => ?_, fun h' => ?_⟩
  · show Except.ok (vhsSigma _ _ _ _) = _
    unfold vhsSigma; rw [if_pos (h.2 h')]
  · have : ¬ v < Real.sqrt (e / (1 / 2 * mu)) := fun hh => absurd (h.1 hh) (not_lt.2 h')
    show Except.ok (vhsSigma _ _ _ _) = _
    unfold vhsSigma; rw [if_neg this]

/-- **C54**, inverse model; at rest without a threshold the value is infinite. -/
theorem C54_inverse {mu : ℝ} (hmu : 0 < mu) (k e : ℝ) :
    (e < 0 → mkInverse k mu e = .error .badThreshold) ∧
    (0 ≤ e → ∃ x, mkInverse k mu e = .ok x ∧ ThresholdRule x mu e fun v =>
      if v = 0 then .error .nonfinite else .ok (k / v)) := by
  refine ⟨fun he => by unfold mkInverse; rw [setThreshold_error he], fun he => ?_⟩
  unfold mkInverse
  rw [setThreshold_ok he]
  refine ⟨_, rfl, rfl, fun v hv => ?_⟩
  have h := lt_threshold_iff hmu he hv
  refine ⟨fun h' => ?_, fun h' => ?_⟩
  · show (if v < _ then Except.ok (0 : ℝ) else _) = _
    rw [if_pos (h.2 h')]
  · have : ¬ v < Real.sqrt (e / (1 / 2 * mu)) := fun hh => absurd (h.1 hh) (not_lt.2 h')
    show (if v < _ then Except.ok (0 : ℝ) else _) = _
    rw [if_neg this]

/-- **C54**, logarithmic model; at rest without a threshold the value is infinite. -/
theorem C54_log {mu : ℝ} (hmu : 0 < mu) (A B e : ℝ) :
    (e < 0 → mkLog A B mu e = .error .badThreshold) ∧
    (0 ≤ e → ∃ x, mkLog A B mu e = .ok x ∧ ThresholdRule x mu e fun v =>
      if v = 0 then .error .nonfinite else .ok (A - B * (Real.log v / Real.log 10))) := by
  refine ⟨fun he => by unfold mkLog; rw [setThreshold_error he], fun he => ?_⟩
  unfold mkLog
  rw [setThreshold_ok he]
  refine ⟨_, rfl, rfl, fun v hv => ?_⟩
  have h := lt_threshold_iff hmu he hv
  refine ⟨fun h' => ?_, fun h' => ?_⟩
  · show logSigma _ _ _ _ = _
    unfold logSigma; rw [if_pos (h.2 h')]
  · have : ¬ v < Real.sqrt (e / (1 / 2 * mu)) := fun hh => absurd (h.1 hh) (not_lt.2 h')
    show logSigma _ _ _ _ = _
    unfold logSigma; rw [if_neg this]; rfl

/-- **C54**: a speed with a cross section other than zero carries at least the threshold energy. -/
theorem C54_energy {x : XSec} {mu e : ℝ} {f : ℝ → Except XErr ℝ} (h : ThresholdRule x mu e f) {v : ℝ}
    (hv : 0 ≤ v) (hs : x.sigma v ≠ .ok 0) : x.thrE ≤ 1 / 2 * mu * v ^ 2 := by
  rw [h.1]
  by_contra hc
  exact hs ((h.2 v hv).1 (not_le.1 hc))

/-- **C54**: a threshold written as a speed `w` is the speed where the cross section starts, a threshold written as
an energy is that energy, and without one there is none. -/
theorem C54_document {x : XSec} {mu : ℝ} (hmu : 0 < mu) {f : ℝ → Except XErr ℝ} :
    (∀ w, 0 ≤ w → ThresholdRule x mu (loadThreshold mu (some (.speed w))) f →
      x.thrE = 1 / 2 * mu * w ^ 2 ∧
      ∀ v, 0 ≤ v → (v < w → x.sigma v = .ok 0) ∧ (w ≤ v → x.sigma v = f v)) ∧
    (∀ e, ThresholdRule x mu (loadThreshold mu (some (.energy e))) f → x.thrE = e) ∧
    (ThresholdRule x mu (loadThreshold mu none) f → x.thrE = 0 ∧ ∀ v, 0 ≤ v → x.sigma v = f v) := by
  refine ⟨fun w hw h => ?_, fun e h => h.1, fun h => ⟨h.1, fun v hv => (h.2 v hv).2 ?_⟩⟩
  · have he : loadThreshold mu (some (.speed w)) = 1 / 2 * mu * w ^ 2 := by
      show 1 / 2 * mu * (w * w) = _; ring
    rw [he] at h
    refine ⟨h.1, fun v hv => ⟨fun hlt => (h.2 v hv).1 ?_, fun hle => (h.2 v hv).2 ?_⟩⟩
    · have : v ^ 2 < w ^ 2 := by gcongr
      nlinarith
    · have : w ^ 2 ≤ v ^ 2 := by gcongr
      nlinarith
  · show (0 : ℝ) ≤ _
    positivity

/-- Non-vacuity: a constant cross section 3 with reduced mass 2 and threshold energy 4 starts at speed 2. -/
example : ∃ x, mkConstant 3 2 4 = .ok x ∧ x.sigma 1 = .ok 0 ∧ x.sigma 2 = .ok 3 ∧ x.thrE = 4 := by
  obtain ⟨x, hx, h1, h2⟩ := (C54_constant (mu := 2) (by norm_num) 3 4).2 (by norm_num)
  exact ⟨x, hx, (h2 1 (by norm_num)).1 (by norm_num), (h2 2 (by norm_num)).2 (by norm_num), h1⟩

/-! ### C55: the reported maximum -/

/-- The reported maximum bounds `sigma(v) v` on `[0, vmax]`. -/
def SigmaVBound (x : XSec) (vmax : ℝ) : Prop :=
  ∃ M vm, x.maxSV vmax = .ok (M, vm) ∧
    ∀ v s, 0 ≤ v → v ≤ vmax → x.sigma v = .ok s → s * v ≤ M

/-- The reported maximum is the value of `sigma(v) v` at the reported speed, which is in range. -/
def SigmaVAttained (x : XSec) (vmax : ℝ) : Prop :=
  ∃ M vm s, x.maxSV vmax = .ok (M, vm) ∧ 0 ≤ vm ∧ vm ≤ vmax ∧ x.sigma vm = .ok s ∧ s * vm = M

/-- Some speed in `[0, vmax]` has `sigma(v) v` greater than the reported maximum. -/
def SigmaVExceeded (x : XSec) (vmax : ℝ) : Prop :=
  ∃ M vm v s, x.maxSV vmax = .ok (M, vm) ∧ 0 ≤ v ∧ v < vmax ∧ x.sigma v = .ok s ∧ M < s * v

/-- The two are opposites. -/
theorem SigmaVExceeded.not_bound {x : XSec} {vmax : ℝ} (h : SigmaVExceeded x vmax) : ¬ SigmaVBound x vmax := by
  rintro ⟨M, vm, hM, hb⟩
  obtain ⟨M', vm', v, s, hM', hv, hle, hs, hlt⟩ := h
  rw [hM] at hM'
  cases hM'
  exact absurd (hb v s hv hle.le hs) (not_le.2 hlt)

/-- **C55**, constant model. -/
theorem C55_constant {value mu e vmax : ℝ} (hval : 0 ≤ value) (hv : 0 ≤ vmax) {x : XSec}
    (hx : mkConstant value mu e = .ok x) : SigmaVBound x vmax ∧ SigmaVAttained x vmax := by
  unfold mkConstant at hx
  split at hx
  · cases hx
  · rename_i tE tv hthr
    cases hx
    by_cases ht : vmax ≥ tv
    · refine ⟨⟨value * vmax, vmax, by simp [ht], fun v s h0 h1 hs => ?_⟩,
        ⟨value * vmax, vmax, value, by simp [ht], hv, le_rfl, by simp [ht], rfl⟩⟩
      have := (Except.ok.inj hs).symm
      subst this
      split
      · gcongr
      · rw [zero_mul]; positivity
    · refine ⟨⟨0, 0, by simp [ht], fun v s h0 h1 hs => ?_⟩,
        ⟨0, 0, 0, by simp [ht], le_rfl, hv, ?_, by simp⟩⟩
      · have := (Except.ok.inj hs).symm
        subst this
        rw [if_neg (by linarith [not_le.1 ht]), zero_mul]
      · show Except.ok (if (0 : ℝ) ≥ tv then value else 0) = _
        rw [if_neg (by linarith [not_le.1 ht])]

/-- **C55**, inverse model.  The maximum is attained when there is a threshold; without one it is the value of the
product at every positive speed. -/
theorem C55_inverse {k mu e vmax : ℝ} (hmu : 0 < mu) (hk : 0 ≤ k) (hv : 0 < vmax) {x : XSec}
    (hx : mkInverse k mu e = .ok x) :
    SigmaVBound x vmax ∧ (0 < e → SigmaVAttained x vmax) ∧
    (e = 0 → ∃ vm, x.maxSV vmax = .ok (k, vm) ∧ ∀ v, 0 < v → ∃ s, x.sigma v = .ok s ∧ s * v = k) := by
  unfold mkInverse at hx
  split at hx
  · cases hx
  · rename_i tE tv hthr
    cases hx
    have htv : tv = Real.sqrt (e / (1 / 2 * mu)) := by
      unfold setThreshold at hthr
      split at hthr
      · cases hthr
      · cases hthr; rfl
    refine ⟨?_, fun he => ?_, fun he => ?_⟩
    · by_cases ht : vmax ≥ tv
      · refine ⟨k, tv, by simp [ht], fun v s h0 h1 hs => ?_⟩
        dsimp only at hs
        split at hs
        · cases hs; simpa using hk
        · split at hs
          · cases hs
          · rename_i hne
            cases hs
            rw [div_mul_cancel₀ _ hne]
      · refine ⟨0, 0, by simp [ht], fun v s h0 h1 hs => ?_⟩
        dsimp only at hs
        rw [if_pos (by linarith [not_le.1 ht])] at hs
        cases hs
        simp
    · have hpos : 0 < tv := by rw [htv]; exact Real.sqrt_pos.2 (by positivity)
      by_cases ht : vmax ≥ tv
      · exact ⟨k, tv, k / tv, by simp [ht], hpos.le, ht, by simp [hpos.ne'], div_mul_cancel₀ _ hpos.ne'⟩
      · exact ⟨0, 0, 0, by simp [ht], le_rfl, hv.le, by simp [hpos], by simp⟩
    · have h0 : tv = 0 := by rw [htv, he]; simp
      subst h0
      exact ⟨0, by simp [hv.le], fun v hv => ⟨k / v, by simp [hv.ne', not_lt.2 hv.le],
        div_mul_cancel₀ _ hv.ne'⟩⟩

/-- Physical parameters of the VHS model. -/
structure VHSParam.Good (p : VHSParam) : Prop where
  cs : 0 < p.crossSection
  T : 0 < p.Tref
  g : 0 < p.gammaViscInv
  kb : 0 < p.KB
  tiny : 0 < p.tiny

/-- The VHS product as a constant times its shape. -/
theorem vhs_shape {p : VHSParam} (hp : p.Good) {mu tv v : ℝ} (hmu : 0 < mu) (htv : tv ≤ v) :
    vhsSigma p mu tv v * v =
      (p.crossSection * (2 * p.KB * p.Tref) ^ (p.viscTLaw - 1 / 2) * p.gammaViscInv) *
        (v * (mu * v ^ 2 + p.tiny) ^ (-(p.viscTLaw - 1 / 2))) := by
  obtain ⟨h1, h2, h3, h4, h5⟩ := hp
  unfold vhsSigma
  rw [if_neg (not_lt.2 htv), Real.div_rpow (by positivity) (by positivity),
    Real.rpow_neg (by positivity)]
  ring

/-- **C55**, VHS with viscosity exponent at most one. -/
theorem C55_vhs {p : VHSParam} (hp : p.Good) (hw : p.viscTLaw ≤ 1) {mu e vmax : ℝ} (hmu : 0 < mu)
    (hv : 0 ≤ vmax) {x : XSec} (hx : mkVHS p mu e = .ok x) :
    SigmaVBound x vmax ∧ SigmaVAttained x vmax := by
  have hp' := hp
  obtain ⟨h1, h2, h3, h4, h5⟩ := hp'
  unfold mkVHS at hx
  split at hx
  · cases hx
  · rename_i tE tv hthr
    cases hx
    by_cases ht : vmax ≥ tv
    · refine ⟨⟨vhsSigma p mu tv vmax * vmax, vmax, by simp only [ht, if_true], fun v s h0 hle hs => ?_⟩,
        ⟨vhsSigma p mu tv vmax * vmax, vmax, _, by simp only [ht, if_true], hv, le_rfl, rfl, rfl⟩⟩
      cases hs
      by_cases hvt : v < tv
      · have : vhsSigma p mu tv v = 0 := by unfold vhsSigma; rw [if_pos hvt]
        rw [this, zero_mul, vhs_shape hp hmu ht]
        positivity
      · rw [vhs_shape hp hmu (not_lt.1 hvt), vhs_shape hp hmu ht]
        exact mul_le_mul_of_nonneg_left (vhs_mono hmu h5 (by linarith) h0 hle) (by positivity)
    · refine ⟨⟨0, 0, by simp only [ht, if_false], fun v s h0 hle hs => ?_⟩,
        ⟨0, 0, 0, by simp only [ht, if_false], le_rfl, hv, ?_, by simp⟩⟩
      · cases hs
        unfold vhsSigma
        rw [if_pos (by linarith [not_le.1 ht]), zero_mul]
      · show Except.ok (vhsSigma _ _ _ _) = _
        unfold vhsSigma
        rw [if_pos (by linarith [not_le.1 ht])]

/-- Non-vacuity: argon-like exponent 0.81. -/
noncomputable def exVHS : VHSParam := ⟨4, 273, 0.81, 1.1, 1, 1 / 1000⟩

theorem exVHS_good : exVHS.Good := by
  constructor <;> norm_num [exVHS]

example : ∃ x, mkVHS exVHS 2 4 = .ok x ∧ SigmaVBound x 7 ∧ SigmaVAttained x 7 := by
  obtain ⟨x, hx, -⟩ := (C54_vhs (mu := 2) (by norm_num) exVHS 4).2 (by norm_num)
  exact ⟨x, hx, C55_vhs exVHS_good (by norm_num [exVHS]) (by norm_num) (by norm_num) hx⟩

example : ∃ x, mkInverse 3 2 4 = .ok x ∧ SigmaVBound x 5 ∧ SigmaVAttained x 5 := by
  obtain ⟨x, hx, -⟩ := (C54_inverse (mu := 2) (by norm_num) 3 4).2 (by norm_num)
  have := C55_inverse (by norm_num) (by norm_num) (vmax := 5) (by norm_num) hx
  exact ⟨x, hx, this.1, this.2.1 (by norm_num)⟩

example : ∃ x, mkConstant 3 2 4 = .ok x ∧ SigmaVBound x 5 ∧ SigmaVAttained x 5 := by
  obtain ⟨x, hx, -⟩ := (C54_constant (mu := 2) (by norm_num) 3 4).2 (by norm_num)
  exact ⟨x, hx, C55_constant (by norm_num) (by norm_num) hx⟩

/-! ### C56: where the reported maximum is not one -/

/-- **C56**, VHS with viscosity exponent above one: for every `vmax` above the threshold speed and above the
turning point `sqrt(tiny / (mu (2 omega - 2)))`, which is a minute speed, the reported value is exceeded. -/
theorem C56_vhs {p : VHSParam} (hp : p.Good) (hw : 1 < p.viscTLaw) {mu e vmax : ℝ} (hmu : 0 < mu)
    (he : e < 1 / 2 * mu * vmax ^ 2) (hv : 0 < vmax)
    (hturn : p.tiny < mu * (2 * p.viscTLaw - 2) * vmax ^ 2) {x : XSec} (hx : mkVHS p mu e = .ok x) :
    SigmaVExceeded x vmax := by
  have hp' := hp
  obtain ⟨h1, h2, h3, h4, h5⟩ := hp'
  unfold mkVHS at hx
  split at hx
  · cases hx
  · rename_i tE tv hthr
    cases hx
    have he0 : 0 ≤ e := by
      by_contra hc
      rw [setThreshold_error (not_le.1 hc)] at hthr
      cases hthr
    rw [setThreshold_ok he0] at hthr
    cases hthr
    set tv := Real.sqrt (e / (1 / 2 * mu)) with htvdef
    have htv : tv < vmax := by
      rw [htvdef, Real.sqrt_lt' hv, div_lt_iff₀ (by positivity)]
      linarith
    have hc : 0 < mu * (2 * p.viscTLaw - 2) := mul_pos hmu (by linarith)
    set w := Real.sqrt (p.tiny / (mu * (2 * p.viscTLaw - 2))) with hwdef
    have hwpos : 0 < w := Real.sqrt_pos.2 (by positivity)
    have hwv : w < vmax := by
      rw [hwdef, Real.sqrt_lt' hv, div_lt_iff₀ hc]
      linarith
    have hwsq : w ^ 2 = p.tiny / (mu * (2 * p.viscTLaw - 2)) := Real.sq_sqrt (by positivity)
    have hmaxpos : 0 < max tv w := lt_max_of_lt_right hwpos
    refine ⟨vhsSigma p mu tv vmax * vmax, vmax, max tv w, _, by simp only [ge_iff_le, htv.le, if_true],
      hmaxpos.le, max_lt htv hwv, rfl, ?_⟩
    rw [vhs_shape hp hmu htv.le, vhs_shape hp hmu (le_max_left _ _)]
    apply mul_lt_mul_of_pos_left _ (by positivity)
    apply vhs_anti hmu h5 (by linarith) hmaxpos (max_lt htv hwv)
    have hge : w ^ 2 ≤ (max tv w) ^ 2 := by gcongr; exact le_max_right _ _
    calc p.tiny = mu * (2 * p.viscTLaw - 2) * w ^ 2 := by
          rw [hwsq, mul_div_cancel₀ _ hc.ne']
      _ ≤ mu * (2 * p.viscTLaw - 2) * (max tv w) ^ 2 := by gcongr
      _ = _ := by ring

/-- The log product rises up to its turning point and falls beyond it. -/
theorem log_product {A B a b : ℝ} (hB : 0 < B) (ha : 0 < a) (hab : a < b) :
    (b ≤ Real.exp (A * Real.log 10 / B - 1) →
      (A - B * Real.logb 10 a) * a < (A - B * Real.logb 10 b) * b) ∧
    (Real.exp (A * Real.log 10 / B - 1) ≤ a →
      (A - B * Real.logb 10 b) * b < (A - B * Real.logb 10 a) * a) := by
  have hb : 0 < b := ha.trans hab
  have hL : 0 < Real.log 10 := Real.log_pos (by norm_num)
  obtain ⟨s1, s2⟩ := xlogx_slopes ha hab
  have hd : (A - B * Real.logb 10 b) * b - (A - B * Real.logb 10 a) * a =
      A * (b - a) - B / Real.log 10 * (b * Real.log b - a * Real.log a) := by
    unfold Real.logb; field_simp; ring
  have hc : B / Real.log 10 * (A * Real.log 10 / B) = A := by field_simp
  have hpos : 0 < B / Real.log 10 := by positivity
  constructor
  · intro h
    have hl : Real.log b ≤ A * Real.log 10 / B - 1 := by
      rw [← Real.log_exp (A * Real.log 10 / B - 1)]
      exact Real.log_le_log hb h
    have h1 : b * Real.log b - a * Real.log a < (A * Real.log 10 / B) * (b - a) :=
      lt_of_lt_of_le s2 (mul_le_mul_of_nonneg_right (by linarith) (by linarith))
    have h2 := mul_lt_mul_of_pos_left h1 hpos
    rw [← mul_assoc, hc] at h2
    linarith
  · intro h
    have hl : A * Real.log 10 / B - 1 ≤ Real.log a := by
      rw [← Real.log_exp (A * Real.log 10 / B - 1)]
      exact Real.log_le_log (Real.exp_pos _) h
    have h1 : (A * Real.log 10 / B) * (b - a) < b * Real.log b - a * Real.log a :=
      lt_of_le_of_lt (mul_le_mul_of_nonneg_right (by linarith) (by linarith)) s1
    have h2 := mul_lt_mul_of_pos_left h1 hpos
    rw [← mul_assoc, hc] at h2
    linarith

/-- **C56**, logarithmic model with positive slope parameter: above the turning point and the threshold the
reported value is exceeded, up to the turning point it is a bound (and attained). -/
theorem C56_log {A B mu e vmax : ℝ} (hB : 0 < B) (hmu : 0 < mu) (hv : 0 < vmax) {x : XSec}
    (hx : mkLog A B mu e = .ok x) :
    (Real.exp (A * Real.log 10 / B - 1) < vmax → e < 1 / 2 * mu * vmax ^ 2 → SigmaVExceeded x vmax) ∧
    (vmax ≤ Real.exp (A * Real.log 10 / B - 1) → SigmaVBound x vmax ∧ SigmaVAttained x vmax) := by
  unfold mkLog at hx
  split at hx
  · cases hx
  · rename_i tE tv hthr
    cases hx
    have he0 : 0 ≤ e := by
      by_contra hc
      rw [setThreshold_error (not_le.1 hc)] at hthr
      cases hthr
    rw [setThreshold_ok he0] at hthr
    cases hthr
    set tv := Real.sqrt (e / (1 / 2 * mu)) with htvdef
    have htv0 : 0 ≤ tv := Real.sqrt_nonneg _
    have hsig : ∀ v, 0 < v → tv ≤ v → logSigma A B tv v = .ok (A - B * Real.logb 10 v) := by
      intro v hv ht
      unfold logSigma
      rw [if_neg (not_lt.2 ht), if_neg hv.ne']
    constructor
    · intro hturn he
      have htv : tv < vmax := by
        rw [htvdef, Real.sqrt_lt' hv, div_lt_iff₀ (by positivity)]
        linarith
      set w := Real.exp (A * Real.log 10 / B - 1)
      have hw : 0 < w := Real.exp_pos _
      have hmaxpos : 0 < max tv w := lt_max_of_lt_right hw
      refine ⟨(A - B * Real.logb 10 vmax) * vmax, vmax, max tv w, _, ?_, hmaxpos.le, max_lt htv hturn,
        hsig _ hmaxpos (le_max_left _ _), ?_⟩
      · dsimp only
        rw [if_pos htv.le, hsig _ hv htv.le]
      · exact (log_product hB hmaxpos (max_lt htv hturn)).2 (le_max_right _ _)
    · intro hturn
      have hval : 0 < A - B * Real.logb 10 vmax := by
        have hL : 0 < Real.log 10 := Real.log_pos (by norm_num)
        have hl : Real.log vmax ≤ A * Real.log 10 / B - 1 := by
          rw [← Real.log_exp (A * Real.log 10 / B - 1)]
          exact Real.log_le_log hv hturn
        unfold Real.logb
        have h1 := mul_le_mul_of_nonneg_left hl (show 0 ≤ B / Real.log 10 by positivity)
        have h2 : B / Real.log 10 * (A * Real.log 10 / B - 1) = A - B / Real.log 10 := by field_simp
        have h3 : 0 < B / Real.log 10 := by positivity
        have h4 : B * (Real.log vmax / Real.log 10) = B / Real.log 10 * Real.log vmax := by ring
        rw [h4]; linarith
      by_cases ht : vmax ≥ tv
      · have hmax : (if vmax ≥ tv then
          match logSigma A B tv vmax with
          | .error x => .error x
          | .ok s => .ok (s * vmax, vmax)
          else .ok (0, 0) : Except XErr (ℝ × ℝ)) = .ok ((A - B * Real.logb 10 vmax) * vmax, vmax) := by
          rw [if_pos ht, hsig _ hv ht]
        refine ⟨⟨_, _, hmax, fun v s h0 hle hs => ?_⟩, ⟨_, _, _, hmax, hv.le, le_rfl, hsig _ hv ht, rfl⟩⟩
        change logSigma A B tv v = _ at hs
        unfold logSigma at hs
        split at hs
        · cases hs
          rw [zero_mul]; positivity
        · split at hs
          · cases hs
          · rename_i hnlt hne
            cases hs
            rcases hle.eq_or_lt with rfl | hlt
            · exact le_rfl
            · exact ((log_product hB (lt_of_le_of_ne h0 (Ne.symm hne)) hlt).1 hturn).le
      · have hlt := not_le.1 ht
        refine ⟨⟨0, 0, by simp only [ht, if_false], fun v s h0 hle hs => ?_⟩,
          ⟨0, 0, 0, by simp only [ht, if_false], le_rfl, hv.le, ?_, by simp⟩⟩
        · change logSigma A B tv v = _ at hs
          unfold logSigma at hs
          rw [if_pos (by linarith)] at hs
          cases hs; simp
        · show logSigma _ _ _ _ = _
          unfold logSigma
          rw [if_pos (by linarith)]

/-- Non-vacuity: exponent 3/2. -/
example : ∃ x, mkVHS { exVHS with viscTLaw := 3 / 2 } 2 4 = .ok x ∧ SigmaVExceeded x 7 := by
  obtain ⟨x, hx, -⟩ := (C54_vhs (mu := 2) (by norm_num) { exVHS with viscTLaw := 3 / 2 } 4).2 (by norm_num)
  refine ⟨x, hx, C56_vhs ⟨?_, ?_, ?_, ?_, ?_⟩ ?_ ?_ ?_ ?_ ?_ hx⟩ <;> norm_num [exVHS]

/-- Non-vacuity: `A = 0`, `B = 1` turns at `exp(-1) < 1`. -/
example : ∃ x, mkLog 0 1 2 0 = .ok x ∧ SigmaVExceeded x 1 ∧ SigmaVBound x (Real.exp (-1)) := by
  obtain ⟨x, hx, -⟩ := (C54_log (mu := 2) (by norm_num) 0 1 0).2 (by norm_num)
  refine ⟨x, hx, (C56_log (by norm_num) (by norm_num) (by norm_num) hx).1 ?_ (by norm_num),
    ((C56_log (by norm_num) (by norm_num) (Real.exp_pos _) hx).2 ?_).1⟩
  · rw [Real.exp_lt_one_iff]; norm_num
  · norm_num

/-! ### C61, C62: averages -/

/-- **C61**: with nonnegative components the average is the square of the mean diameter, lies between the
components and is symmetric. -/
theorem C61_average {c0 c1 : XSec} {v s0 s1 : ℝ} (h0 : c0.sigma v = .ok s0) (h1 : c1.sigma v = .ok s1)
    (p0 : 0 ≤ s0) (p1 : 0 ≤ s1) :
    ∃ s, (mkAvgEasy c0 c1).sigma v = .ok s ∧ (mkAvgEasy c1 c0).sigma v = .ok s ∧
      min s0 s1 ≤ s ∧ s ≤ max s0 s1 ∧ Real.sqrt s = (Real.sqrt s0 + Real.sqrt s1) / 2 ∧
      (s = 0 ↔ s0 = 0 ∧ s1 = 0) ∧ (s0 = s1 → s = s0) := by
  have e0 := Real.sq_sqrt p0
  have e1 := Real.sq_sqrt p1
  have n0 := Real.sqrt_nonneg s0
  have n1 := Real.sqrt_nonneg s1
  refine ⟨1 / 4 * (Real.sqrt s0 + Real.sqrt s1) ^ 2, ?_, ?_, ?_, ?_, ?_, ?_, ?_⟩
  · simp [mkAvgEasy, avgSigma, h0, h1, sqrtE, p0, p1, bind, Except.bind, pure, Except.pure]
  · simp [mkAvgEasy, avgSigma, h0, h1, sqrtE, p0, p1, bind, Except.bind, pure, Except.pure]
    ring
  · rcases le_total s0 s1 with h | h
    · rw [min_eq_left h]
      have := Real.sqrt_le_sqrt h
      nlinarith
    · rw [min_eq_right h]
      have := Real.sqrt_le_sqrt h
      nlinarith
  · rcases le_total s0 s1 with h | h
    · rw [max_eq_right h]
      have := Real.sqrt_le_sqrt h
      nlinarith
    · rw [max_eq_left h]
      have := Real.sqrt_le_sqrt h
      nlinarith
  · have : (1 / 4 * (Real.sqrt s0 + Real.sqrt s1) ^ 2 : ℝ) = ((Real.sqrt s0 + Real.sqrt s1) / 2) ^ 2 := by ring
    rw [this, Real.sqrt_sq (by positivity)]
  · constructor
    · intro h
      have hz : Real.sqrt s0 + Real.sqrt s1 = 0 := by
        have : (Real.sqrt s0 + Real.sqrt s1) ^ 2 = 0 := by linarith
        exact pow_eq_zero_iff (two_ne_zero) |>.1 this
      exact ⟨(Real.sqrt_eq_zero p0).1 (by linarith), (Real.sqrt_eq_zero p1).1 (by linarith)⟩
    · rintro ⟨rfl, rfl⟩; simp
  · rintro rfl
    nlinarith

/-- **C61**: the threshold energy of the average is the smaller one; so if the components obey their thresholds, so
does the average. -/
theorem C61_threshold {c0 c1 : XSec} {mu : ℝ} {v : ℝ}
    (h0 : 1 / 2 * mu * v ^ 2 < c0.thrE → c0.sigma v = .ok 0)
    (h1 : 1 / 2 * mu * v ^ 2 < c1.thrE → c1.sigma v = .ok 0) :
    ((mkAvgEasy c0 c1).thrE = c0.thrE ∨ (mkAvgEasy c0 c1).thrE = c1.thrE) ∧
    (mkAvgEasy c0 c1).thrE ≤ c0.thrE ∧ (mkAvgEasy c0 c1).thrE ≤ c1.thrE ∧
    (1 / 2 * mu * v ^ 2 < (mkAvgEasy c0 c1).thrE → (mkAvgEasy c0 c1).sigma v = .ok 0) := by
  refine ⟨min_choice _ _, min_le_left _ _, min_le_right _ _, fun h => ?_⟩
  have a0 := h0 (lt_of_lt_of_le h (min_le_left _ _))
  have a1 := h1 (lt_of_lt_of_le h (min_le_right _ _))
  obtain ⟨s, hs, -, -, -, -, hz, -⟩ := C61_average a0 a1 le_rfl le_rfl
  rw [hs, hz.2 ⟨rfl, rfl⟩]

/-- **C61**  The components of an average created for species of masses `m0`, `m1` have thresholds for the reduced
masses of their own pairs.  For the energy of the mixed pair the average has its threshold if the lighter species has
the lower one by the ratio of the reduced masses. -/
theorem C61_threshold_mixed {c0 c1 : XSec} {m0 m1 : ℝ} (p0 : 0 < m0) (p1 : m0 ≤ m1) {v : ℝ}
    (h0 : 1 / 2 * (m0 * m0 / (m0 + m0)) * v ^ 2 < c0.thrE → c0.sigma v = .ok 0)
    (h1 : 1 / 2 * (m1 * m1 / (m1 + m1)) * v ^ 2 < c1.thrE → c1.sigma v = .ok 0)
    (he : c0.thrE * (m1 * m1 / (m1 + m1)) ≤ c1.thrE * (m0 * m1 / (m0 + m1)))
    (h : 1 / 2 * (m0 * m1 / (m0 + m1)) * v ^ 2 < (mkAvgEasy c0 c1).thrE) : (mkAvgEasy c0 c1).sigma v = .ok 0 := by
  have q1 : 0 < m1 := p0.trans_le p1
  have e0 : m0 * m0 / (m0 + m0) ≤ m0 * m1 / (m0 + m1) := by
    rw [div_le_div_iff₀ (by positivity) (by positivity)]
    nlinarith [mul_nonneg (mul_pos p0 p0).le (sub_nonneg.2 p1)]
  have hlt : 1 / 2 * (m0 * m1 / (m0 + m1)) * v ^ 2 < c0.thrE := lt_of_lt_of_le h (min_le_left _ _)
  have a0 := h0 (lt_of_le_of_lt (by gcongr) hlt)
  have hm : 0 < m0 * m1 / (m0 + m1) := by positivity
  have hn : 0 < m1 * m1 / (m1 + m1) := by positivity
  have a1 := h1 (by
    have h2 := lt_of_lt_of_le (mul_lt_mul_of_pos_right hlt hn) he
    refine lt_of_mul_lt_mul_right ?_ hm.le
    calc 1 / 2 * (m1 * m1 / (m1 + m1)) * v ^ 2 * (m0 * m1 / (m0 + m1)) =
          1 / 2 * (m0 * m1 / (m0 + m1)) * v ^ 2 * (m1 * m1 / (m1 + m1)) := by ring
      _ < c1.thrE * (m0 * m1 / (m0 + m1)) := h2)
  obtain ⟨s, hs, -, -, -, -, hz, -⟩ := C61_average a0 a1 le_rfl le_rfl
  rw [hs, hz.2 ⟨rfl, rfl⟩]

/-- **C61**, a finding: otherwise the average can be positive below its threshold energy; here the two components have
the same threshold energy 6, and the average of masses 2 and 6 is positive at energy 3. -/
theorem C61_threshold_fails : ∃ c0 c1 s, mkConstant 1 (2 * 2 / (2 + 2)) 6 = .ok c0 ∧
    mkConstant 1 (6 * 6 / (6 + 6)) 6 = .ok c1 ∧ (mkAvgEasy c0 c1).thrE = 6 ∧
    1 / 2 * (2 * 6 / (2 + 6)) * (2 : ℝ) ^ 2 < 6 ∧ (mkAvgEasy c0 c1).sigma 2 = .ok s ∧ 0 < s := by
  obtain ⟨c0, e0, t0, r0⟩ := (C54_constant (value := 1) (mu := 2 * 2 / (2 + 2)) (e := 6) (by norm_num)).2 (by norm_num)
  obtain ⟨c1, e1, t1, r1⟩ := (C54_constant (value := 1) (mu := 6 * 6 / (6 + 6)) (e := 6) (by norm_num)).2 (by norm_num)
  obtain ⟨s, hs, -, hle, -, -, hz, -⟩ := C61_average ((r0 2 (by norm_num)).1 (by norm_num))
    ((r1 2 (by norm_num)).2 (by norm_num)) le_rfl zero_le_one
  refine ⟨c0, c1, s, e0, e1, ?_, by norm_num, hs, ?_⟩
  · show min c0.thrE c1.thrE = 6
    rw [t0, t1, min_self]
  · refine lt_of_le_of_ne (le_trans (by simp) hle) fun h => ?_
    exact one_ne_zero (hz.1 h.symm).2

/-- The hypotheses of `C61_threshold_mixed` for thresholds 2 and 6 of these species. -/
example : ∃ c0 c1, mkConstant 1 (2 * 2 / (2 + 2)) 2 = .ok c0 ∧ mkConstant 1 (6 * 6 / (6 + 6)) 6 = .ok c1 ∧
    (mkAvgEasy c0 c1).sigma 1 = .ok 0 := by
  obtain ⟨c0, e0, t0, r0⟩ := (C54_constant (value := 1) (mu := 2 * 2 / (2 + 2)) (e := 2) (by norm_num)).2 (by norm_num)
  obtain ⟨c1, e1, t1, r1⟩ := (C54_constant (value := 1) (mu := 6 * 6 / (6 + 6)) (e := 6) (by norm_num)).2 (by norm_num)
  refine ⟨c0, c1, e0, e1, C61_threshold_mixed (m0 := 2) (m1 := 6) (by norm_num) (by norm_num) ?_ ?_ ?_ ?_⟩
  · rw [t0]; exact (r0 1 (by norm_num)).1
  · rw [t1]; exact (r1 1 (by norm_num)).1
  · rw [t0, t1]; norm_num
  · show _ < min c0.thrE c1.thrE
    rw [t0, t1]; norm_num

/-- **C62**: with nonnegative nondecreasing products the reported maximum of the average is a bound, and it is
attained. -/
theorem C62_bound {c0 c1 : XSec} {f0 f1 : ℝ → ℝ} {vmax : ℝ} (hv : 0 ≤ vmax)
    (h0 : ∀ v, 0 ≤ v → v ≤ vmax → c0.sigma v = .ok (f0 v) ∧ 0 ≤ f0 v)
    (h1 : ∀ v, 0 ≤ v → v ≤ vmax → c1.sigma v = .ok (f1 v) ∧ 0 ≤ f1 v)
    (m0 : ∀ a b, 0 ≤ a → a ≤ b → b ≤ vmax → f0 a * a ≤ f0 b * b)
    (m1 : ∀ a b, 0 ≤ a → a ≤ b → b ≤ vmax → f1 a * a ≤ f1 b * b) :
    SigmaVBound (mkAvgEasy c0 c1) vmax ∧ SigmaVAttained (mkAvgEasy c0 c1) vmax := by
  have val : ∀ v, 0 ≤ v → v ≤ vmax → (mkAvgEasy c0 c1).sigma v =
      .ok (1 / 4 * (Real.sqrt (f0 v) + Real.sqrt (f1 v)) ^ 2) := by
    intro v ha hb
    simp [mkAvgEasy, avgSigma, (h0 v ha hb).1, (h1 v ha hb).1, sqrtE, (h0 v ha hb).2, (h1 v ha hb).2, bind,
      Except.bind, pure, Except.pure]
  have prod : ∀ v, 0 ≤ v → v ≤ vmax → 1 / 4 * (Real.sqrt (f0 v) + Real.sqrt (f1 v)) ^ 2 * v =
      1 / 4 * (Real.sqrt (f0 v * v) + Real.sqrt (f1 v * v)) ^ 2 := by
    intro v ha hb
    rw [Real.sqrt_mul (h0 v ha hb).2, Real.sqrt_mul (h1 v ha hb).2, ← add_mul, mul_pow, Real.sq_sqrt ha]
    ring
  have hle : ∀ v, 0 ≤ v → v ≤ vmax → 1 / 4 * (Real.sqrt (f0 v) + Real.sqrt (f1 v)) ^ 2 * v ≤
      1 / 4 * (Real.sqrt (f0 vmax) + Real.sqrt (f1 vmax)) ^ 2 * vmax := by
    intro v ha hb
    rw [prod v ha hb, prod vmax hv le_rfl]
    have a := Real.sqrt_le_sqrt (m0 v vmax ha hb le_rfl)
    have b := Real.sqrt_le_sqrt (m1 v vmax ha hb le_rfl)
    have := Real.sqrt_nonneg (f0 v * v)
    have := Real.sqrt_nonneg (f1 v * v)
    gcongr
  have hmax : (mkAvgEasy c0 c1).maxSV vmax =
      .ok (if 1 / 4 * (Real.sqrt (f0 vmax) + Real.sqrt (f1 vmax)) ^ 2 > 0 then
        (1 / 4 * (Real.sqrt (f0 vmax) + Real.sqrt (f1 vmax)) ^ 2 * vmax, vmax) else (0, 0)) := by
    have := val vmax hv le_rfl
    change avgSigma c0.sigma c1.sigma vmax = _ at this
    show (match avgSigma c0.sigma c1.sigma vmax with | .error x => _ | .ok val => _) = _
    rw [this]
  by_cases hp : 1 / 4 * (Real.sqrt (f0 vmax) + Real.sqrt (f1 vmax)) ^ 2 > 0
  · rw [if_pos hp] at hmax
    refine ⟨⟨_, _, hmax, fun v s ha hb hs => ?_⟩, ⟨_, _, _, hmax, hv, le_rfl, val vmax hv le_rfl, rfl⟩⟩
    rw [val v ha hb] at hs
    cases hs
    exact hle v ha hb
  · rw [if_neg hp] at hmax
    have hz : 1 / 4 * (Real.sqrt (f0 vmax) + Real.sqrt (f1 vmax)) ^ 2 = 0 :=
      le_antisymm (not_lt.1 hp) (by positivity)
    refine ⟨⟨_, _, hmax, fun v s ha hb hs => ?_⟩, ⟨_, _, _, hmax, le_rfl, hv, val 0 le_rfl hv, by simp⟩⟩
    rw [val v ha hb] at hs
    cases hs
    have := hle v ha hb
    rwa [hz, zero_mul] at this

/-- Non-vacuity: averaging the constants 1 and 9 gives 4, and 8 at `vmax = 2`. -/
example : ∃ x y, mkConstant 1 2 0 = .ok x ∧ mkConstant 9 2 0 = .ok y ∧
    SigmaVBound (mkAvgEasy x y) 2 ∧ (mkAvgEasy x y).sigma 2 = .ok 4 := by
  obtain ⟨x, hx, -, h1⟩ := (C54_constant (mu := 2) (by norm_num) 1 0).2 le_rfl
  obtain ⟨y, hy, -, h2⟩ := (C54_constant (mu := 2) (by norm_num) 9 0).2 le_rfl
  refine ⟨x, y, hx, hy, (C62_bound (f0 := fun _ => 1) (f1 := fun _ => 9) (by norm_num)
    (fun v h _ => ⟨(h1 v h).2 (by positivity), by norm_num⟩)
    (fun v h _ => ⟨(h2 v h).2 (by positivity), by norm_num⟩)
    (fun a b _ h _ => by linarith) (fun a b _ h _ => by linarith)).1, ?_⟩
  obtain ⟨s, hs, -, -, -, hr, -, -⟩ := C61_average ((h1 2 (by norm_num)).2 (by norm_num))
    ((h2 2 (by norm_num)).2 (by norm_num)) (by norm_num) (by norm_num)
  have e9 : Real.sqrt 9 = 3 := by
    rw [show (9 : ℝ) = 3 ^ 2 by norm_num]; exact Real.sqrt_sq (by norm_num)
  rw [e9, Real.sqrt_one] at hr
  have : s = 4 := by
    have hs0 : 0 ≤ s := by
      by_contra hc
      rw [Real.sqrt_eq_zero_of_nonpos (not_le.1 hc).le] at hr
      norm_num at hr
    rw [← Real.sq_sqrt hs0, hr]; norm_num
  rw [hs, this]

end Chimp
