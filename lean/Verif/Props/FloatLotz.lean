import Verif.Model.FloatLotz
import Verif.Props.FloatCross
import Verif.Props.LotzCorrected

/-!
# Property C105: logarithmic and Lotz cross sections in floating-point arithmetic
-/

namespace Chimp

variable {p : ℕ} (R : Rounding p)

/-! ## Specification -/

/-- A library function within `j` factors `1 + 2 ^ -p` of the function it stands for, on the numbers of `D`. -/
def FunLib (p j : ℕ) (D : Set ℝ) (lib f : ℝ → ℝ) : Prop := ∀ x ∈ D, |lib x - f x| ≤ (growth p j - 1) * |f x|

/-- What the error of the contribution of one subshell at electron energy `E` is measured with. -/
noncomputable def Subshell.scale (s : Subshell) (E : ℝ) : ℝ :=
  |s.a * s.q| / (E * s.P) * (|Real.log (E / s.P)| + 1) * (1 + |s.b| * (1 + s.c * (E / s.P + 1)))

/-- The parameters as loaded. -/
noncomputable def loadShellsR (rd : ℝ → ℝ) (me : ℝ) (shells : List Subshell) : List LotzPar :=
  shells.map fun s => LotzPar.loadR rd me s.P s.q s.a s.b s.c

/-! ## Exact operations -/

/-- **C105**  With exact operations these are the cross sections of C54, C56, C64, C71 and C92. -/
theorem C105_exact_operations :
    (∀ A B mu e, mkLogR id (Real.logb 10) A B mu e = mkLog A B mu e) ∧
    (∀ solve ps mu, mkLotzR id Real.log Real.exp solve (fun a b => decide (a = b)) ps mu = mkLotz solve ps mu) ∧
    (∀ me shells, loadShellsR id me shells = loadShells me shells) := by
  refine ⟨fun A B mu e => ?_, fun solve ps mu => ?_, fun me shells => rfl⟩
  · have hthr : setThresholdR id mu e = setThreshold mu e := rfl
    unfold mkLogR mkLog
    rw [hthr]
    rcases setThreshold mu e with _ | ⟨tE, tv⟩
    · rfl
    · rfl
  · have h1 : ∀ q v, lotzTermR id Real.log Real.exp q (v * v) = lotzTerm q v := by
      intro q v
      simp only [lotzTermR, lotzTerm, id, pow_two]
    have h2 : ∀ thr v, lotzSigmaR id Real.log Real.exp ps thr v = lotzSigma ps thr v := by
      intro thr v
      simp only [lotzSigmaR, lotzSigma, id, h1]
    have h3 : ∀ q v, dsvTermR id Real.log Real.exp q (v * v) = dsvTerm q v := by
      intro q v
      simp only [dsvTermR, dsvTerm, id, pow_two]
    have h4 : lotzDsvR id Real.log Real.exp ps = lotzDsv ps := by
      funext v
      simp only [lotzDsvR, lotzDsv, id, h3]
    have h5 : lotzRangeR id ps = lotzRange ps := by
      cases ps <;> rfl
    have h6 : ∀ (d : ℝ → ℝ) n v, doubleLoopR id d n v = doubleLoop d n v := by
      intro d n
      induction n with
      | zero => intro v; rfl
      | succ n ih => intro v; simp only [doubleLoopR, doubleLoop, ih, id]
    have h2' : lotzSigmaR id Real.log Real.exp ps 0 = lotzSigma ps 0 := funext (h2 0)
    unfold mkLotzR mkLotz
    simp only [h2, h4, h5, h6, h2', id, decide_eq_true_eq, pow_two, mul_assoc]
    rcases lotzRange ps with _ | ⟨vmin, vmax⟩
    · rfl
    · by_cases h : vmin = vmax
      · simp only [h, if_true]
        rfl
      · simp only [h, if_false]
        rfl

/-! ## Logarithmic -/

theorem mkLogR_ok {rd lg10 : ℝ → ℝ} {A B mu e : ℝ} {x : XSec} (hx : mkLogR rd lg10 A B mu e = .ok x) :
    0 ≤ e ∧ x =
      { sigma := logSigmaR rd lg10 A B (thresholdVR rd e mu)
        thrE := e
        maxSV := fun vmax =>
          if vmax ≥ thresholdVR rd e mu then
            match logSigmaR rd lg10 A B (thresholdVR rd e mu) vmax with
            | .error x => .error x
            | .ok s => .ok (rd (s * vmax), vmax)
          else .ok (0, 0) } := by
  unfold mkLogR setThresholdR at hx
  by_cases he : e < 0
  · rw [if_pos he] at hx
    cases hx
  · rw [if_neg he] at hx
    exact ⟨not_lt.1 he, (Except.ok.inj hx).symm⟩

/-- Rounding keeps the sign. -/
theorem Rounding.rd_neg_iff (x : ℝ) : R.rd x < 0 ↔ x < 0 := by
  constructor
  · intro h
    by_contra hc
    exact absurd (R.nonneg (not_lt.1 hc)) (not_le.2 h)
  · intro h
    have h1 := R.le_of_le fp_zero h.le
    refine lt_of_le_of_ne h1 fun h0 => ?_
    have h2 := (R.rel_abs x).pos (abs_pos.2 h.ne)
    rw [h0] at h2
    simp at h2

/-- **C105**  Below the threshold speed the logarithmic cross section is zero, above it the value is within rounding of
`A - B log10 v`, the error being measured with the two terms. -/
theorem C105_log_value {j : ℕ} {lg10 : ℝ → ℝ} (hlg : FunLib p j (Set.Ioi 0) lg10 (Real.logb 10)) {A B mu e : ℝ} {x : XSec}
    (hx : mkLogR R.rd lg10 A B mu e = .ok x) :
    x.thrE = e ∧ 0 ≤ e ∧ (∀ v, v < thresholdVR R.rd e mu → x.sigma v = .ok 0) ∧
    (∀ v, 0 < v → thresholdVR R.rd e mu ≤ v → ∃ s, x.sigma v = .ok s ∧
      |s - (A - B * Real.logb 10 v)| ≤ (growth p (j + 2) - 1) * (|A| + |B * Real.logb 10 v|)) := by
  obtain ⟨he, rfl⟩ := mkLogR_ok hx
  refine ⟨rfl, he, fun v hv => ?_, fun v hv ht => ?_⟩
  · show logSigmaR _ _ _ _ _ _ = _
    unfold logSigmaR
    rw [if_pos hv]
  · refine ⟨R.rd (A - R.rd (B * lg10 v)), ?_, ?_⟩
    · show logSigmaR _ _ _ _ _ _ = _
      unfold logSigmaR
      rw [if_neg (not_lt.2 ht), if_neg hv.ne']
    · have h1 : Err p j (lg10 v) (Real.logb 10 v) |Real.logb 10 v| := ⟨le_rfl, hlg v hv⟩
      have h2 : Err p (j + 1) (R.rd (B * lg10 v)) (B * Real.logb 10 v) |B * Real.logb 10 v| := by
        have := ((Err.refl B).mul h1).rd R
        rw [← abs_mul] at this
        exact this.mono (by omega) le_rfl
      exact ((((Err.refl A).mono (by omega) le_rfl).sub h2).rd R).err

/-- **C105**  Where `log10` of the library and `B` allow, the logarithmic cross section does not increase with the speed above
threshold; it is negative exactly where the rounded `B log10 v` exceeds `A`. -/
theorem C105_log_sign {lg10 : ℝ → ℝ} (hmono : MonotoneOn lg10 (Set.Ioi 0)) {A B mu e : ℝ} (hB : 0 ≤ B) {x : XSec}
    (hx : mkLogR R.rd lg10 A B mu e = .ok x) {v s : ℝ} (hv : 0 < v) (hs : x.sigma v = .ok s) :
    (∀ w t, v ≤ w → thresholdVR R.rd e mu ≤ v → x.sigma w = .ok t → t ≤ s) ∧
    (s < 0 ↔ thresholdVR R.rd e mu ≤ v ∧ A < R.rd (B * lg10 v)) ∧
    (thresholdVR R.rd e mu ≤ v → x.maxSV v = .ok (R.rd (s * v), v)) := by
  obtain ⟨he, rfl⟩ := mkLogR_ok hx
  have hval : ∀ w, 0 < w → thresholdVR R.rd e mu ≤ w →
      logSigmaR R.rd lg10 A B (thresholdVR R.rd e mu) w = .ok (R.rd (A - R.rd (B * lg10 w))) := by
    intro w hw ht
    unfold logSigmaR
    rw [if_neg (not_lt.2 ht), if_neg hw.ne']
  refine ⟨fun w t hvw ht hw => ?_, ?_, fun ht => ?_⟩
  · have h1 := hs.symm.trans (hval v hv ht)
    have h2 := hw.symm.trans (hval w (by linarith) (by linarith))
    cases h1
    cases h2
    apply R.mono
    have := R.mono (mul_le_mul_of_nonneg_left (hmono (Set.mem_Ioi.2 hv) (Set.mem_Ioi.2 (by linarith : 0 < w)) hvw) hB)
    linarith
  · rcases lt_or_ge v (thresholdVR R.rd e mu) with ht | ht
    · have h1 : logSigmaR R.rd lg10 A B (thresholdVR R.rd e mu) v = .ok 0 := by unfold logSigmaR; rw [if_pos ht]
      have h2 := hs.symm.trans h1
      cases h2
      exact ⟨fun h => absurd h (lt_irrefl _), fun h => absurd h.1 (not_le.2 ht)⟩
    · have h1 := hs.symm.trans (hval v hv ht)
      cases h1
      rw [R.rd_neg_iff, sub_neg]
      exact ⟨fun h => ⟨ht, h⟩, fun h => h.2⟩
  · have h1 := hs.symm.trans (hval v hv ht)
    cases h1
    show (if v ≥ thresholdVR R.rd e mu then _ else _) = _
    rw [if_pos ht, hval v hv ht]

/-! ## Lotz: the value -/

section Lib

variable {j k : ℕ} {x y : ℝ}

/-- The logarithm of a number that is near another one. -/
theorem FunLib.log {lg : ℝ → ℝ} (h : FunLib p j (Set.Ioi 0) lg Real.log) (hxy : Rel p k x y) (hy0 : 0 < y) :
    Err p (j + k) (lg x) (Real.log y) (|Real.log y| + 1) := by
  have hx0 : 0 < x := hxy.pos hy0
  have hl := abs_nonneg (Real.log y)
  have hg := growth_one_le (p := p) k
  have hgj := growth_one_le (p := p) j
  have hd : |Real.log x - Real.log y| ≤ growth p k - 1 := by
    rw [abs_le]
    have hgk := growth_pos (p := p) k
    have h1 : Real.log (growth p k) ≤ growth p k - 1 := Real.log_le_sub_one_of_pos hgk
    constructor
    · have := Real.log_le_log hy0 hxy.ge
      rw [Real.log_mul hgk.ne' hx0.ne'] at this
      linarith
    · have := Real.log_le_log hx0 hxy.le
      rw [Real.log_mul hgk.ne' hy0.ne'] at this
      linarith
  refine ⟨by linarith, ?_⟩
  have h1 := h x hx0
  have h2 : |Real.log x| ≤ |Real.log y| + (growth p k - 1) := by
    have := abs_sub_abs_le_abs_sub (Real.log x) (Real.log y)
    linarith
  have h3 := mul_le_mul_of_nonneg_left h2 (by linarith : 0 ≤ growth p j - 1)
  have h4 := abs_sub_le (lg x) (Real.log x) (Real.log y)
  rw [growth_add]
  have h5 : 0 ≤ (growth p j * growth p k - growth p j) * |Real.log y| := by
    apply mul_nonneg _ hl
    nlinarith
  nlinarith

/-- `exp` does not increase differences of numbers that are not positive. -/
theorem exp_sub_le {a b : ℝ} (ha : a ≤ 0) (hb : b ≤ 0) : |Real.exp a - Real.exp b| ≤ |a - b| := by
  have key : ∀ a b : ℝ, b ≤ 0 → a ≤ b → Real.exp b - Real.exp a ≤ b - a := by
    intro a b hb hab
    have h1 := Real.add_one_le_exp (a - b)
    have h2 : Real.exp a = Real.exp b * Real.exp (a - b) := by rw [← Real.exp_add]; congr 1; ring
    have h3 : Real.exp b ≤ 1 := Real.exp_le_one_iff.2 hb
    have h4 := Real.exp_pos b
    rw [h2]
    have h5 : Real.exp b * (a - b + 1) ≤ Real.exp b * Real.exp (a - b) := mul_le_mul_of_nonneg_left h1 h4.le
    nlinarith
  rcases le_total a b with h | h
  · rw [abs_sub_comm, abs_of_nonneg (by linarith [Real.exp_le_exp.2 h]), abs_sub_comm, abs_of_nonneg (by linarith)]
    exact key a b hb h
  · rw [abs_of_nonneg (by linarith [Real.exp_le_exp.2 h]), abs_of_nonneg (by linarith)]
    exact key b a ha h

/-- The exponential of a number that is near another one, neither positive. -/
theorem FunLib.exp {ex : ℝ → ℝ} (h : FunLib p j (Set.Iic 0) ex Real.exp) {M : ℝ} (hxy : Err p k x y M) (hx : x ≤ 0) (hy : y ≤ 0) :
    Err p (j + k) (ex x) (Real.exp y) (1 + M) := by
  have hM := hxy.nonneg
  have hg := growth_one_le (p := p) k
  have hgj := growth_one_le (p := p) j
  have hey : Real.exp y ≤ 1 := Real.exp_le_one_iff.2 hy
  have hexx : Real.exp x ≤ 1 := Real.exp_le_one_iff.2 hx
  refine ⟨by rw [abs_of_pos (Real.exp_pos _)]; linarith, ?_⟩
  have h1 := h x hx
  rw [abs_of_pos (Real.exp_pos x)] at h1
  have h2 := (exp_sub_le hx hy).trans hxy.err
  have h3 := abs_sub_le (ex x) (Real.exp x) (Real.exp y)
  have h4 : (growth p j - 1) * Real.exp x ≤ (growth p j - 1) * 1 := mul_le_mul_of_nonneg_left hexx (by linarith)
  rw [growth_add]
  have h5 : (growth p k - 1) * M ≤ (growth p j * growth p k - 1) * M := by
    apply mul_le_mul_of_nonneg_right _ hM
    nlinarith
  have h6 : growth p j ≤ growth p j * growth p k := by nlinarith
  nlinarith

end Lib

section Value

variable {me : ℝ} {s : Subshell} {v : ℝ}

/-- `v2Beta` is the energy over the binding energy up to four roundings. -/
theorem v2Beta_rel (hme : 0 < me) (hP : 0 < s.P) :
    Rel p 4 (R.rd (R.rd (v * v) * (LotzPar.loadR R.rd me s.P s.q s.a s.b s.c).beta)) (1 / 2 * me * v ^ 2 / s.P) := by
  have h1 : Rel p 1 (R.rd (v * v)) (v * v) := R.rel (mul_self_nonneg v)
  have h2 : Rel p 1 (R.rd (2 * s.P)) (2 * s.P) := R.rel (by positivity)
  have h3 : Rel p 2 (R.rd (me / R.rd (2 * s.P))) (me / (2 * s.P)) := R.rel_rd (by simpa using (Rel.refl hme.le).div h2)
  have h4 := R.rel_rd (h1.mul h3)
  rw [show v * v * (me / (2 * s.P)) = 1 / 2 * me * v ^ 2 / s.P by field_simp] at h4
  exact h4

/-- One summand. -/
theorem lotzTermR_err {j : ℕ} {lg ex : ℝ → ℝ} (hlg : FunLib p j (Set.Ioi 0) lg Real.log)
    (hex : FunLib p j (Set.Iic 0) ex Real.exp) (hme : 0 < me) (hP : 0 < s.P) (hc : 0 ≤ s.c)
    (hE0 : 0 < 1 / 2 * me * v ^ 2) (hopen : s.b = 0 ∨ growth p 4 * s.P ≤ 1 / 2 * me * v ^ 2) :
    Err p (2 * j + 22) (lotzTermR R.rd lg ex (LotzPar.loadR R.rd me s.P s.q s.a s.b s.c) (R.rd (v * v)))
      (s.part (1 / 2 * me * v ^ 2)) (s.scale (1 / 2 * me * v ^ 2)) := by
  have hrel := v2Beta_rel R (v := v) (s := s) hme hP
  unfold lotzTermR Subshell.part Subshell.scale
  dsimp only
  set E := 1 / 2 * me * v ^ 2 with hEdef
  set x := R.rd (R.rd (v * v) * (LotzPar.loadR R.rd me s.P s.q s.a s.b s.c).beta) with hx
  have hlog := hlg.log hrel (by positivity)
  have hnum : Err p (j + 6) (R.rd (R.rd (s.a * s.q) * lg x)) (s.a * s.q * Real.log (E / s.P))
      (|s.a * s.q| * (|Real.log (E / s.P)| + 1)) :=
    (((Err.refl (s.a * s.q)).rd R).mul hlog |>.rd R).mono (by omega) le_rfl
  have hden : Rel p 6 (R.rd (R.rd (s.P * s.P) * x)) (E * s.P) := by
    have h1 : Rel p 1 (R.rd (s.P * s.P)) (s.P * s.P) := R.rel (mul_self_nonneg _)
    have h2 := R.rel_rd (h1.mul hrel)
    rw [show s.P * s.P * (E / s.P) = E * s.P by field_simp] at h2
    exact h2
  have hquot : Err p (j + 13) (R.rd (R.rd (R.rd (s.a * s.q) * lg x) / R.rd (R.rd (s.P * s.P) * x)))
      (s.a * s.q * Real.log (E / s.P) / (E * s.P)) (|s.a * s.q| / (E * s.P) * (|Real.log (E / s.P)| + 1)) := by
    have := (hnum.mul (Err.of_rel hden.inv)).rd R
    rw [← div_eq_mul_inv, ← div_eq_mul_inv] at this
    refine this.mono (by omega) (le_of_eq ?_)
    ring
  have hfac : Err p (j + 8) (R.rd (1 - R.rd (s.b * ex (R.rd (-s.c * R.rd (x - 1))))))
      (1 - s.b * Real.exp (-s.c * (E / s.P - 1))) (1 + |s.b| * (1 + s.c * (E / s.P + 1))) := by
    have hbex : Err p (j + 7) (R.rd (s.b * ex (R.rd (-s.c * R.rd (x - 1))))) (s.b * Real.exp (-s.c * (E / s.P - 1)))
        (|s.b| * (1 + s.c * (E / s.P + 1))) := by
      rcases hopen with hb | hb
      · rw [hb]
        simp only [zero_mul, abs_zero, R.rd_zero]
        exact ⟨by simp, by simp⟩
      · have hx1 : 1 ≤ x := by
          have h1 := hrel.ge
          have h2 : growth p 4 ≤ E / s.P := by rwa [le_div_iff₀ hP]
          have h3 := growth_pos (p := p) 4
          by_contra hc
          push Not at hc
          nlinarith
        have hsub : Err p 5 (R.rd (x - 1)) (E / s.P - 1) (E / s.P + 1) := by
          have h1 : Err p 4 (1 : ℝ) 1 1 := ((Err.refl (p := p) (1 : ℝ)).mono (by omega : 0 ≤ 4) (by simp))
          exact ((Err.of_rel hrel).sub h1).rd R
        have harg : Err p 6 (R.rd (-s.c * R.rd (x - 1))) (-s.c * (E / s.P - 1)) (s.c * (E / s.P + 1)) := by
          have h1 := ((Err.refl (p := p) (-s.c)).mul hsub).rd R
          rw [abs_neg, abs_of_nonneg hc] at h1
          exact h1.mono (by omega) le_rfl
        have hneg : R.rd (-s.c * R.rd (x - 1)) ≤ 0 := by
          apply R.le_of_le fp_zero
          have := R.nonneg (x := x - 1) (by linarith)
          nlinarith
        have hneg' : -s.c * (E / s.P - 1) ≤ 0 := by
          have h2 : growth p 4 ≤ E / s.P := by rwa [le_div_iff₀ hP]
          have h3 := growth_one_le (p := p) 4
          nlinarith
        exact (((Err.refl s.b).mul (hex.exp harg hneg hneg')).rd R).mono (by omega) le_rfl
    have h1 : Err p (j + 7) (1 : ℝ) 1 1 := ((Err.refl (p := p) (1 : ℝ)).mono (by omega) (by simp))
    exact (h1.sub hbex).rd R
  exact ((hquot.mul hfac).rd R).mono (by omega) le_rfl

end Value

/-- Errors of a sum that is formed term by term. -/
theorem sumR_err {α : Type} {k : ℕ} {f g M : α → ℝ} : ∀ (l : List α) (n : ℕ) (a b N : ℝ), k ≤ n → Err p n a b N →
    (∀ i ∈ l, Err p k (f i) (g i) (M i)) →
    Err p (n + l.length) (l.foldl (fun s i => R.rd (s + f i)) a) (b + (l.map g).sum) (N + (l.map M).sum) := by
  intro l
  induction l with
  | nil => intro n a b N _ h _; simpa using h
  | cons i l ih =>
    intro n a b N hkn h hl
    have h1 := (h.add ((hl i (by simp)).mono hkn le_rfl)).rd R
    have h2 := ih (n + 1) _ _ _ (by omega) h1 fun i' hi' => hl i' (by simp [hi'])
    rw [List.map_cons, List.sum_cons, List.map_cons, List.sum_cons, ← add_assoc, ← add_assoc, List.length_cons,
      show n + (l.length + 1) = n + 1 + l.length by omega]
    exact h2

/-- **C105**  At every speed from the threshold on at which the electron reaches all binding energies (by four roundings where
there is an exponential correction), a Lotz cross section is the published formula up to rounding. -/
theorem C105_lotz_value {j : ℕ} {lg ex : ℝ → ℝ} (hlg : FunLib p j (Set.Ioi 0) lg Real.log)
    (hex : FunLib p j (Set.Iic 0) ex Real.exp) {me : ℝ} (hme : 0 < me) {shells : List Subshell}
    (hP : ∀ s ∈ shells, 0 < s.P) (hc : ∀ s ∈ shells, 0 ≤ s.c) {thr v : ℝ} (hthr : thr ≤ v)
    (hE : ∀ s ∈ shells, s.P ≤ 1 / 2 * me * v ^ 2)
    (hopen : ∀ s ∈ shells, s.b = 0 ∨ growth p 4 * s.P ≤ 1 / 2 * me * v ^ 2) :
    |lotzSigmaR R.rd lg ex (loadShellsR R.rd me shells) thr v - lotzFormula shells (1 / 2 * me * v ^ 2)| ≤
      (growth p (2 * j + 22 + shells.length) - 1) * (shells.map fun s => s.scale (1 / 2 * me * v ^ 2)).sum := by
  unfold lotzSigmaR loadShellsR
  rw [if_neg (not_lt.2 hthr), List.foldl_map]
  have h0 : Err p (2 * j + 22) (0 : ℝ) 0 0 := ⟨by simp, by simp⟩
  have h := sumR_err R (k := 2 * j + 22)
    (f := fun s : Subshell => lotzTermR R.rd lg ex (LotzPar.loadR R.rd me s.P s.q s.a s.b s.c) (R.rd (v * v)))
    (g := fun s => s.part (1 / 2 * me * v ^ 2)) (M := fun s => s.scale (1 / 2 * me * v ^ 2)) shells (2 * j + 22) 0 0 0 le_rfl h0
    (fun s hs => lotzTermR_err R hlg hex hme (hP s hs) (hc s hs) (lt_of_lt_of_le (hP s hs) (hE s hs)) (hopen s hs))
  rw [zero_add, zero_add] at h
  have e : lotzFormula shells (1 / 2 * me * v ^ 2) = (shells.map fun s => s.part (1 / 2 * me * v ^ 2)).sum := by
    unfold lotzFormula
    congr 1
    apply List.map_congr_left
    intro s hs
    rw [if_pos (hE s hs)]
  rw [e]
  exact h.err

/-! ## Lotz: the sign -/

/-- **C105**  A Lotz cross section is not negative where the electron reaches all binding energies by four roundings. -/
theorem C105_lotz_nonneg {lg ex : ℝ → ℝ} (hlg : ∀ x, 1 ≤ x → 0 ≤ lg x) (hex : ∀ y, y ≤ 0 → ex y ≤ 1) {me : ℝ} (hme : 0 < me)
    {shells : List Subshell} (hs : ∀ s ∈ shells, 0 < s.P ∧ 0 ≤ s.a * s.q ∧ 0 ≤ s.b ∧ s.b ≤ 1 ∧ 0 ≤ s.c) {thr v : ℝ}
    (hE : ∀ s ∈ shells, v < thr ∨ growth p 4 * s.P ≤ 1 / 2 * me * v ^ 2) :
    0 ≤ lotzSigmaR R.rd lg ex (loadShellsR R.rd me shells) thr v := by
  unfold lotzSigmaR
  split_ifs with hv
  · exact le_rfl
  have key : ∀ (l : List LotzPar) (a : ℝ), 0 ≤ a → (∀ q ∈ l, 0 ≤ lotzTermR R.rd lg ex q (R.rd (v * v))) →
      0 ≤ l.foldl (fun s p => R.rd (s + lotzTermR R.rd lg ex p (R.rd (v * v)))) a := by
    intro l
    induction l with
    | nil => intro a ha _; exact ha
    | cons q l ih =>
      intro a ha hl
      exact ih _ (R.nonneg (add_nonneg ha (hl q (by simp)))) fun q' hq' => hl q' (by simp [hq'])
  apply key _ _ le_rfl
  intro q hq
  obtain ⟨s, hmem, rfl⟩ := List.mem_map.1 hq
  obtain ⟨hP, haq, hb0, hb1, hc⟩ := hs s hmem
  have hopen := (hE s hmem).resolve_left hv
  have hrel := v2Beta_rel R (v := v) (s := s) hme hP
  unfold lotzTermR
  dsimp only
  set x := R.rd (R.rd (v * v) * (LotzPar.loadR R.rd me s.P s.q s.a s.b s.c).beta) with hx
  have hx1 : 1 ≤ x := by
    have h1 := hrel.ge
    have h2 : growth p 4 ≤ 1 / 2 * me * v ^ 2 / s.P := by rwa [le_div_iff₀ hP]
    have h3 := growth_pos (p := p) 4
    by_contra hc
    push Not at hc
    nlinarith
  apply R.nonneg
  apply mul_nonneg
  · apply R.nonneg
    apply div_nonneg
    · exact R.nonneg (mul_nonneg (R.nonneg haq) (hlg x hx1))
    · exact R.nonneg (mul_nonneg (R.nonneg (mul_self_nonneg _)) (by linarith))
  · apply R.nonneg
    have hneg : R.rd (-s.c * R.rd (x - 1)) ≤ 0 := by
      apply R.le_of_le fp_zero
      have := R.nonneg (x := x - 1) (by linarith)
      nlinarith
    have h1 : R.rd (s.b * ex (R.rd (-s.c * R.rd (x - 1)))) ≤ 1 := by
      apply R.le_of_le fp_one
      have := hex _ hneg
      nlinarith
    show 0 ≤ 1 - R.rd (s.b * ex (R.rd (-s.c * R.rd (x - 1))))
    linarith

/-! ## Lotz: the threshold -/

/-- The speed at which a shell opens. -/
theorem shellSpeedR_rel {me : ℝ} (hme : 0 < me) {s : Subshell} (hP : 0 < s.P) :
    Rel p 3 (shellSpeedR R.rd (LotzPar.loadR R.rd me s.P s.q s.a s.b s.c)) (Real.sqrt (2 * s.P / me)) := by
  have h2 : Rel p 1 (R.rd (2 * s.P)) (2 * s.P) := R.rel (by positivity)
  have h3 : Rel p 2 (R.rd (me / R.rd (2 * s.P))) (me / (2 * s.P)) := R.rel_rd (by simpa using (Rel.refl hme.le).div h2)
  have h4 := R.rel_rd ((Rel.sqrt (k := 1) h3))
  have h5 := R.rel_rd (h4.inv)
  unfold shellSpeedR LotzPar.loadR
  dsimp only
  rw [one_div]
  rw [← Real.sqrt_inv, inv_div] at h5
  exact h5

/-- With one binding energy there is nothing to search for. -/
theorem mkLotzR_same {rd lg ex : ℝ → ℝ} {solve : RootFinder} {tol : ℝ → ℝ → Bool} (htol : ∀ v, tol v v = true)
    {me mu P : ℝ} {shells : List Subshell} (hs : ∀ s ∈ shells, s.P = P)
    {x : XSec} (hx : mkLotzR rd lg ex solve tol (loadShellsR rd me shells) mu = .ok x) :
    ∃ s0 ∈ shells, ∃ thr z, thr = shellSpeedR rd (LotzPar.loadR rd me s0.P s0.q s0.a s0.b s0.c) ∧ x =
      { sigma := fun v => .ok (lotzSigmaR rd lg ex (loadShellsR rd me shells) thr v)
        thrE := rd (rd (1 / 2 * mu) * rd (thr * thr))
        maxSV := fun vm => .ok (if vm > z then (rd (z * lotzSigmaR rd lg ex (loadShellsR rd me shells) thr z), z)
          else (rd (vm * lotzSigmaR rd lg ex (loadShellsR rd me shells) thr vm), vm)) } := by
  cases shells with
  | nil => cases hx
  | cons s0 l =>
    have hw : ∀ s ∈ l, shellSpeedR rd (LotzPar.loadR rd me s.P s.q s.a s.b s.c) =
        shellSpeedR rd (LotzPar.loadR rd me s0.P s0.q s0.a s0.b s0.c) := by
      intro s h
      have : s.P = s0.P := (hs s (by simp [h])).trans (hs s0 (by simp)).symm
      simp only [shellSpeedR, LotzPar.loadR, this]
    set w := shellSpeedR rd (LotzPar.loadR rd me s0.P s0.q s0.a s0.b s0.c) with hwdef
    have hrange : lotzRangeR rd (loadShellsR rd me (s0 :: l)) = some (w, w) := by
      show some (List.foldl _ (w, w) (loadShellsR rd me l)) = some (w, w)
      congr 1
      unfold loadShellsR
      rw [List.foldl_map]
      clear hx hs
      induction l with
      | nil => rfl
      | cons s l ih =>
        rw [List.foldl_cons]
        have h1 := hw s (by simp)
        simp only [h1, lt_irrefl, gt_iff_lt, if_false]
        simp only [gt_iff_lt] at ih
        exact ih fun s' h' => hw s' (by simp [h'])
    unfold mkLotzR at hx
    simp only [hrange, htol, if_true] at hx
    split at hx
    · cases hx
    · rename_i z hz
      exact ⟨s0, by simp, w, z, rfl, (Except.ok.inj hx).symm⟩

/-- **C105**  Shells with one binding energy `P`: the threshold speed is that of an electron with energy `P` within three
roundings, the threshold energy within nine of `P` times the reduced mass over that of the electron, and the cross section is
zero below and, for `a q` and `c` not negative and `b` between zero and one, not negative from two roundings above that speed on. -/
theorem C105_lotz_threshold {lg ex : ℝ → ℝ} {solve : RootFinder} {tol : ℝ → ℝ → Bool} (htol : ∀ v, tol v v = true)
    {me mu P : ℝ} (hme : 0 < me) (hmu : 0 < mu) (hP : 0 < P) {shells : List Subshell} (hs : ∀ s ∈ shells, s.P = P)
    {x : XSec} (hx : mkLotzR R.rd lg ex solve tol (loadShellsR R.rd me shells) mu = .ok x) :
    Rel p 9 x.thrE (P * mu / me) ∧
    (∀ v, growth p 3 * v < Real.sqrt (2 * P / me) → x.sigma v = .ok 0) ∧
    ((∀ x, 1 ≤ x → 0 ≤ lg x) → (∀ y, y ≤ 0 → ex y ≤ 1) →
      (∀ s ∈ shells, 0 ≤ s.a * s.q ∧ 0 ≤ s.b ∧ s.b ≤ 1 ∧ 0 ≤ s.c) →
      ∀ v, growth p 2 * Real.sqrt (2 * P / me) ≤ v → ∃ t, x.sigma v = .ok t ∧ 0 ≤ t) := by
  obtain ⟨s0, hs0, thr, z, rfl, rfl⟩ := mkLotzR_same htol hs hx
  have hthr := shellSpeedR_rel R hme (s := s0) (by rw [hs s0 hs0]; exact hP)
  have hr0 : Real.sqrt (2 * s0.P / me) = Real.sqrt (2 * P / me) := by rw [hs s0 hs0]
  rw [hr0] at hthr
  have hq : 0 ≤ 2 * P / me := by positivity
  have hr := Real.sqrt_nonneg (2 * P / me)
  refine ⟨?_, fun v hv => ?_, fun hlg hex hs' v hv => ⟨_, rfl, ?_⟩⟩
  · have h1 : Rel p 1 (R.rd (1 / 2 * mu)) (1 / 2 * mu) := R.rel (by positivity)
    have h2 := R.rel_rd (h1.mul (R.rel_rd (hthr.mul hthr)))
    rw [Real.mul_self_sqrt hq] at h2
    rw [show P * mu / me = 1 / 2 * mu * (2 * P / me) by field_simp]
    exact h2
  · show Except.ok (lotzSigmaR _ _ _ _ _ _) = _
    unfold lotzSigmaR
    rw [if_pos]
    have h1 := hthr.ge
    have h2 := growth_pos (p := p) 3
    exact lt_of_mul_lt_mul_left (lt_of_lt_of_le hv h1) h2.le
  · apply C105_lotz_nonneg R hlg hex hme (fun s h => ⟨by rw [hs s h]; exact hP, hs' s h⟩)
    intro s h
    right
    rw [hs s h]
    have h2 := growth_pos (p := p) 2
    have h3 : (growth p 2 * Real.sqrt (2 * P / me)) ^ 2 ≤ v ^ 2 := pow_le_pow_left₀ (by positivity) hv 2
    rw [mul_pow, Real.sq_sqrt hq] at h3
    have h4 : growth p 4 = growth p 2 ^ 2 := by rw [pow_two, ← growth_add]
    rw [h4]
    have h5 := mul_le_mul_of_nonneg_left h3 (by positivity : 0 ≤ 1 / 2 * me)
    have h6 : 1 / 2 * me * (growth p 2 ^ 2 * (2 * P / me)) = growth p 2 ^ 2 * P := by field_simp
    linarith

/-! ## Lotz: the greatest product -/

/-- The search returns the upper end of an interval of relative width `τ` with a change of sign, inside the interval searched
(`toms748_solve` and the check of the tolerance, C92). -/
def RootFinder.Within (solve : RootFinder) (τ : ℝ) : Prop :=
  ∀ f a b z, solve f a b = some z → ∃ y, a ≤ y ∧ y ≤ z ∧ z ≤ (1 + τ) * y ∧ f y * f z ≤ 0

/-- The greatest value of `v sigma(v)` for one shell without correction: at `e` times the threshold speed. -/
noncomputable def Subshell.peak (s : Subshell) (me : ℝ) : ℝ :=
  s.a * s.q / s.P ^ 2 * Real.sqrt (2 * s.P / me) * (2 / Real.exp 1)

section Max

variable {me : ℝ} {s : Subshell} {v w : ℝ}

/-- The scaled product: `L exp(-L/2)` for `L = log(E/P)`. -/
noncomputable def bump (L : ℝ) : ℝ := L * Real.exp (-L / 2)

theorem bump_le (L : ℝ) : bump L ≤ 2 / Real.exp 1 := by
  have h := Real.add_one_le_exp (L / 2 - 1)
  have e : Real.exp (-L / 2) = (Real.exp (L / 2 - 1))⁻¹ * (Real.exp 1)⁻¹ := by
    rw [← Real.exp_neg, ← Real.exp_neg, ← Real.exp_add]; congr 1; ring
  have h1 := Real.exp_pos (L / 2 - 1)
  have h2 := Real.exp_pos 1
  unfold bump
  rw [e, ← mul_assoc, ← div_eq_mul_inv, ← div_eq_mul_inv]
  apply div_le_div_of_nonneg_right _ h2.le
  rw [div_le_iff₀ h1]
  linarith

/-- Near the top the scaled product is the greatest one up to a square. -/
theorem bump_near {L δ : ℝ} (h : |L - 2| ≤ 2 * δ) (hL : 0 ≤ L) : (1 - δ ^ 2) * (2 / Real.exp 1) ≤ bump L := by
  have h2 := Real.exp_pos 1
  have e : Real.exp (-L / 2) = Real.exp (1 - L / 2) * (Real.exp 1)⁻¹ := by
    rw [← Real.exp_neg, ← Real.exp_add]; congr 1; ring
  unfold bump
  rw [e, ← mul_assoc, ← div_eq_mul_inv, ← mul_div_assoc]
  apply div_le_div_of_nonneg_right _ h2.le
  have h1 := Real.add_one_le_exp (1 - L / 2)
  have h3 := mul_le_mul_of_nonneg_left h1 hL
  have h4 := abs_le.1 h
  have h5 : (L - 2) ^ 2 ≤ (2 * δ) ^ 2 := sq_le_sq' (by linarith [h4.1]) h4.2
  nlinarith

/-- Up to two it increases, after that it decreases. -/
theorem bump_mono {L L' : ℝ} (h : L ≤ L') (h2 : L' ≤ 2) : bump L ≤ bump L' := by
  have e : Real.exp (-L / 2) = Real.exp (-L' / 2) * Real.exp ((L' - L) / 2) := by
    rw [← Real.exp_add]; congr 1; ring
  have h1 := Real.exp_pos (-L' / 2)
  unfold bump
  rw [e, ← mul_assoc, mul_right_comm, mul_comm (L * _), mul_comm L']
  apply mul_le_mul_of_nonneg_left _ h1.le
  rcases le_or_gt L 0 with h0 | h0
  · have h3 := Real.add_one_le_exp ((L' - L) / 2)
    nlinarith
  · have h3 := Real.add_one_le_exp (-((L' - L) / 2))
    rw [Real.exp_neg] at h3
    have h4 := Real.exp_pos ((L' - L) / 2)
    have h5 : (-((L' - L) / 2) + 1) * Real.exp ((L' - L) / 2) ≤ 1 := by
      have := mul_le_mul_of_nonneg_right h3 h4.le
      rwa [inv_mul_cancel₀ h4.ne'] at this
    have h6 : L ≤ L' * (-((L' - L) / 2) + 1) := by nlinarith
    have h7 := mul_le_mul_of_nonneg_right h6 h4.le
    nlinarith

theorem bump_anti {L L' : ℝ} (h : L ≤ L') (h2 : 2 ≤ L) : bump L' ≤ bump L := by
  have e : Real.exp (-L' / 2) = Real.exp (-L / 2) * Real.exp (-((L' - L) / 2)) := by
    rw [← Real.exp_add]; congr 1; ring
  have h1 := Real.exp_pos (-L / 2)
  unfold bump
  rw [e, ← mul_assoc, mul_right_comm, mul_comm (L' * _), mul_comm L]
  apply mul_le_mul_of_nonneg_left _ h1.le
  have h3 := Real.add_one_le_exp ((L' - L) / 2)
  rw [Real.exp_neg, ← div_eq_mul_inv, div_le_iff₀ (Real.exp_pos _)]
  nlinarith

/-- `v sigma(v)` of one shell without correction. -/
theorem part_product (hme : 0 < me) (hP : 0 < s.P) (hb : s.b = 0) (hv : 0 < v) :
    v * s.part (1 / 2 * me * v ^ 2) =
      s.a * s.q / s.P ^ 2 * Real.sqrt (2 * s.P / me) * bump (Real.log (1 / 2 * me * v ^ 2 / s.P)) ∧
    v * s.scale (1 / 2 * me * v ^ 2) = |s.a * s.q| / s.P ^ 2 * Real.sqrt (2 * s.P / me) *
      ((|Real.log (1 / 2 * me * v ^ 2 / s.P)| + 1) * Real.exp (-Real.log (1 / 2 * me * v ^ 2 / s.P) / 2)) := by
  have hE : 0 < 1 / 2 * me * v ^ 2 := by positivity
  have hr : 0 < Real.sqrt (2 * s.P / me) := Real.sqrt_pos.2 (by positivity)
  have hrr : Real.sqrt (2 * s.P / me) ^ 2 = 2 * s.P / me := Real.sq_sqrt (by positivity)
  set r := Real.sqrt (2 * s.P / me) with hrdef
  have hx : 1 / 2 * me * v ^ 2 / s.P = (v / r) ^ 2 := by
    rw [div_pow, hrr]; field_simp
  have hexp : Real.exp (-Real.log (1 / 2 * me * v ^ 2 / s.P) / 2) = r / v := by
    have hvr : 0 < v / r := by positivity
    rw [hx, Real.log_pow, show -(((2 : ℕ) : ℝ) * Real.log (v / r)) / 2 = -Real.log (v / r) by push_cast; ring, Real.exp_neg,
      Real.exp_log hvr, inv_div]
  have hq : v / (1 / 2 * me * v ^ 2 * s.P) = r * (r / v) / s.P ^ 2 := by
    rw [← mul_div_assoc, ← pow_two, hrr]; field_simp
  unfold Subshell.part Subshell.scale bump
  rw [hexp, hb]
  simp only [zero_mul, abs_zero, sub_zero, add_zero, mul_one]
  constructor
  · generalize Real.log (1 / 2 * me * v ^ 2 / s.P) = L
    rw [show v * (s.a * s.q * L / (1 / 2 * me * v ^ 2 * s.P)) = s.a * s.q * L * (v / (1 / 2 * me * v ^ 2 * s.P)) by ring, hq]
    ring
  · generalize Real.log (1 / 2 * me * v ^ 2 / s.P) = L
    rw [show v * (|s.a * s.q| / (1 / 2 * me * v ^ 2 * s.P) * (|L| + 1)) =
      |s.a * s.q| * (|L| + 1) * (v / (1 / 2 * me * v ^ 2 * s.P)) by ring, hq]
    ring

theorem exp_three_halves : Real.exp (1 / 2) * Real.exp 1 ≤ 5 := by
  have h1 := Real.exp_one_lt_d9
  have h2 : Real.exp (1 / 2) ^ 2 = Real.exp 1 := by rw [← Real.exp_nat_mul]; norm_num
  have h3 := Real.exp_pos (1 / 2)
  have h4 := Real.exp_pos 1
  apply le_of_sq_le_sq _ (by norm_num)
  rw [mul_pow, h2]
  nlinarith

/-- Just below the threshold the product is hardly negative. -/
theorem bump_ge {L G : ℝ} (hG : 0 ≤ G) (h : -G ≤ L) (hL : -1 ≤ L) : -(3 * G) * (2 / Real.exp 1) ≤ bump L := by
  have he := exp_three_halves
  have h2 := Real.exp_pos 1
  have h5 : 0 ≤ 2 / Real.exp 1 := by positivity
  unfold bump
  rcases le_total 0 L with h0 | h0
  · have := mul_nonneg h0 (Real.exp_pos (-L / 2)).le
    nlinarith
  · have h4 : Real.exp (-L / 2) ≤ Real.exp (1 / 2) := Real.exp_le_exp.2 (by linarith)
    have h6 : (-L) * Real.exp (-L / 2) ≤ G * Real.exp (1 / 2) :=
      mul_le_mul (by linarith) h4 (Real.exp_pos _).le hG
    have h7 : Real.exp (1 / 2) ≤ 3 * (2 / Real.exp 1) := by
      rw [← mul_div_assoc, le_div_iff₀ h2]; linarith
    nlinarith

/-- What errors are measured with is not much more than the greatest product. -/
theorem scale_le {L : ℝ} (hL : -1 ≤ L) : (|L| + 1) * Real.exp (-L / 2) ≤ 5 * (2 / Real.exp 1) := by
  have he := exp_three_halves
  have h1 := Real.exp_pos (1 / 2)
  have h2 := Real.exp_pos 1
  have h3 : 1 ≤ Real.exp 1 := Real.one_le_exp (by norm_num)
  rcases le_total 0 L with h0 | h0
  · rw [abs_of_nonneg h0]
    have e : (L + 1) * Real.exp (-L / 2) = bump (L + 1) * Real.exp (1 / 2) := by
      unfold bump
      rw [mul_assoc, ← Real.exp_add]; congr 2; ring
    rw [e, mul_comm (5 : ℝ)]
    exact mul_le_mul (bump_le _) (by nlinarith) h1.le (by positivity)
  · have h4 : Real.exp (-L / 2) ≤ Real.exp (1 / 2) := Real.exp_le_exp.2 (by linarith)
    rw [abs_of_nonpos h0]
    calc (-L + 1) * Real.exp (-L / 2) ≤ 2 * Real.exp (1 / 2) :=
          mul_le_mul (by linarith) h4 (Real.exp_pos _).le (by norm_num)
      _ ≤ 5 * (2 / Real.exp 1) := by
          rw [← mul_div_assoc, le_div_iff₀ h2]; linarith

/-- From the threshold on the logarithm is hardly negative. -/
theorem log_ge_of_threshold (hme : 0 < me) (hP : 0 < s.P)
    (hv : shellSpeedR R.rd (LotzPar.loadR R.rd me s.P s.q s.a s.b s.c) ≤ v) :
    0 < v ∧ -(growth p 6 - 1) ≤ Real.log (1 / 2 * me * v ^ 2 / s.P) := by
  have hthr := shellSpeedR_rel R hme hP
  have hr : 0 < Real.sqrt (2 * s.P / me) := Real.sqrt_pos.2 (by positivity)
  have hrr : Real.sqrt (2 * s.P / me) ^ 2 = 2 * s.P / me := Real.sq_sqrt (by positivity)
  have hv0 : 0 < v := lt_of_lt_of_le (hthr.pos hr) hv
  refine ⟨hv0, ?_⟩
  have hg := growth_pos (p := p) 3
  have h1 : Real.sqrt (2 * s.P / me) ≤ growth p 3 * v := hthr.ge.trans (mul_le_mul_of_nonneg_left hv hg.le)
  have h2 : 2 * s.P / me ≤ growth p 6 * v ^ 2 := by
    have := pow_le_pow_left₀ hr.le h1 2
    rw [hrr, mul_pow] at this
    rwa [show growth p 6 = growth p 3 ^ 2 by rw [pow_two, ← growth_add]]
  have h3 : 1 ≤ growth p 6 * (1 / 2 * me * v ^ 2 / s.P) := by
    rw [div_le_iff₀ hme] at h2
    rw [← mul_div_assoc, le_div_iff₀ hP]
    linarith
  have h4 := Real.log_le_log one_pos h3
  rw [Real.log_one, Real.log_mul (growth_pos 6).ne' (by positivity)] at h4
  have h5 := Real.log_le_sub_one_of_pos (growth_pos (p := p) 6)
  linarith

/-- The products that are formed. -/
theorem sigma_product_err {j : ℕ} {lg ex : ℝ → ℝ} (hlg : FunLib p j (Set.Ioi 0) lg Real.log)
    (hex : FunLib p j (Set.Iic 0) ex Real.exp) (hme : 0 < me) (hP : 0 < s.P) (hb : s.b = 0) (hc : 0 ≤ s.c)
    (haq : 0 < s.a * s.q) {thr : ℝ} (hthr : thr ≤ v) (hv : 0 < v) (hL : -1 ≤ Real.log (1 / 2 * me * v ^ 2 / s.P)) :
    Err p (2 * j + 23) (v * lotzSigmaR R.rd lg ex (loadShellsR R.rd me [s]) thr v)
      (s.a * s.q / s.P ^ 2 * Real.sqrt (2 * s.P / me) * bump (Real.log (1 / 2 * me * v ^ 2 / s.P))) (5 * s.peak me) := by
  have h1 := (lotzTermR_err R hlg hex hme hP hc (v := v) (by positivity) (Or.inl hb)).rd R
  have h2 : lotzSigmaR R.rd lg ex (loadShellsR R.rd me [s]) thr v =
      R.rd (lotzTermR R.rd lg ex (LotzPar.loadR R.rd me s.P s.q s.a s.b s.c) (R.rd (v * v))) := by
    unfold lotzSigmaR
    rw [if_neg (not_lt.2 hthr)]
    show R.rd (0 + _) = _
    rw [zero_add]
  rw [← h2] at h1
  have h3 := (Err.refl (p := p) v).mul h1
  obtain ⟨e1, e2⟩ := part_product hme hP hb hv
  rw [abs_of_pos hv, e1, e2, abs_of_pos haq] at h3
  refine h3.mono (by omega) ?_
  unfold Subshell.peak
  have hK : 0 ≤ s.a * s.q / s.P ^ 2 * Real.sqrt (2 * s.P / me) := by positivity
  have h4 := mul_le_mul_of_nonneg_left (scale_le hL) hK
  linarith

/-- The sign of the derivative of the product that is formed. -/
theorem dsvR_sign (hp : 0 < p) {lg ex : ℝ → ℝ} (hexp : ∀ y, 0 < ex y) (hme : 0 < me) (hP : 0 < s.P) (hb : s.b = 0)
    (haq : 0 < s.a * s.q) (hv : 0 < v) :
    (0 ≤ lotzDsvR R.rd lg ex (loadShellsR R.rd me [s]) v ↔
      lg (R.rd (R.rd (v * v) * (LotzPar.loadR R.rd me s.P s.q s.a s.b s.c).beta)) ≤ 2) ∧
    (lotzDsvR R.rd lg ex (loadShellsR R.rd me [s]) v ≤ 0 ↔
      2 ≤ lg (R.rd (R.rd (v * v) * (LotzPar.loadR R.rd me s.P s.q s.a s.b s.c).beta))) := by
  have hrel := v2Beta_rel R (v := v) (s := s) hme hP
  have hpos : ∀ t, 0 < R.rd t ↔ 0 < t := by
    intro t
    refine ⟨fun h => ?_, fun h => R.pos hp h⟩
    by_contra hc
    exact absurd (R.le_of_le fp_zero (not_lt.1 hc)) (not_le.2 h)
  have e : lotzDsvR R.rd lg ex (loadShellsR R.rd me [s]) v =
      R.rd (dsvTermR R.rd lg ex (LotzPar.loadR R.rd me s.P s.q s.a s.b s.c) (R.rd (v * v))) := by
    show R.rd (0 + _) = _
    rw [zero_add]
  rw [e]
  unfold dsvTermR
  dsimp only
  set x := R.rd (R.rd (v * v) * (LotzPar.loadR R.rd me s.P s.q s.a s.b s.c).beta) with hx
  have hx0 : 0 < x := hrel.pos (by positivity)
  have hbb : (LotzPar.loadR R.rd me s.P s.q s.a s.b s.c).b = 0 := hb
  rw [hbb]
  simp only [mul_zero, R.rd_zero, zero_mul, zero_sub]
  set A := R.rd (R.rd (R.rd ((LotzPar.loadR R.rd me s.P s.q s.a s.b s.c).a * (LotzPar.loadR R.rd me s.P s.q s.a s.b s.c).q) *
    ex (R.rd ((LotzPar.loadR R.rd me s.P s.q s.a s.b s.c).c - R.rd ((LotzPar.loadR R.rd me s.P s.q s.a s.b s.c).c * x)))) /
    R.rd (R.rd ((LotzPar.loadR R.rd me s.P s.q s.a s.b s.c).P * (LotzPar.loadR R.rd me s.P s.q s.a s.b s.c).P) * x)) with hA
  have hA0 : 0 < A := by
    apply R.pos hp
    apply div_pos
    · exact R.pos hp (mul_pos (R.pos hp haq) (hexp _))
    · exact R.pos hp (mul_pos (R.pos hp (mul_pos hP hP)) hx0)
  have hB0 := hexp (R.rd (-(LotzPar.loadR R.rd me s.P s.q s.a s.b s.c).c + R.rd ((LotzPar.loadR R.rd me s.P s.q s.a s.b s.c).c * x)))
  set B := ex (R.rd (-(LotzPar.loadR R.rd me s.P s.q s.a s.b s.c).c + R.rd ((LotzPar.loadR R.rd me s.P s.q s.a s.b s.c).c * x)))
  constructor
  · rw [← not_lt, R.rd_neg_iff, R.rd_neg_iff, mul_neg_iff]
    have h1 : ¬ (A < 0) := not_lt.2 hA0.le
    simp only [hA0, h1, true_and, false_and, or_false]
    rw [R.rd_neg_iff, neg_lt_zero, hpos, mul_pos_iff_of_pos_left hB0, hpos, sub_pos, not_lt]
  · rw [← not_lt, hpos, hpos, mul_pos_iff_of_pos_left hA0, hpos, neg_pos, R.rd_neg_iff, mul_neg_iff]
    have h1 : ¬ (B < 0) := not_lt.2 hB0.le
    simp only [hB0, h1, true_and, false_and, or_false]
    rw [R.rd_neg_iff, sub_neg, not_lt]

/-- The logarithm at a speed where the formed derivative changes sign. -/
theorem log_near_two {g L l : ℝ} (hg : g ≤ 1 / 2) (hg0 : 0 ≤ g) (hL : -1 ≤ L) (h : |l - L| ≤ g * (|L| + 1)) :
    (l ≤ 2 → L ≤ 2 + 6 * g) ∧ (2 ≤ l → 2 - 6 * g ≤ L) := by
  have h1 := abs_le.1 h
  constructor
  · intro hl
    by_contra hc
    push Not at hc
    have h2 : 2 < L := by linarith
    rw [abs_of_pos (by linarith)] at h1
    nlinarith [h1.1]
  · intro hl
    by_contra hc
    push Not at hc
    have h2 : |L| ≤ 2 := by rw [abs_le]; constructor <;> linarith
    have h3 := mul_le_mul_of_nonneg_left (by linarith : |L| + 1 ≤ 3) hg0
    nlinarith [h1.2]

end Max

/-- **C105**  One shell without exponential correction, and a search that ends with a change of sign of the derivative it is
given in an interval of relative width `τ`: the reported product is the one formed at the reported speed, and no product
`sigma(v) v` with `v` at most `vmax` exceeds it by more than a few roundings and the square of the width, times the greatest
product there is. -/
theorem C105_lotz_max (hp : 0 < p) {j : ℕ} {lg ex : ℝ → ℝ} (hlg : FunLib p j (Set.Ioi 0) lg Real.log)
    (hex : FunLib p j (Set.Iic 0) ex Real.exp) (hexp : ∀ y, 0 < ex y) (hg : growth p (j + 6) ≤ 4 / 3) {τ : ℝ}
    {solve : RootFinder} (hsolve : solve.Within τ) {tol : ℝ → ℝ → Bool} (htol : ∀ v, tol v v = true) {me mu : ℝ} (hme : 0 < me)
    {s : Subshell} (hP : 0 < s.P) (hb : s.b = 0) (hc : 0 ≤ s.c) (haq : 0 < s.a * s.q) {x : XSec}
    (hx : mkLotzR R.rd lg ex solve tol (loadShellsR R.rd me [s]) mu = .ok x) (vmax : ℝ) :
    ∃ M vm t, x.maxSV vmax = .ok (M, vm) ∧ vm ≤ vmax ∧ x.sigma vm = .ok t ∧ M = R.rd (vm * t) ∧
      ∀ v u, v ≤ vmax → x.sigma v = .ok u → v * u ≤
        M + (16 * (growth p (2 * j + 24) - 1) + (3 * (growth p (j + 4) - 1) + τ) ^ 2) * s.peak me := by
  have hthr0 := log_ge_of_threshold R (s := s) (v := shellSpeedR R.rd (LotzPar.loadR R.rd me s.P s.q s.a s.b s.c)) hme hP le_rfl
  set thr := shellSpeedR R.rd (LotzPar.loadR R.rd me s.P s.q s.a s.b s.c) with hthr
  set d := lotzDsvR R.rd lg ex (loadShellsR R.rd me [s]) with hd
  obtain ⟨z, hz, rfl⟩ : ∃ z, (∃ y, thr ≤ y ∧ y ≤ z ∧ z ≤ (1 + τ) * y ∧ d y * d z ≤ 0) ∧ x =
      { sigma := fun v => .ok (lotzSigmaR R.rd lg ex (loadShellsR R.rd me [s]) thr v)
        thrE := R.rd (R.rd (1 / 2 * mu) * R.rd (thr * thr))
        maxSV := fun vm => .ok (if vm > z then (R.rd (z * lotzSigmaR R.rd lg ex (loadShellsR R.rd me [s]) thr z), z)
          else (R.rd (vm * lotzSigmaR R.rd lg ex (loadShellsR R.rd me [s]) thr vm), vm)) } := by
    have hrange : lotzRangeR R.rd (loadShellsR R.rd me [s]) = some (thr, thr) := rfl
    unfold mkLotzR at hx
    simp only [hrange, htol, if_true] at hx
    split at hx
    · cases hx
    · rename_i z hz
      exact ⟨z, hsolve _ _ _ _ hz, (Except.ok.inj hx).symm⟩
  obtain ⟨y, hty, hyz, hzy, hsign⟩ := hz
  set K := s.a * s.q / s.P ^ 2 * Real.sqrt (2 * s.P / me) with hK
  have hr : 0 < Real.sqrt (2 * s.P / me) := Real.sqrt_pos.2 (by positivity)
  have hK0 : 0 < K := by positivity
  have hpeak : s.peak me = K * (2 / Real.exp 1) := rfl
  have hpk0 : 0 < s.peak me := by rw [hpeak]; have := Real.exp_pos 1; positivity
  set L : ℝ → ℝ := fun v => Real.log (1 / 2 * me * v ^ 2 / s.P) with hLdef
  have hg6 : growth p 6 - 1 ≤ growth p (2 * j + 24) - 1 := by linarith [growth_mono (p := p) (by omega : 6 ≤ 2 * j + 24)]
  have hg6' : growth p 6 - 1 ≤ 1 / 2 := by linarith [growth_mono (p := p) (by omega : 6 ≤ j + 6)]
  have hg6'' := growth_one_le (p := p) 6
  have hLthr : ∀ v, thr ≤ v → 0 < v ∧ -(growth p 6 - 1) ≤ L v := fun v hv => log_ge_of_threshold R hme hP hv
  have hLmono : ∀ v w, 0 < v → v ≤ w → L v ≤ L w := by
    intro v w hv hvw
    apply Real.log_le_log (by positivity)
    have := pow_le_pow_left₀ hv.le hvw 2
    gcongr
  set σ := lotzSigmaR R.rd lg ex (loadShellsR R.rd me [s]) thr with hσ
  set G := growth p (2 * j + 24) - 1 with hG
  have hG0 : 0 ≤ G := by linarith
  have hval : ∀ v, thr ≤ v → |R.rd (v * σ v) - K * bump (L v)| ≤ G * (5 * s.peak me) ∧
      |v * σ v - K * bump (L v)| ≤ G * (5 * s.peak me) := by
    intro v hv
    obtain ⟨h0, h1⟩ := hLthr v hv
    have h2 := sigma_product_err R hlg hex hme hP hb hc haq hv h0 (by show -1 ≤ L v; linarith)
    exact ⟨(h2.rd R).err, (h2.mono (by omega) le_rfl : Err p (2 * j + 24) _ _ _).err⟩
  -- where the search ends
  set ε := growth p (j + 4) - 1 with hε
  have hε0 : 0 ≤ ε := by linarith [growth_one_le (p := p) (j + 4)]
  have hε1 : ε ≤ 1 / 3 := by linarith [growth_mono (p := p) (by omega : j + 4 ≤ j + 6)]
  obtain ⟨hy0, hLy⟩ := hLthr y hty
  obtain ⟨hz0, hLz⟩ := hLthr z (hty.trans hyz)
  have hnear : ∀ v, 0 < v → -1 ≤ L v → (0 ≤ d v → L v ≤ 2 + 6 * ε) ∧ (d v ≤ 0 → 2 - 6 * ε ≤ L v) := by
    intro v hv hLv
    have h1 := (hlg.log (v2Beta_rel R (v := v) (s := s) hme hP) (by positivity)).err
    have h2 := log_near_two (by linarith) hε0 hLv h1
    obtain ⟨h3, h4⟩ := dsvR_sign R hp hexp hme hP hb haq hv (lg := lg) (ex := ex)
    exact ⟨fun h => h2.1 (h3.1 h), fun h => h2.2 (h4.1 h)⟩
  have hτ0 : 0 ≤ τ := by
    by_contra hc
    push Not at hc
    nlinarith
  have hstep : L z ≤ L y + 2 * τ := by
    have h1 : 1 / 2 * me * z ^ 2 / s.P ≤ (1 + τ) ^ 2 * (1 / 2 * me * y ^ 2 / s.P) := by
      have h2 := pow_le_pow_left₀ hz0.le hzy 2
      rw [mul_pow] at h2
      rw [← mul_div_assoc]
      apply div_le_div_of_nonneg_right _ hP.le
      nlinarith
    have h2 := Real.log_le_log (by positivity) h1
    rw [Real.log_mul (by positivity) (by positivity), Real.log_pow] at h2
    have h3 := Real.log_le_sub_one_of_pos (by linarith : 0 < 1 + τ)
    show Real.log _ ≤ Real.log _ + _
    push_cast at h2
    linarith
  have hyz' := hLmono y z hy0 hyz
  have hLz2 : |L z - 2| ≤ 2 * (3 * ε + τ) ∧ 0 ≤ L z := by
    have hn1 := hnear y hy0 (by linarith)
    have hn2 := hnear z hz0 (by linarith)
    rw [abs_le]
    rcases mul_nonpos_iff.1 hsign with ⟨h1, h2⟩ | ⟨h1, h2⟩
    · have := hn1.1 h1
      have := hn2.2 h2
      refine ⟨⟨?_, ?_⟩, ?_⟩ <;> linarith
    · have := hn1.2 h1
      have := hn2.1 h2
      refine ⟨⟨?_, ?_⟩, ?_⟩ <;> linarith
  have htop := bump_near hLz2.1 hLz2.2
  set δ := 3 * ε + τ with hδ
  have hδ0 : 0 ≤ δ ^ 2 := sq_nonneg _
  have htopK : s.peak me ≤ K * bump (L z) + δ ^ 2 * s.peak me := by
    have := mul_le_mul_of_nonneg_left htop hK0.le
    rw [hpeak]
    nlinarith
  have hall : ∀ v, K * bump (L v) ≤ s.peak me := fun v => mul_le_mul_of_nonneg_left (bump_le _) hK0.le
  have hlow : ∀ v, thr ≤ v → -(3 * G) * s.peak me ≤ K * bump (L v) := by
    intro v hv
    obtain ⟨_, h1⟩ := hLthr v hv
    have h2 := mul_le_mul_of_nonneg_left (bump_ge hG0 (by linarith : -G ≤ L v) (by linarith)) hK0.le
    rw [hpeak]
    linarith
  -- against a speed `w` up to the end of the search
  have hmain : ∀ w, thr ≤ w → w ≤ z → ∀ v, (v ≤ w ∨ w = z) → v * σ v ≤
      R.rd (w * σ w) + (16 * G + δ ^ 2) * s.peak me := by
    intro w htw hwz v hvw
    have hw1 := abs_le.1 (hval w htw).1
    have hw2 := hlow w htw
    have hGp : 0 ≤ G * s.peak me := mul_nonneg hG0 hpk0.le
    have hδp : 0 ≤ δ ^ 2 * s.peak me := mul_nonneg hδ0 hpk0.le
    rcases lt_or_ge v thr with hv | hv
    · have h0 : σ v = 0 := by rw [hσ]; unfold lotzSigmaR; rw [if_pos hv]
      rw [h0, mul_zero]
      linarith [hw1.1]
    · have hv1 := abs_le.1 (hval v hv).2
      have key : K * bump (L v) ≤ K * bump (L w) + δ ^ 2 * s.peak me := by
        rcases hvw with hvw | rfl
        · rcases le_total (L w) 2 with h2 | h2
          · have := mul_le_mul_of_nonneg_left (bump_mono (hLmono v w (hLthr v hv).1 hvw) h2) hK0.le
            linarith
          · have := mul_le_mul_of_nonneg_left (bump_anti (hLmono w z (hLthr w htw).1 hwz) h2) hK0.le
            linarith [hall v]
        · linarith [hall v]
      linarith [hv1.2, hw1.1]
  rcases lt_or_ge z vmax with hvz | hvz
  · refine ⟨R.rd (z * σ z), z, σ z, ?_, hvz.le, rfl, rfl, fun v u _ hu => ?_⟩
    · show Except.ok (if vmax > z then _ else _) = _
      rw [if_pos hvz]
    · cases hu
      exact hmain z (hty.trans hyz) le_rfl v (Or.inr rfl)
  · refine ⟨R.rd (vmax * σ vmax), vmax, σ vmax, ?_, le_rfl, rfl, rfl, fun v u hv hu => ?_⟩
    · show Except.ok (if vmax > z then _ else _) = _
      rw [if_neg (not_lt.2 hvz)]
    · cases hu
      rcases lt_or_ge vmax thr with ht | ht
      · have h0 : ∀ w, w < thr → σ w = 0 := by
          intro w hw
          rw [hσ]; unfold lotzSigmaR; rw [if_pos hw]
        show v * σ v ≤ _
        rw [h0 v (by linarith), h0 vmax ht, mul_zero, mul_zero, R.rd_zero]
        have := mul_nonneg (by positivity : 0 ≤ 16 * G + δ ^ 2) hpk0.le
        linarith
      · exact hmain vmax ht hvz v (Or.inl hv)

/-- **C105**  The scale of `C105_lotz_max` is the greatest product of the published formula. -/
theorem C105_lotz_peak {me : ℝ} (hme : 0 < me) {s : Subshell} (hP : 0 < s.P) (hb : s.b = 0) (haq : 0 < s.a * s.q) :
    (∀ v, 0 < v → v * lotzFormula [s] (1 / 2 * me * v ^ 2) ≤ s.peak me) ∧
    ∃ v, 0 < v ∧ v * lotzFormula [s] (1 / 2 * me * v ^ 2) = s.peak me := by
  have hr : 0 < Real.sqrt (2 * s.P / me) := Real.sqrt_pos.2 (by positivity)
  have hrr : Real.sqrt (2 * s.P / me) ^ 2 = 2 * s.P / me := Real.sq_sqrt (by positivity)
  have h2 := Real.exp_pos 1
  have hK : 0 < s.a * s.q / s.P ^ 2 * Real.sqrt (2 * s.P / me) := by positivity
  have hform : ∀ v, lotzFormula [s] (1 / 2 * me * v ^ 2) =
      if s.P ≤ 1 / 2 * me * v ^ 2 then s.part (1 / 2 * me * v ^ 2) else 0 := by
    intro v; simp [lotzFormula]
  constructor
  · intro v hv
    rw [hform]
    split_ifs with h
    · rw [(part_product hme hP hb hv).1]
      exact mul_le_mul_of_nonneg_left (bump_le _) hK.le
    · rw [mul_zero]
      unfold Subshell.peak
      positivity
  · have hv : 0 < Real.exp 1 * Real.sqrt (2 * s.P / me) := by positivity
    have e : 1 / 2 * me * (Real.exp 1 * Real.sqrt (2 * s.P / me)) ^ 2 = s.P * Real.exp 1 ^ 2 := by
      rw [mul_pow, hrr]; field_simp
    refine ⟨_, hv, ?_⟩
    rw [hform, if_pos, (part_product hme hP hb hv).1, e, mul_div_cancel_left₀ _ hP.ne', Real.log_pow, Real.log_exp]
    · unfold Subshell.peak bump
      rw [show -(((2 : ℕ) : ℝ) * 1) / 2 = -1 by norm_num, Real.exp_neg]
      push_cast
      ring
    · rw [e]
      exact le_mul_of_one_le_right hP.le (one_le_pow₀ (Real.one_le_exp (by norm_num)))

/-! ## Lotz: a negative value at the threshold -/

/-- Binding energy and constants one, no exponential correction. -/
def unitShell : Subshell := ⟨1, 1, 1, 0, 0⟩

/-- **C105**  With `double`, one shell of binding energy 1 and electrons of mass 4, whatever the rule for ties: the cross section
is zero below its threshold speed and negative at it, and so is the product that `findMaxSigmaV` reports for that speed. -/
theorem C105_lotz_negative (R : Rounding 53) {lg ex : ℝ → ℝ} (hlg : ∀ x, 0 < x → x < 1 → lg x < 0) {solve : RootFinder}
    (hsolve : ∀ f a b z, solve f a b = some z → a ≤ z) {tol : ℝ → ℝ → Bool} (htol : ∀ v, tol v v = true) {mu : ℝ} {x : XSec}
    (hx : mkLotzR R.rd lg ex solve tol (loadShellsR R.rd 4 [unitShell]) mu = .ok x) :
    ∃ v s M, 0 < v ∧ (∀ w, w < v → x.sigma w = .ok 0) ∧ x.sigma v = .ok s ∧ s < 0 ∧ x.maxSV v = .ok (M, v) ∧ M < 0 := by
  have hbeta : R.rd (4 / R.rd (2 * 1)) = 2 := by
    have h2 : R.rd 2 = 2 := R.rd_of_mem (by simpa using fp_pow (p := 53) 1)
    rw [mul_one, h2, show (4 : ℝ) / 2 = 2 by norm_num, h2]
  have hroot : R.rd (Real.sqrt 2) = (6369051672525773 : ℤ) * 2 ^ (-52 : ℤ) := by
    apply R.rd_eq (by norm_num) (by norm_num) (by norm_num)
    rw [abs_lt]
    constructor
    · rw [lt_sub_iff_add_lt, Real.lt_sqrt (by norm_num)]; norm_num
    · rw [sub_lt_iff_lt_add, Real.sqrt_lt' (by positivity)]; norm_num
  have hinv : R.rd (1 / ((6369051672525773 : ℤ) * 2 ^ (-52 : ℤ))) = (6369051672525772 : ℤ) * 2 ^ (-53 : ℤ) :=
    R.rd_eq (by norm_num) (by norm_num) (by norm_num) (by rw [abs_lt]; constructor <;> norm_num)
  set w : ℝ := (6369051672525772 : ℤ) * 2 ^ (-53 : ℤ) with hw
  have hw0 : 0 < w := by rw [hw]; norm_num
  have hww : R.rd (w * w) = (9007199254740990 : ℤ) * 2 ^ (-54 : ℤ) := by
    rw [hw]
    exact R.rd_eq (by norm_num) (by norm_num) (by norm_num) (by rw [abs_lt]; constructor <;> norm_num)
  set y : ℝ := (9007199254740990 : ℤ) * 2 ^ (-53 : ℤ) with hy
  have hyv : R.rd (((9007199254740990 : ℤ) * 2 ^ (-54 : ℤ) : ℝ) * 2) = y := by
    rw [show (((9007199254740990 : ℤ) * 2 ^ (-54 : ℤ) : ℝ) * 2) = y by rw [hy]; norm_num]
    exact R.rd_of_mem ⟨9007199254740990, -53, by norm_num, rfl⟩
  have hy0 : 0 < y := by rw [hy]; norm_num
  have hy1 : y < 1 := by rw [hy]; norm_num
  have hspeed : shellSpeedR R.rd (LotzPar.loadR R.rd 4 1 1 1 0 0) = w := by
    unfold shellSpeedR LotzPar.loadR
    dsimp only
    rw [hbeta, hroot, hinv]
  have hterm : lotzTermR R.rd lg ex (LotzPar.loadR R.rd 4 1 1 1 0 0) (R.rd (w * w)) < 0 := by
    unfold lotzTermR LotzPar.loadR
    dsimp only
    rw [hbeta, hww, hyv]
    simp only [zero_mul, R.rd_zero, sub_zero, mul_one, R.rd_of_mem fp_one, one_mul]
    rw [R.rd_neg_iff, R.rd_neg_iff]
    apply div_neg_of_neg_of_pos
    · rw [R.rd_neg_iff]; exact hlg y hy0 hy1
    · exact R.pos (by norm_num) hy0
  obtain ⟨z, hz, rfl⟩ : ∃ z, w ≤ z ∧ x =
      { sigma := fun v => .ok (lotzSigmaR R.rd lg ex (loadShellsR R.rd 4 [unitShell]) w v)
        thrE := R.rd (R.rd (1 / 2 * mu) * R.rd (w * w))
        maxSV := fun vm => .ok (if vm > z then (R.rd (z * lotzSigmaR R.rd lg ex (loadShellsR R.rd 4 [unitShell]) w z), z)
          else (R.rd (vm * lotzSigmaR R.rd lg ex (loadShellsR R.rd 4 [unitShell]) w vm), vm)) } := by
    have hrange : lotzRangeR R.rd (loadShellsR R.rd 4 [unitShell]) = some (w, w) := by
      show some (shellSpeedR R.rd (LotzPar.loadR R.rd 4 1 1 1 0 0), shellSpeedR R.rd (LotzPar.loadR R.rd 4 1 1 1 0 0)) =
        some (w, w)
      rw [hspeed]
    unfold mkLotzR at hx
    simp only [hrange, htol, if_true] at hx
    split at hx
    · cases hx
    · rename_i z hz
      exact ⟨z, hsolve _ _ _ _ hz, (Except.ok.inj hx).symm⟩
  have hsig : lotzSigmaR R.rd lg ex (loadShellsR R.rd 4 [unitShell]) w w < 0 := by
    unfold lotzSigmaR
    rw [if_neg (lt_irrefl _)]
    show R.rd (0 + _) < 0
    rw [R.rd_neg_iff, zero_add]
    exact hterm
  refine ⟨w, _, R.rd (w * lotzSigmaR R.rd lg ex (loadShellsR R.rd 4 [unitShell]) w w), hw0, fun v hv => ?_, rfl, hsig, ?_, ?_⟩
  · show Except.ok (lotzSigmaR _ _ _ _ _ _) = _
    unfold lotzSigmaR
    rw [if_pos hv]
  · show Except.ok (if w > z then _ else _) = _
    rw [if_neg (not_lt.2 hz)]
  · rw [R.rd_neg_iff]
    exact mul_neg_of_pos_of_neg hw0 hsig

/-! ## Cases -/

namespace FloatLotzExample

/-- The functions of the library may be the exact ones. -/
example (j : ℕ) : FunLib p j (Set.Ioi 0) Real.log Real.log ∧ FunLib p j (Set.Iic 0) Real.exp Real.exp ∧
    FunLib p j (Set.Ioi 0) (Real.logb 10) (Real.logb 10) := by
  have h := growth_one_le (p := p) j
  refine ⟨fun x _ => ?_, fun x _ => ?_, fun x _ => ?_⟩ <;> rw [sub_self, abs_zero] <;>
    exact mul_nonneg (by linarith) (abs_nonneg _)

/-- Or rounded ones. -/
example : FunLib p 1 (Set.Ioi 0) (fun x => R.rd (Real.log x)) Real.log ∧
    FunLib p 1 (Set.Iic 0) (fun y => R.rd (Real.exp y)) Real.exp ∧ (∀ x, 1 ≤ x → 0 ≤ R.rd (Real.log x)) ∧
    (∀ y, y ≤ 0 → R.rd (Real.exp y) ≤ 1) ∧ (∀ x, 0 < x → x < 1 → R.rd (Real.log x) < 0) ∧
    MonotoneOn (fun x => R.rd (Real.logb 10 x)) (Set.Ioi 0) := by
  refine ⟨fun x _ => ?_, fun x _ => ?_, fun x hx => R.nonneg (Real.log_nonneg hx),
    fun y hy => R.le_of_le fp_one (Real.exp_le_one_iff.2 hy),
    fun x h0 h1 => (R.rd_neg_iff _).2 (Real.log_neg h0 h1), fun x hx y _ hxy => ?_⟩
  · rw [growth_one, add_sub_cancel_left]; exact R.error _
  · rw [growth_one, add_sub_cancel_left]; exact R.error _
  · exact R.mono (Real.logb_le_logb_of_le (by norm_num) hx hxy)

/-- Two shells, one with a correction, and an electron with three times the larger binding energy. -/
noncomputable def two : List Subshell := [⟨1, 2, 1, 0, 0⟩, ⟨2, 6, 1, 1 / 2, 1 / 4⟩]

example (hp : 3 ≤ p) {thr : ℝ} (hthr : thr ≤ 2) :
    |lotzSigmaR R.rd (fun x => R.rd (Real.log x)) (fun y => R.rd (Real.exp y)) (loadShellsR R.rd 3 two) thr 2 - lotzFormula two 6| ≤
      (growth p 26 - 1) * (two.map fun s => s.scale 6).sum ∧
    0 ≤ lotzSigmaR R.rd (fun x => R.rd (Real.log x)) (fun y => R.rd (Real.exp y)) (loadShellsR R.rd 3 two) thr 2 := by
  have e : (1 / 2 * 3 * (2 : ℝ) ^ 2) = 6 := by norm_num
  have hg : growth p 4 ≤ 3 := by
    have h1 : unitError p ≤ 1 / 8 := by
      unfold unitError
      rw [zpow_neg, zpow_natCast, inv_eq_one_div]
      apply one_div_le_one_div_of_le (by norm_num)
      calc (8 : ℝ) = 2 ^ 3 := by norm_num
        _ ≤ 2 ^ p := pow_le_pow_right₀ (by norm_num) hp
    have h2 := unitError_pos (p := p)
    unfold growth
    calc (1 + unitError p) ^ 4 ≤ (1 + 1 / 8) ^ 4 := pow_le_pow_left₀ (by linarith) (by linarith) 4
      _ ≤ 3 := by norm_num
  constructor
  · have := C105_lotz_value R (j := 1) (lg := fun x => R.rd (Real.log x)) (ex := fun y => R.rd (Real.exp y))
      (fun x _ => by rw [growth_one, add_sub_cancel_left]; exact R.error _)
      (fun x _ => by rw [growth_one, add_sub_cancel_left]; exact R.error _) (me := 3) (by norm_num) (shells := two)
      (by simp [two]) (by simp [two]) hthr (by rw [e]; simp [two]; norm_num) (by rw [e]; simp [two]; linarith)
    rw [e] at this
    exact this
  · apply C105_lotz_nonneg R (fun x hx => R.nonneg (Real.log_nonneg hx))
      (fun y hy => R.le_of_le fp_one (Real.exp_le_one_iff.2 hy)) (by norm_num)
    · intro s hs
      simp only [two, List.mem_cons, List.not_mem_nil, or_false] at hs
      rcases hs with rfl | rfl <;> norm_num
    · intro s hs
      right
      rw [e]
      simp only [two, List.mem_cons, List.not_mem_nil, or_false] at hs
      rcases hs with rfl | rfl <;> dsimp only <;> linarith

/-- The constructor succeeds if the search does. -/
example {lg ex : ℝ → ℝ} {mu : ℝ} : ∃ x, mkLotzR R.rd lg ex (fun _ a _ => some (a + 1)) (fun a b => decide (a = b))
    (loadShellsR R.rd 4 [unitShell, ⟨1, 1, 3, 0, 0⟩]) mu = .ok x := by
  unfold mkLotzR
  simp [loadShellsR, lotzRangeR, unitShell, shellSpeedR, LotzPar.loadR]

/-- A search that finds some change of sign over a factor eight. -/
noncomputable def coarse : RootFinder := fun f a _ => if f a * f (8 * a) ≤ 0 then some (8 * a) else none

theorem coarse_within : RootFinder.Within (fun f a b => if 0 < a then coarse f a b else none) 7 := by
  intro f a b z h
  dsimp only at h
  split_ifs at h with h0
  unfold coarse at h
  split_ifs at h with h1
  cases h
  exact ⟨a, le_rfl, by linarith, by linarith, h1⟩

/-- With it the constructor succeeds for every shell without correction. -/
example (hp : 0 < p) {ex : ℝ → ℝ} (hexp : ∀ y, 0 < ex y) (hg : growth p 10 ≤ 2) {me mu : ℝ} (hme : 0 < me) {s : Subshell}
    (hP : 0 < s.P) (hb : s.b = 0) (haq : 0 < s.a * s.q) :
    ∃ x, mkLotzR R.rd Real.log ex (fun f a b => if 0 < a then coarse f a b else none) (fun a b => decide (a = b))
      (loadShellsR R.rd me [s]) mu = .ok x := by
  have hthr := shellSpeedR_rel R hme hP
  have hr : 0 < Real.sqrt (2 * s.P / me) := Real.sqrt_pos.2 (by positivity)
  have hrr : Real.sqrt (2 * s.P / me) * Real.sqrt (2 * s.P / me) = 2 * s.P / me := Real.mul_self_sqrt (by positivity)
  have ht0 := hthr.pos hr
  have hrange : lotzRangeR R.rd (loadShellsR R.rd me [s]) =
    some (shellSpeedR R.rd (LotzPar.loadR R.rd me s.P s.q s.a s.b s.c), shellSpeedR R.rd (LotzPar.loadR R.rd me s.P s.q s.a s.b s.c)) :=
    rfl
  set thr := shellSpeedR R.rd (LotzPar.loadR R.rd me s.P s.q s.a s.b s.c) with hthrdef
  have hsq := hthr.mul hthr
  rw [hrr] at hsq
  have hx : ∀ k : ℝ, 0 < k → Rel p 10
      (R.rd (R.rd (k * thr * (k * thr)) * (LotzPar.loadR R.rd me s.P s.q s.a s.b s.c).beta)) (k ^ 2) := by
    intro k hk
    have h1 := v2Beta_rel R (v := k * thr) (s := s) hme hP
    have h2 : Rel p 6 (1 / 2 * me * (k * thr) ^ 2 / s.P) (k ^ 2) := by
      have h3 := (Rel.refl (p := p) (by positivity : 0 ≤ k ^ 2 * (1 / 2 * me / s.P))).mul hsq
      rw [show k ^ 2 * (1 / 2 * me / s.P) * (thr * thr) = 1 / 2 * me * (k * thr) ^ 2 / s.P by ring,
        show k ^ 2 * (1 / 2 * me / s.P) * (2 * s.P / me) = k ^ 2 by field_simp] at h3
      simpa using h3
    exact h1.trans h2
  have hd : 0 ≤ lotzDsvR R.rd Real.log ex (loadShellsR R.rd me [s]) thr ∧
      lotzDsvR R.rd Real.log ex (loadShellsR R.rd me [s]) (8 * thr) ≤ 0 := by
    have h1 := hx 1 one_pos
    have h8 := hx 8 (by norm_num)
    rw [one_mul] at h1
    have h1p := h1.pos (by norm_num)
    have h8p := h8.pos (by norm_num)
    constructor
    · rw [(dsvR_sign R hp hexp hme hP hb haq ht0).1]
      have h2 := h1.le
      have h3 := Real.log_le_sub_one_of_pos h1p
      linarith
    · rw [(dsvR_sign R hp hexp hme hP hb haq (by positivity)).2]
      rw [Real.le_log_iff_exp_le h8p]
      have h2 := h8.ge
      have h3 := Real.exp_one_lt_d9
      have h4 : Real.exp 2 = Real.exp 1 ^ 2 := by rw [← Real.exp_nat_mul]; norm_num
      have h5 := Real.exp_pos 1
      rw [h4]
      nlinarith
  unfold mkLotzR
  simp only [hrange, decide_true, if_true, ht0, coarse, mul_nonpos_of_nonneg_of_nonpos hd.1 hd.2]
  exact ⟨_, rfl⟩

/-- A logarithmic cross section without a threshold, at two speeds. -/
example (hp : 2 ≤ p) : ∃ x, mkLogR R.rd (fun v => R.rd (Real.logb 10 v)) 2 1 1 0 = .ok x ∧ x.sigma 1 = .ok 2 ∧
    x.sigma 1000 = .ok (-1) ∧ x.sigma 0 = .error .nonfinite := by
  have ht : thresholdVR R.rd 0 1 = 0 := by simp [thresholdVR, R.rd_zero]
  have h3 : Real.logb 10 1000 = 3 := by
    rw [show (1000 : ℝ) = 10 ^ (3 : ℕ) by norm_num, Real.logb_pow, Real.logb_self_eq_one (by norm_num)]; norm_num
  have hm : R.rd 3 = 3 := R.rd_of_mem (fp_nat (n := 3) (le_trans (by norm_num) (Nat.pow_le_pow_right (by norm_num) hp)))
  have h2 : R.rd 2 = 2 := R.rd_of_mem (by simpa using fp_pow (p := p) 1)
  have hn : R.rd (-1) = -1 := R.rd_of_mem (fp_neg fp_one)
  refine ⟨_, by unfold mkLogR setThresholdR; rw [if_neg (lt_irrefl _)], ?_, ?_, ?_⟩
  · simp [logSigmaR, ht, R.rd_zero, h2]
  · simp only [logSigmaR, ht, h3, hm, one_mul]
    norm_num [hn]
  · simp [logSigmaR, ht]

end FloatLotzExample

end Chimp
