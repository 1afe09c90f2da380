import Verif.Props.DriverRate
import Mathlib.Analysis.SpecialFunctions.Exp

/-!
# Lotz cross sections with the exponential correction: C92

`/repo/src/chimp/interaction/cross_section/Lotz.h`, `detail/LotzDetails.h`.  The published formula (the references in
the head of `LotzDetails.h`) sums the subshells whose binding energy the electron reaches.
-/

namespace Chimp

/-! ### The published formula -/

/-- The parameters of one subshell as the document gives them. -/
structure Subshell where
  /-- Binding energy. -/
  P : ℝ
  /-- Number of equivalent electrons. -/
  q : ℝ
  /-- The three constants of the formula. -/
  a : ℝ
  b : ℝ
  c : ℝ

/-- Contribution of one subshell at electron energy `E`. -/
noncomputable def Subshell.part (s : Subshell) (E : ℝ) : ℝ :=
  s.a * s.q * Real.log (E / s.P) / (E * s.P) * (1 - s.b * Real.exp (-s.c * (E / s.P - 1)))

/-- The formula of Lotz: the sum over the subshells whose binding energy is reached. -/
noncomputable def lotzFormula (shells : List Subshell) (E : ℝ) : ℝ :=
  (shells.map fun s => if s.P ≤ E then s.part E else 0).sum

/-- The parameters as loaded. -/
noncomputable def loadShells (me : ℝ) (shells : List Subshell) : List LotzPar :=
  shells.map fun s => LotzPar.load me s.P s.q s.a s.b s.c

/-- A root search whose result lies in the interval searched. -/
def RootFinder.Inside (solve : RootFinder) : Prop := ∀ f a b z, solve f a b = some z → f z = 0 ∧ a ≤ z ∧ z ≤ b

theorem RootFinder.Inside.exact {solve : RootFinder} (h : solve.Inside) : solve.Exact :=
  fun f a b z hz => ⟨(h f a b z hz).1, (h f a b z hz).2.1⟩

/-! ### Terms -/

section Terms

variable {me : ℝ} {s : Subshell}

/-- A summand of the code is the contribution at the energy of an electron with that speed. -/
theorem lotzTerm_load (hme : 0 < me) (hP : 0 < s.P) {v : ℝ} (hv : 0 < v) :
    lotzTerm (LotzPar.load me s.P s.q s.a s.b s.c) v = s.part (1 / 2 * me * v ^ 2) := by
  have e : v * v * (me / (2 * s.P)) = 1 / 2 * me * v ^ 2 / s.P := by field_simp
  unfold lotzTerm Subshell.part LotzPar.load
  dsimp only
  rw [e]
  congr 1
  have hP' := hP.ne'
  have : s.P ^ 2 * (1 / 2 * me * v ^ 2 / s.P) = 1 / 2 * me * v ^ 2 * s.P := by field_simp
  rw [this]

/-- Reaching the threshold speed is reaching the binding energy. -/
theorem threshold_energy (hme : 0 < me) (hP : 0 < s.P) {v : ℝ} (hv : 0 < v) :
    (1 / Real.sqrt (me / (2 * s.P)) ≤ v ↔ s.P ≤ 1 / 2 * me * v ^ 2) ∧
    (v ≤ 1 / Real.sqrt (me / (2 * s.P)) ↔ 1 / 2 * me * v ^ 2 ≤ s.P) := by
  have hb : 0 < me / (2 * s.P) := by positivity
  have hs : 0 < Real.sqrt (me / (2 * s.P)) := Real.sqrt_pos.2 hb
  have hsq : Real.sqrt (me / (2 * s.P)) ^ 2 = me / (2 * s.P) := Real.sq_sqrt hb.le
  have e : 1 / 2 * me * v ^ 2 = s.P * (v * Real.sqrt (me / (2 * s.P))) ^ 2 := by
    rw [mul_pow, hsq]; field_simp
  have h0 : 0 < v * Real.sqrt (me / (2 * s.P)) := by positivity
  constructor
  · rw [div_le_iff₀ hs, e, le_mul_iff_one_le_right hP, one_le_sq_iff₀ h0.le]
  · rw [le_div_iff₀ hs, e, mul_le_iff_le_one_right hP, sq_le_one_iff₀ h0.le]

end Terms

theorem loadShells_proper {me : ℝ} (hme : 0 < me) {shells : List Subshell} (hP : ∀ s ∈ shells, 0 < s.P) :
    ∀ p ∈ loadShells me shells, p.Proper := by
  intro p hp
  obtain ⟨s, hs, rfl⟩ := List.mem_map.1 hp
  have := hP s hs
  exact ⟨by unfold LotzPar.load; dsimp only; positivity, this.ne'⟩

theorem lotzSum_load {me : ℝ} (hme : 0 < me) {shells : List Subshell} (hP : ∀ s ∈ shells, 0 < s.P) {v : ℝ}
    (hv : 0 < v) : lotzSum (loadShells me shells) v = (shells.map fun s => s.part (1 / 2 * me * v ^ 2)).sum := by
  unfold lotzSum loadShells
  rw [List.map_map]
  congr 1
  apply List.map_congr_left
  intro s hs
  exact lotzTerm_load hme (hP s hs) hv

/-- What is known of the threshold of a constructed cross section. -/
theorem mkLotz_threshold {solve : RootFinder} (hsolve : solve.Inside) {ps : List LotzPar} (hps : ∀ p ∈ ps, p.Proper)
    {vmin vmax thr : ℝ} (hr : lotzRange ps = some (vmin, vmax))
    (hthr : if vmin = vmax then thr = vmax else solve (lotzSigma ps 0) vmin vmax = some thr) :
    0 < thr ∧ vmin ≤ thr ∧ thr ≤ vmax ∧ lotzSum ps thr = 0 := by
  obtain ⟨p1, p2⟩ := lotzRange_pos hps hr
  obtain ⟨hle, hmem⟩ := lotzRange_spec hr
  split at hthr
  · rename_i he
    subst hthr
    refine ⟨p2, hle, le_rfl, ?_⟩
    apply List.sum_eq_zero
    intro r hr
    obtain ⟨p, hp, rfl⟩ := List.mem_map.1 hr
    have := hmem p hp
    rw [show thr = 1 / Real.sqrt p.beta from le_antisymm (he ▸ this.1) this.2]
    exact lotzTerm_threshold (hps p hp).1
  · obtain ⟨h0, h1, h2⟩ := hsolve _ _ _ _ hthr
    refine ⟨p1.trans_le h1, h1, h2, ?_⟩
    rw [lotzSigma_eq, if_neg (not_lt.2 (p1.trans_le h1).le)] at h0
    exact h0

/-! ### C92: the code and the published formula -/

/-- **C92**: at every speed at which all subshells are open, the cross section is the one of the published formula. -/
theorem C92_formula {solve : RootFinder} (hsolve : solve.Inside) {me mu : ℝ} (hme : 0 < me) {shells : List Subshell}
    (hP : ∀ s ∈ shells, 0 < s.P) {x : XSec} (h : mkLotz solve (loadShells me shells) mu = .ok x) {v : ℝ} (hv : 0 < v)
    (hopen : ∀ s ∈ shells, s.P ≤ 1 / 2 * me * v ^ 2) :
    x.sigma v = .ok (lotzFormula shells (1 / 2 * me * v ^ 2)) := by
  obtain ⟨vmin, vmax, thr, z, hr, hthr, -, -, h2, -⟩ := mkLotz_ok h
  obtain ⟨-, -, ht, -⟩ := mkLotz_threshold hsolve (loadShells_proper hme hP) hr hthr
  obtain ⟨-, p, hp, hmax⟩ := lotzRange_attained hr
  obtain ⟨s, hs, rfl⟩ := List.mem_map.1 hp
  have hle : thr ≤ v := ht.trans (hmax ▸ (threshold_energy hme (hP s hs) hv).1.2 (hopen s hs))
  rw [h2, lotzSigma_eq, if_neg (not_lt.2 hle), lotzSum_load hme hP hv]
  unfold lotzFormula
  congr 2
  apply List.map_congr_left
  intro s hs
  rw [if_pos (hopen s hs)]

/-- Subshells with positive coefficients and a correction too weak to change sign below the threshold. -/
def Subshell.Mild (s : Subshell) : Prop :=
  0 < s.P ∧ 0 < s.a * s.q ∧ 0 ≤ s.b ∧ 0 ≤ s.c ∧ s.b * Real.exp s.c < 1

theorem mild_factor {s : Subshell} (h : s.Mild) {E : ℝ} (hE : 0 < E) :
    0 < 1 - s.b * Real.exp (-s.c * (E / s.P - 1)) := by
  obtain ⟨hP, -, hb, hc, hlt⟩ := h
  have : Real.exp (-s.c * (E / s.P - 1)) ≤ Real.exp s.c := by
    apply Real.exp_le_exp.2
    have : 0 ≤ s.c * (E / s.P) := by positivity
    nlinarith
  nlinarith

theorem mild_part_pos {s : Subshell} (h : s.Mild) {E : ℝ} (hE : s.P < E) : 0 < s.part E := by
  have h0 := h.1.trans hE
  have hf := mild_factor h h0
  obtain ⟨hP, ha, -⟩ := h
  have hl : 0 < Real.log (E / s.P) := Real.log_pos (by rw [lt_div_iff₀ hP]; linarith)
  unfold Subshell.part
  positivity

theorem mild_part_neg {s : Subshell} (h : s.Mild) {E : ℝ} (h0 : 0 < E) (hE : E < s.P) : s.part E < 0 := by
  have hf := mild_factor h h0
  obtain ⟨hP, ha, -⟩ := h
  have hl : Real.log (E / s.P) < 0 := Real.log_neg (by positivity) (by rw [div_lt_iff₀ hP]; linarith)
  unfold Subshell.part
  apply mul_neg_of_neg_of_pos _ hf
  exact div_neg_of_neg_of_pos (mul_neg_of_pos_of_neg ha hl) (by positivity)

theorem part_at_threshold {s : Subshell} (hP : 0 < s.P) : s.part s.P = 0 := by
  unfold Subshell.part; rw [div_self hP.ne']; simp

/-- **C92** (finding): where some subshells are open and others are not, the cross section is smaller than the
published formula, because closed subshells are counted with a negative sign. -/
theorem C92_between {solve : RootFinder} {me mu : ℝ} (hme : 0 < me) {shells : List Subshell}
    (hmild : ∀ s ∈ shells, s.Mild) {x : XSec} (h : mkLotz solve (loadShells me shells) mu = .ok x) {v : ℝ} (hv : 0 < v)
    (hopen : ∃ s ∈ shells, s.P < 1 / 2 * me * v ^ 2) (hclosed : ∃ s ∈ shells, 1 / 2 * me * v ^ 2 < s.P) :
    ∃ r, x.sigma v = .ok r ∧ r < lotzFormula shells (1 / 2 * me * v ^ 2) := by
  have hP : ∀ s ∈ shells, 0 < s.P := fun s hs => (hmild s hs).1
  obtain ⟨vmin, vmax, thr, z, hr, hthr, -, -, h2, -⟩ := mkLotz_ok h
  have hE : 0 < 1 / 2 * me * v ^ 2 := by positivity
  refine ⟨_, h2 v, ?_⟩
  rw [lotzSigma_eq, lotzSum_load hme hP hv]
  generalize 1 / 2 * me * v ^ 2 = E at *
  have hnn : ∀ s ∈ shells, 0 ≤ if s.P ≤ E then s.part E else 0 := by
    intro s hs
    split
    · rename_i hle
      rcases eq_or_lt_of_le hle with he | hl
      · rw [← he, part_at_threshold (hP s hs)]
      · exact (mild_part_pos (hmild s hs) hl).le
    · exact le_rfl
  unfold lotzFormula
  split
  · obtain ⟨s, hs, hlt⟩ := hopen
    have := List.sum_lt_sum (l := shells) (fun _ => (0 : ℝ)) (fun s => if s.P ≤ E then s.part E else 0) hnn
      ⟨s, hs, by rw [if_pos hlt.le]; exact mild_part_pos (hmild s hs) hlt⟩
    simpa using this
  · obtain ⟨s, hs, hlt⟩ := hclosed
    apply List.sum_lt_sum
    · intro s hs
      split
      · exact le_rfl
      · exact (mild_part_neg (hmild s hs) hE (not_le.1 (by assumption))).le
    · exact ⟨s, hs, by rw [if_neg (not_le.2 hlt)]; exact mild_part_neg (hmild s hs) hE hlt⟩

/-- **C92** (finding): with two different binding energies the threshold of the cross section lies strictly between
the smallest and the largest: electrons that have enough energy to ionise an outer subshell, but less than the
threshold, are given the cross section zero. -/
theorem C92_threshold {solve : RootFinder} (hsolve : solve.Inside) {me mu : ℝ} (hme : 0 < me) {shells : List Subshell}
    (hmild : ∀ s ∈ shells, s.Mild) {x : XSec} (h : mkLotz solve (loadShells me shells) mu = .ok x)
    (hdiff : ∃ s ∈ shells, ∃ t ∈ shells, s.P ≠ t.P) :
    ∃ E₀, x.thrE = mu / me * E₀ ∧ (∃ s ∈ shells, s.P < E₀) ∧ (∃ s ∈ shells, E₀ < s.P) ∧
      ∀ v, 0 < v → 1 / 2 * me * v ^ 2 < E₀ → x.sigma v = .ok 0 ∧
        ((∃ s ∈ shells, s.P < 1 / 2 * me * v ^ 2) → 0 < lotzFormula shells (1 / 2 * me * v ^ 2)) := by
  have hP : ∀ s ∈ shells, 0 < s.P := fun s hs => (hmild s hs).1
  obtain ⟨vmin, vmax, thr, z, hr, hthr, -, hE, h2, -⟩ := mkLotz_ok h
  obtain ⟨ht0, -, -, hsum⟩ := mkLotz_threshold hsolve (loadShells_proper hme hP) hr hthr
  rw [lotzSum_load hme hP ht0] at hsum
  have hE0 : 0 < 1 / 2 * me * thr ^ 2 := by positivity
  have hne : ∃ s ∈ shells, s.P ≠ 1 / 2 * me * thr ^ 2 := by
    obtain ⟨s, hs, t, ht, hst⟩ := hdiff
    by_contra hc
    push Not at hc
    exact hst ((hc s hs).trans (hc t ht).symm)
  refine ⟨1 / 2 * me * thr ^ 2, by rw [hE]; field_simp, ?_, ?_, fun v hv hlt => ⟨?_, ?_⟩⟩
  · by_contra hc
    push Not at hc
    have hle : ∀ s ∈ shells, s.part (1 / 2 * me * thr ^ 2) ≤ 0 := by
      intro s hs
      rcases eq_or_lt_of_le (hc s hs) with he | hl
      · rw [he, part_at_threshold (hP s hs)]
      · exact (mild_part_neg (hmild s hs) hE0 hl).le
    obtain ⟨s, hs, hsne⟩ := hne
    have := List.sum_lt_sum (l := shells) (fun s => s.part (1 / 2 * me * thr ^ 2)) (fun _ => (0 : ℝ)) hle
      ⟨s, hs, mild_part_neg (hmild s hs) hE0 (lt_of_le_of_ne (hc s hs) hsne.symm)⟩
    rw [hsum] at this
    simp at this
  · by_contra hc
    push Not at hc
    have hle : ∀ s ∈ shells, 0 ≤ s.part (1 / 2 * me * thr ^ 2) := by
      intro s hs
      rcases eq_or_lt_of_le (hc s hs) with he | hl
      · rw [← he, part_at_threshold (hP s hs)]
      · exact (mild_part_pos (hmild s hs) hl).le
    obtain ⟨s, hs, hsne⟩ := hne
    have := List.sum_lt_sum (l := shells) (fun _ => (0 : ℝ)) (fun s => s.part (1 / 2 * me * thr ^ 2)) hle
      ⟨s, hs, mild_part_pos (hmild s hs) (lt_of_le_of_ne (hc s hs) hsne)⟩
    rw [hsum] at this
    simp at this
  · have hvt : v < thr := by
      by_contra hc
      have := mul_self_le_mul_self ht0.le (not_lt.1 hc)
      nlinarith
    rw [h2, lotzSigma_eq, if_pos hvt]
  · rintro ⟨s, hs, hlt'⟩
    unfold lotzFormula
    have := List.sum_lt_sum (l := shells) (fun _ => (0 : ℝ))
      (fun s => if s.P ≤ 1 / 2 * me * v ^ 2 then s.part (1 / 2 * me * v ^ 2) else 0) (by
        intro s hs
        split
        · rename_i hle
          rcases eq_or_lt_of_le hle with he | hl
          · rw [← he, part_at_threshold (hP s hs)]
          · exact (mild_part_pos (hmild s hs) hl).le
        · exact le_rfl)
      ⟨s, hs, by rw [if_pos hlt'.le]; exact mild_part_pos (hmild s hs) hlt'⟩
    simpa using this

/-! ### C92: one subshell with any correction -/

/-- A logarithm estimate. -/
theorem log_fifteen : Real.log 15 ≤ 11 / 4 := by
  rw [Real.log_le_iff_le_exp (by norm_num)]
  by_contra hc
  push Not at hc
  have h1 : Real.exp (11 / 4) ^ 4 < 15 ^ 4 := pow_lt_pow_left₀ hc (Real.exp_pos _).le (by norm_num)
  have h2 : Real.exp (11 / 4) ^ 4 = Real.exp 1 ^ 11 := by
    rw [← Real.exp_nat_mul, ← Real.exp_nat_mul]; norm_num
  have h3 : (2.7 : ℝ) ^ 11 ≤ Real.exp 1 ^ 11 :=
    pow_le_pow_left₀ (by norm_num) (by have := Real.exp_one_gt_d9; linarith) 11
  rw [h2] at h1
  norm_num at h1 h3
  linarith

theorem log_mul_le_two {u c : ℝ} (hu : 1 ≤ u) (hc : 1 / 50 ≤ c) (hw : c * u < 1) :
    Real.log u * (1 - c * u) ≤ 2 := by
  have hu0 : 0 < u := by linarith
  have h1 : Real.log u ≤ u / 15 + 7 / 4 := by
    have := Real.log_le_sub_one_of_pos (show 0 < u / 15 by positivity)
    rw [Real.log_div hu0.ne' (by norm_num)] at this
    have := log_fifteen
    linarith
  have h0 := Real.log_nonneg hu
  have h2 : 1 - c * u ≤ 1 - u / 50 := by nlinarith
  have h3 : 0 ≤ 1 - u / 50 := by linarith
  calc Real.log u * (1 - c * u) ≤ Real.log u * (1 - u / 50) := by gcongr
    _ ≤ (u / 15 + 7 / 4) * (1 - u / 50) := by gcongr
    _ ≤ 2 := by nlinarith [sq_nonneg (u - 95 / 8)]

/-- The factor of the derivative that decides its sign. -/
noncomputable def signFactor (b c u : ℝ) : ℝ := 1 / Real.log u - 1 / 2 + b * c * u / (Real.exp (c * (u - 1)) - b)

/-- Corrections for which the product has one maximum. -/
def TameCorrection (b c : ℝ) : Prop := 0 ≤ b ∧ b < 1 ∧ (b = 0 ∨ 1 / 50 ≤ c)

theorem exp_gap {b c u : ℝ} (h : TameCorrection b c) (hu : 1 ≤ u) : 0 < Real.exp (c * (u - 1)) - b := by
  obtain ⟨hb, hb1, hc⟩ := h
  rcases hc with rfl | hc
  · simpa using Real.exp_pos _
  · have : 1 ≤ Real.exp (c * (u - 1)) := Real.one_le_exp (by nlinarith)
    linarith

theorem signFactor_deriv {b c u : ℝ} (h : TameCorrection b c) (hu : 1 < u) :
    HasDerivAt (signFactor b c) (-(1 / u) / Real.log u ^ 2 +
      (b * c * (Real.exp (c * (u - 1)) - b) - b * c * u * (Real.exp (c * (u - 1)) * c)) /
        (Real.exp (c * (u - 1)) - b) ^ 2) u := by
  have hu0 : 0 < u := by linarith
  have hl : Real.log u ≠ 0 := (Real.log_pos hu).ne'
  have hg := (exp_gap h hu.le).ne'
  have h1 : HasDerivAt (fun u => 1 / Real.log u) (-(1 / u) / Real.log u ^ 2) u := by
    have e : (fun u => 1 / Real.log u) = Real.log⁻¹ := by funext u; simp
    rw [e]
    simpa [one_div] using (Real.hasDerivAt_log hu0.ne').inv hl
  have h2 : HasDerivAt (fun u => Real.exp (c * (u - 1)) - b) (Real.exp (c * (u - 1)) * c) u := by
    have := ((((hasDerivAt_id u).sub_const 1).const_mul c).exp).sub_const b
    simpa using this
  have h3 : HasDerivAt (fun u => b * c * u) (b * c) u := by
    simpa using (hasDerivAt_id u).const_mul (b * c)
  exact (h1.sub_const (1 / 2)).add (h3.div h2 hg)

theorem signFactor_deriv_neg {b c u : ℝ} (h : TameCorrection b c) (hu : 1 < u) :
    -(1 / u) / Real.log u ^ 2 +
      (b * c * (Real.exp (c * (u - 1)) - b) - b * c * u * (Real.exp (c * (u - 1)) * c)) /
        (Real.exp (c * (u - 1)) - b) ^ 2 ≤ 0 := by
  have hu0 : 0 < u := by linarith
  have hl := Real.log_pos hu
  have hg := exp_gap h hu.le
  obtain ⟨hb, hb1, hc⟩ := h
  have hfirst : -(1 / u) / Real.log u ^ 2 ≤ 0 := div_nonpos_of_nonpos_of_nonneg (by
    have : 0 < 1 / u := by positivity
    linarith) (by positivity)
  rcases hc with rfl | hc
  · simpa using hfirst
  have hc0 : 0 < c := by linarith
  generalize hX : Real.exp (c * (u - 1)) = X at *
  have hnum : b * c * (X - b) - b * c * u * (X * c) = c * (b * ((1 - c * u) * X - b)) := by ring
  rw [hnum]
  rcases le_or_gt ((1 - c * u) * X - b) 0 with hn | hn
  · have : c * (b * ((1 - c * u) * X - b)) / (X - b) ^ 2 ≤ 0 :=
      div_nonpos_of_nonpos_of_nonneg (mul_nonpos_of_nonneg_of_nonpos hc0.le (mul_nonpos_of_nonneg_of_nonpos hb hn))
        (by positivity)
    linarith
  · have hX0 : 0 < X := by rw [← hX]; exact Real.exp_pos _
    have hw : c * u < 1 := by
      by_contra hcw
      have : (1 - c * u) * X ≤ 0 := mul_nonpos_of_nonpos_of_nonneg (by linarith) hX0.le
      linarith
    have hlog := log_mul_le_two hu.le hc hw
    have hw0 : 0 < c * u := by positivity
    -- the best value of `b`
    have hsq : 4 * (c * u) * (b * ((1 - c * u) * X - b)) ≤ (1 - c * u) ^ 2 * (X - b) ^ 2 := by
      nlinarith [sq_nonneg ((1 - c * u) * X - (1 + c * u) * b)]
    have h4 : Real.log u ^ 2 * (1 - c * u) ^ 2 ≤ 4 := by
      have h0 : 0 ≤ Real.log u * (1 - c * u) := mul_nonneg hl.le (by linarith)
      nlinarith
    have h5 : c * (b * ((1 - c * u) * X - b)) / (X - b) ^ 2 ≤ 1 / u / Real.log u ^ 2 := by
      rw [div_div, div_le_div_iff₀ (by positivity) (by positivity)]
      have hlsq : 0 < Real.log u ^ 2 := by positivity
      have hgsq : 0 < (X - b) ^ 2 := by positivity
      have e1 : c * (b * ((1 - c * u) * X - b)) * (u * Real.log u ^ 2) =
        (4 * (c * u) * (b * ((1 - c * u) * X - b))) * Real.log u ^ 2 / 4 := by ring
      rw [e1]
      have e2 : (4 * (c * u) * (b * ((1 - c * u) * X - b))) * Real.log u ^ 2 ≤
          (1 - c * u) ^ 2 * (X - b) ^ 2 * Real.log u ^ 2 := by gcongr
      have e3 : Real.log u ^ 2 * (1 - c * u) ^ 2 * (X - b) ^ 2 ≤ 4 * (X - b) ^ 2 := by gcongr
      nlinarith
    have h6 : -(1 / u) / Real.log u ^ 2 = -(1 / u / Real.log u ^ 2) := by ring
    rw [h6]
    linarith

theorem signFactor_antitone {b c : ℝ} (h : TameCorrection b c) : AntitoneOn (signFactor b c) (Set.Ioi 1) := by
  apply antitoneOn_of_deriv_nonpos (convex_Ioi 1)
  · intro u hu
    exact (signFactor_deriv h hu).continuousAt.continuousWithinAt
  · intro u hu
    rw [interior_Ioi] at hu
    exact (signFactor_deriv h hu).differentiableAt.differentiableWithinAt
  · intro u hu
    rw [interior_Ioi] at hu
    rw [(signFactor_deriv h hu).deriv]
    exact signFactor_deriv_neg h hu

/-- The derivative of one shell and its sign factor. -/
theorem dsvTerm_sign {p : LotzPar} (hP : p.P ≠ 0) (ht : TameCorrection p.b p.c) {v : ℝ}
    (hu : 1 < v * v * p.beta) :
    dsvTerm p v = p.a * p.q * (2 * Real.log (v * v * p.beta) / (p.P ^ 2 * (v * v * p.beta)) *
      (1 - p.b * Real.exp (-p.c * (v * v * p.beta - 1)))) * signFactor p.b p.c (v * v * p.beta) := by
  have hg := exp_gap ht hu.le
  have hl := Real.log_pos hu
  have hu0 : 0 < v * v * p.beta := by linarith
  have e1 : Real.exp (p.c - p.c * (v * v * p.beta)) = (Real.exp (p.c * (v * v * p.beta - 1)))⁻¹ := by
    rw [← Real.exp_neg]; congr 1; ring
  have e2 : Real.exp (-p.c + p.c * (v * v * p.beta)) = Real.exp (p.c * (v * v * p.beta - 1)) := by
    congr 1; ring
  have e3 : Real.exp (-p.c * (v * v * p.beta - 1)) = (Real.exp (p.c * (v * v * p.beta - 1)))⁻¹ := by
    rw [← Real.exp_neg]; congr 1; ring
  unfold dsvTerm signFactor
  rw [e1, e2, e3]
  have hX := Real.exp_pos (p.c * (v * v * p.beta - 1))
  generalize Real.exp (p.c * (v * v * p.beta - 1)) = X at *
  generalize v * v * p.beta = u at *
  have hl' := hl.ne'
  have hg' := hg.ne'
  have hX' := hX.ne'
  have hu' := hu0.ne'
  field_simp
  ring

theorem tame_weight_pos {p : LotzPar} (hP : p.P ≠ 0) (ha : 0 < p.a * p.q) (ht : TameCorrection p.b p.c) {u : ℝ}
    (hu : 1 < u) :
    0 < p.a * p.q * (2 * Real.log u / (p.P ^ 2 * u) * (1 - p.b * Real.exp (-p.c * (u - 1)))) := by
  have hg := exp_gap ht hu.le
  have hl := Real.log_pos hu
  have hu0 : 0 < u := by linarith
  have hP2 : 0 < p.P ^ 2 := by positivity
  have e3 : Real.exp (-p.c * (u - 1)) = (Real.exp (p.c * (u - 1)))⁻¹ := by
    rw [← Real.exp_neg]; congr 1; ring
  have hX := Real.exp_pos (p.c * (u - 1))
  have hf : 0 < 1 - p.b * Real.exp (-p.c * (u - 1)) := by
    rw [e3, sub_pos, ← div_eq_mul_inv, div_lt_one hX]; linarith
  positivity

/-- The derivative at the threshold of a shell. -/
theorem dsvTerm_threshold {p : LotzPar} (hb : 0 < p.beta) :
    dsvTerm p (1 / Real.sqrt p.beta) = p.a * p.q / p.P ^ 2 * (2 * (1 - p.b)) := by
  have e : 1 / Real.sqrt p.beta * (1 / Real.sqrt p.beta) * p.beta = 1 := by
    rw [div_mul_div_comm, Real.mul_self_sqrt hb.le]
    field_simp
  unfold dsvTerm
  rw [e, Real.log_one, mul_one, mul_one, sub_self, Real.exp_zero, neg_add_cancel, Real.exp_zero]
  ring

theorem multiple_sq {β m : ℝ} (hb : 0 < β) :
    m * (1 / Real.sqrt β) * (m * (1 / Real.sqrt β)) * β = m ^ 2 := by
  have e : 1 / Real.sqrt β * (1 / Real.sqrt β) * β = 1 := by
    rw [div_mul_div_comm, Real.mul_self_sqrt hb.le]
    field_simp
  linear_combination m ^ 2 * e

/-- The doubling loop stops where the derivative is not positive, if one of the doublings reaches such a speed. -/
theorem doubleLoop_stops (d : ℝ → ℝ) : ∀ (n : ℕ) (v : ℝ), 0 < v → (∃ k ≤ n, d (v * 2 ^ k) ≤ 0) →
    d (doubleLoop d n v) ≤ 0 ∧ v ≤ doubleLoop d n v := by
  intro n
  induction n with
  | zero =>
    rintro v - ⟨k, hk, h⟩
    obtain rfl : k = 0 := by omega
    exact ⟨by simpa [doubleLoop] using h, le_rfl⟩
  | succ n ih =>
    rintro v hv ⟨k, hk, h⟩
    rw [doubleLoop]
    split
    · rename_i hd
      cases k with
      | zero => simp at h; linarith
      | succ k =>
        obtain ⟨h1, h2⟩ := ih (v * 2) (by positivity) ⟨k, by omega, by
          rw [show v * 2 * 2 ^ k = v * 2 ^ (k + 1) by ring]; exact h⟩
        exact ⟨h1, by linarith⟩
    · rename_i hd
      exact ⟨not_lt.1 hd, le_rfl⟩

theorem log_65536 : 8 ≤ Real.log 65536 := by
  have h : Real.log 65536 = 16 * Real.log 2 := by
    rw [show (65536 : ℝ) = 2 ^ (16 : ℕ) by norm_num, Real.log_pow]; norm_num
  have := Real.log_two_gt_d9
  rw [h]; linarith

theorem signFactor_far {b c : ℝ} (h : TameCorrection b c) : signFactor b c 65536 ≤ 0 := by
  have hg := exp_gap h (show (1 : ℝ) ≤ 65536 by norm_num)
  obtain ⟨hb, hb1, hc⟩ := h
  have hl := log_65536
  have h1 : 1 / Real.log 65536 ≤ 1 / 8 := one_div_le_one_div_of_le (by norm_num) hl
  have h2 : b * c * 65536 / (Real.exp (c * (65536 - 1)) - b) ≤ 1 / 8 := by
    rcases hc with rfl | hc
    · simp
    rw [div_le_iff₀ hg]
    have hx : 0 ≤ c * (65536 - 1) := by nlinarith
    have hq := Real.quadratic_le_exp_of_nonneg hx
    have hbc : b * c * 65536 ≤ c * 65536 := by nlinarith
    nlinarith
  unfold signFactor
  linarith

theorem tame_part_nonneg {s : Subshell} (hP : 0 < s.P) (ha : 0 < s.a * s.q) (ht : TameCorrection s.b s.c) {E : ℝ}
    (hE : s.P ≤ E) : 0 ≤ s.part E := by
  have hE0 := hP.trans_le hE
  have hu : 1 ≤ E / s.P := by rwa [one_le_div hP]
  have hg := exp_gap ht hu
  have e3 : Real.exp (-s.c * (E / s.P - 1)) = (Real.exp (s.c * (E / s.P - 1)))⁻¹ := by
    rw [← Real.exp_neg]; congr 1; ring
  have hX := Real.exp_pos (s.c * (E / s.P - 1))
  have hf : 0 ≤ 1 - s.b * Real.exp (-s.c * (E / s.P - 1)) := by
    rw [e3, sub_nonneg, ← div_eq_mul_inv, div_le_one hX]; linarith
  have hl := Real.log_nonneg hu
  unfold Subshell.part
  positivity

theorem lotzDsv_single (p : LotzPar) (v : ℝ) : lotzDsv [p] v = dsvTerm p v := by
  rw [lotzDsv_eq]; simp

theorem lotzDsv_continuousOn {p : LotzPar} (hb : 0 < p.beta) (hP : p.P ≠ 0) {thr w : ℝ} (ht0 : 0 < thr) :
    ContinuousOn (lotzDsv [p]) (Set.Icc thr w) := by
  have hpos : ∀ v ∈ Set.Icc thr w, v * v * p.beta ≠ 0 := fun v hv => by
    have : 0 < v := ht0.trans_le hv.1
    positivity
  have e : lotzDsv [p] = fun v => dsvTerm p v := by funext v; exact lotzDsv_single p v
  rw [e]
  unfold dsvTerm
  have hc : ContinuousOn (fun v : ℝ => v * v * p.beta) (Set.Icc thr w) := by fun_prop
  have hl := hc.log hpos
  apply ContinuousOn.mul
  · apply ContinuousOn.div
    · fun_prop
    · fun_prop
    · intro v hv
      exact mul_ne_zero (by positivity) (hpos v hv)
  · apply ContinuousOn.sub
    · exact continuousOn_const.mul ((hl.mul (by fun_prop)).sub continuousOn_const)
    · exact ContinuousOn.mul (by fun_prop) (hl.sub continuousOn_const)

/-- **C92**: one subshell with a correction `0 ≤ b < 1` and `c` at least one fiftieth, as in the tables of Lotz.  The
cross section is constructed, its threshold is the binding energy, it is the published formula at every speed, it is
never negative, and the maximum reported bounds `sigma(v) v` and is attained. -/
theorem C92_one_shell {solve : RootFinder} (hb : solve.Bracketing) {me : ℝ} (hme : 0 < me)
    (mu : ℝ) {s : Subshell} (hP : 0 < s.P) (ha : 0 < s.a * s.q) (ht : TameCorrection s.b s.c) :
    ∃ x, mkLotz solve (loadShells me [s]) mu = .ok x ∧ x.thrE = mu / me * s.P ∧
      (∀ v, 0 ≤ v → x.sigma v = .ok (lotzFormula [s] (1 / 2 * me * v ^ 2))) ∧
      (∀ v r, x.sigma v = .ok r → 0 ≤ r) ∧ ∀ vmax, 0 ≤ vmax → SigmaVBound x vmax ∧ SigmaVAttained x vmax := by
  have hP1 : ∀ t ∈ [s], 0 < t.P := by simpa using hP
  have hprop := loadShells_proper hme hP1
  have hload : loadShells me [s] = [LotzPar.load me s.P s.q s.a s.b s.c] := rfl
  have hthrE := fun v (hv : 0 < v) => threshold_energy hme hP hv
  have hbeta : 0 < (LotzPar.load me s.P s.q s.a s.b s.c).beta := by unfold LotzPar.load; dsimp only; positivity
  change ∀ v, 0 < v → (1 / Real.sqrt (LotzPar.load me s.P s.q s.a s.b s.c).beta ≤ v ↔ _) ∧
    (v ≤ 1 / Real.sqrt (LotzPar.load me s.P s.q s.a s.b s.c).beta ↔ _) at hthrE
  have hpP : (LotzPar.load me s.P s.q s.a s.b s.c).P ≠ 0 := hP.ne'
  have hpa : 0 < (LotzPar.load me s.P s.q s.a s.b s.c).a * (LotzPar.load me s.P s.q s.a s.b s.c).q := ha
  have hpt : TameCorrection (LotzPar.load me s.P s.q s.a s.b s.c).b (LotzPar.load me s.P s.q s.a s.b s.c).c := ht
  rw [hload] at hprop ⊢
  generalize hp : LotzPar.load me s.P s.q s.a s.b s.c = p at *
  have hr : lotzRange [p] = some (1 / Real.sqrt p.beta, 1 / Real.sqrt p.beta) := rfl
  generalize hthr : 1 / Real.sqrt p.beta = thr at *
  have hs := Real.sqrt_pos.2 hbeta
  have ht0 : 0 < thr := by rw [← hthr]; positivity
  have hmul : ∀ m, m * thr * (m * thr) * p.beta = m ^ 2 := fun m => by rw [← hthr]; exact multiple_sq hbeta
  have hd1 : 0 < lotzDsv [p] thr := by
    rw [lotzDsv_single, ← hthr, dsvTerm_threshold hbeta]
    have : 0 < p.P ^ 2 := by positivity
    have : 0 < 2 * (1 - p.b) := by have := hpt.2.1; linarith
    positivity
  have hsign : ∀ v, thr < v → ∃ K, 0 < K ∧ lotzDsv [p] v = K * signFactor p.b p.c (v * v * p.beta) ∧
      1 < v * v * p.beta := by
    intro v hv
    have hu : 1 < v * v * p.beta := by
      have := hmul 1
      rw [one_mul, one_pow] at this
      rw [← this]
      have := mul_self_lt_mul_self ht0.le hv
      gcongr
    exact ⟨_, tame_weight_pos hpP hpa hpt hu, by rw [lotzDsv_single, dsvTerm_sign hpP hpt hu], hu⟩
  have hfar : lotzDsv [p] (thr * 2 ^ 8) ≤ 0 := by
    obtain ⟨K, hK, he, -⟩ := hsign (thr * 2 ^ 8) (by norm_num; linarith)
    rw [he]
    apply mul_nonpos_of_nonneg_of_nonpos hK.le
    have : thr * 2 ^ 8 * (thr * 2 ^ 8) * p.beta = 65536 := by
      have := hmul (2 ^ 8)
      rw [mul_comm thr, this]; norm_num
    rw [this]
    exact signFactor_far hpt
  obtain ⟨hst, hge⟩ := doubleLoop_stops (lotzDsv [p]) 32 thr ht0 ⟨8, by norm_num, hfar⟩
  have hlt : thr < doubleLoop (lotzDsv [p]) 32 thr :=
    lt_of_le_of_ne hge fun he => by rw [← he] at hst; linarith
  have hcont := lotzDsv_continuousOn (w := doubleLoop (lotzDsv [p]) 32 thr) hbeta hpP ht0
  obtain ⟨z, hz, hz0, hz1, -⟩ := hb _ _ _ hlt hcont (mul_nonpos_of_nonneg_of_nonpos hd1.le hst)
  have hzt : thr < z := lt_of_le_of_ne hz1 fun he => by rw [← he] at hz0; linarith
  refine ⟨{ sigma := fun v => .ok (lotzSigma [p] thr v)
            thrE := 1 / 2 * mu * thr ^ 2
            maxSV := fun vm => .ok (if vm > z then (z * lotzSigma [p] thr z, z)
              else (vm * lotzSigma [p] thr vm, vm)) }, ?_, ?_, ?_⟩
  · unfold mkLotz
    rw [hr]
    simp only [if_true, hz]
  · have h1 := (hthrE thr ht0).1.1 le_rfl
    have h2 := (hthrE thr ht0).2.1 le_rfl
    have h3 : 1 / 2 * me * thr ^ 2 = s.P := le_antisymm h2 h1
    show 1 / 2 * mu * thr ^ 2 = _
    rw [← h3]
    field_simp
  · have hform : ∀ v, 0 ≤ v → lotzSigma [p] thr v = lotzFormula [s] (1 / 2 * me * v ^ 2) := by
      intro v hv
      unfold lotzFormula
      simp only [List.map_cons, List.map_nil, List.sum_cons, List.sum_nil, add_zero]
      rcases eq_or_lt_of_le hv with he | hv0
      · rw [← he, lotzSigma_eq, if_pos ht0, if_neg]
        simp; exact hP
      · rw [lotzSigma_eq]
        by_cases hlt : v < thr
        · rw [if_pos hlt, if_neg]
          intro hc
          exact absurd ((hthrE v hv0).1.2 hc) (not_le.2 hlt)
        · rw [if_neg hlt, if_pos ((hthrE v hv0).1.1 (not_lt.1 hlt)), ← hload, lotzSum_load hme hP1 hv0]
          simp
    have hnn : ∀ v, 0 ≤ lotzSigma [p] thr v := by
      intro v
      by_cases hlt : v < thr
      · rw [lotzSigma_eq, if_pos hlt]
      · have hv0 : 0 < v := ht0.trans_le (not_lt.1 hlt)
        rw [hform v hv0.le]
        unfold lotzFormula
        simp only [List.map_cons, List.map_nil, List.sum_cons, List.sum_nil, add_zero]
        split
        · exact tame_part_nonneg hP ha ht (by assumption)
        · exact le_rfl
    refine ⟨fun v hv => by simp only [hform v hv], fun v r h => ?_, fun vmax hv => ?_⟩
    · cases h; exact hnn v
    · obtain ⟨Kz, hKz, hez, huz⟩ := hsign z hzt
      have hSz : signFactor p.b p.c (z * z * p.beta) = 0 := by
        rw [hz0] at hez
        exact (mul_eq_zero.1 hez.symm).resolve_left hKz.ne'
      refine lotz_bound_of_signs hprop ht0 hz1 (fun v h1 h2 => ?_) (fun v h1 => ?_) (fun v => rfl) (fun v => rfl)
        (fun v r _ h => by cases h; exact hnn v) hv
      · obtain ⟨K, hK, he, hu⟩ := hsign v h1
        rw [he]
        apply mul_nonneg hK.le
        rw [← hSz]
        apply signFactor_antitone hpt hu huz
        have := mul_self_le_mul_self (ht0.trans h1).le h2.le
        gcongr
      · obtain ⟨K, hK, he, hu⟩ := hsign v (hzt.trans h1)
        rw [he]
        apply mul_nonpos_of_nonneg_of_nonpos hK.le
        rw [← hSz]
        apply signFactor_antitone hpt huz hu
        have := mul_self_le_mul_self (ht0.trans hzt).le h1.le
        gcongr

/-- **C92**, for an interaction of a document: the cross section of the equation is the published formula where all
subshells are open, and for one subshell everywhere; without a declared energy the interaction then takes the binding
energy times reduced mass over electron mass from the motion. -/
theorem C92_document {W : Type} {T : Tools W} {db : Registry ℝ} (hb : T.solve.Bracketing) (hin : T.solve.Inside)
    {e : LEq} {d : InterDoc} {w : WEq W} (h : completeEq T db e d = .ok w) {a b : Props ℝ}
    (hA : db[e.A.species.toNat]? = some a) (hB : db[e.B.species.toNat]? = some b) {me : ℝ} (hme : 0 < me)
    {shells : List Subshell} (hP : ∀ s ∈ shells, 0 < s.P) (hd : d.cs = .lotz (loadShells me shells)) :
    (∀ v, 0 < v → (∀ s ∈ shells, s.P ≤ 1 / 2 * me * v ^ 2) →
      w.cs.sigma v = .ok (lotzFormula shells (1 / 2 * me * v ^ 2))) ∧
    ∀ s, shells = [s] → 0 < s.a * s.q → TameCorrection s.b s.c →
      (∀ v, 0 ≤ v → w.cs.sigma v = .ok (lotzFormula [s] (1 / 2 * me * v ^ 2))) ∧
      w.cs.thrE = a.mass * b.mass / (a.mass + b.mass) / me * s.P ∧
      (e.model = "inelastic" → d.declared = none →
        w.energyChange = -(a.mass * b.mass / (a.mass + b.mass) / me * s.P)) := by
  obtain ⟨a', b', hA', hB', -, -, hcs, -⟩ := completeEq_ok h
  rw [hA] at hA'
  rw [hB] at hB'
  cases hA'
  cases hB'
  rw [hd] at hcs
  change mkLotz T.solve (loadShells me shells) (a.mass * b.mass / (a.mass + b.mass)) = .ok w.cs at hcs
  refine ⟨fun v hv ho => C92_formula hin hme hP hcs hv ho, ?_⟩
  rintro s rfl ha ht
  obtain ⟨x, hx, h1, h2, -⟩ := C92_one_shell hb hme (a.mass * b.mass / (a.mass + b.mass)) (hP s (by simp)) ha ht
  rw [hcs] at hx
  have hxe := Except.ok.inj hx
  subst hxe
  refine ⟨h2, h1, fun hm hn => ?_⟩
  rw [(C74_known_models h).2.2.2.2 hm, hn, h1]
  rfl

/-! ### C92: corrections outside that range -/

/-- What a successful construction with one shell means. -/
theorem mkLotz_single {solve : RootFinder} (hin : solve.Inside) {p : LotzPar} {mu : ℝ} {x : XSec}
    (h : mkLotz solve [p] mu = .ok x) :
    ∃ z, 1 / Real.sqrt p.beta ≤ z ∧ z ≤ doubleLoop (lotzDsv [p]) 32 (1 / Real.sqrt p.beta) ∧
      (∀ v, x.sigma v = .ok (if v < 1 / Real.sqrt p.beta then 0 else lotzTerm p v)) ∧
      ∀ vm, z < vm → x.maxSV vm = .ok (z * lotzTerm p z, z) := by
  obtain ⟨vmin, vmax, thr, z, hr, hthr, hz, -, h2, h3⟩ := mkLotz_ok h
  have hr' := Option.some.inj hr
  simp only [List.foldl_nil, Prod.mk.injEq] at hr'
  obtain ⟨e1, e2⟩ := hr'
  rw [if_pos (by rw [← e1, ← e2])] at hthr
  have ht : thr = 1 / Real.sqrt p.beta := by rw [hthr, ← e2]
  subst ht
  obtain ⟨-, z1, z2⟩ := hin _ _ _ _ hz
  have hsum : ∀ v, lotzSum [p] v = lotzTerm p v := fun v => by unfold lotzSum; simp
  refine ⟨z, z1, z2, fun v => by rw [h2, lotzSigma_eq, hsum], fun vm hvm => ?_⟩
  rw [h3, if_pos hvm, lotzSigma_eq, if_neg (not_lt.2 z1), hsum]

/-- One shell at a multiple of its threshold. -/
theorem lotzTerm_multiple {p : LotzPar} (hb : 0 < p.beta) (m : ℝ) :
    lotzTerm p (m * (1 / Real.sqrt p.beta)) =
      p.a * p.q * Real.log (m ^ 2) / (p.P ^ 2 * m ^ 2) * (1 - p.b * Real.exp (-p.c * (m ^ 2 - 1))) := by
  unfold lotzTerm
  rw [multiple_sq hb]

theorem slow_value :
    3 / 100 ≤ Real.log (100 ^ 2) / 100 * (1 - 99 / 100 * Real.exp (-(1 / 20000) * (100 ^ 2 - 1))) := by
  have hl4 : 9 ≤ Real.log (100 ^ 2) := by
    have e : Real.log ((2 : ℝ) ^ (13 : ℕ)) = 13 * Real.log 2 := by rw [Real.log_pow]; norm_num
    have h1 := Real.log_two_gt_d9
    have h2 : Real.log ((2 : ℝ) ^ (13 : ℕ)) ≤ Real.log (100 ^ 2) := Real.log_le_log (by norm_num) (by norm_num)
    linarith
  have hE2 : Real.exp (-(1 / 20000) * (100 ^ 2 - 1)) ≤ 67 / 100 := by
    have h1 := Real.add_one_le_exp ((1 : ℝ) / 20000 * (100 ^ 2 - 1))
    have h2 : Real.exp (-(1 / 20000) * (100 ^ 2 - 1)) * Real.exp ((1 : ℝ) / 20000 * (100 ^ 2 - 1)) = 1 := by
      rw [← Real.exp_add, ← Real.exp_zero]; congr 1; ring
    have h3 := Real.exp_pos (-(1 / 20000) * (100 ^ 2 - 1))
    generalize Real.exp (-(1 / 20000) * (100 ^ 2 - 1)) = F at *
    generalize Real.exp ((1 : ℝ) / 20000 * (100 ^ 2 - 1)) = G at *
    have h4 : 1.49 ≤ G := by norm_num at h1 ⊢; linarith
    have h5 : F * 1.4999 ≤ F * G := mul_le_mul_of_nonneg_left (by norm_num at h1 ⊢; linarith) h3.le
    norm_num at h5
    linarith
  generalize Real.log (100 ^ 2) = L at *
  generalize Real.exp (-(1 / 20000) * (100 ^ 2 - 1)) = F at *
  nlinarith

theorem slow_rearrange {A P thr L G : ℝ} (hP : P ≠ 0) :
    A * L / (P ^ 2 * 100 ^ 2) * G * (100 * thr) = A / P ^ 2 * thr * (L / 100 * G) := by
  field_simp

theorem slow_derivative {p : LotzPar} (hbeta : 0 < p.beta) (hpP : 0 < p.P) (hpa : 0 < p.a * p.q)
    (hpb : p.b = 99 / 100) (hpc : p.c = 1 / 20000) : lotzDsv [p] (1 / Real.sqrt p.beta * 2 * 2) ≤ 0 := by
  have hl16 : 2.77 ≤ Real.log 16 ∧ Real.log 16 ≤ 2.78 := by
    have e : Real.log 16 = 4 * Real.log 2 := by
      rw [show (16 : ℝ) = 2 ^ (4 : ℕ) by norm_num, Real.log_pow]; norm_num
    have h1 := Real.log_two_gt_d9
    have h2 := Real.log_two_lt_d9
    rw [e]; constructor <;> linarith
  rw [lotzDsv_single]
  have e4 : 1 / Real.sqrt p.beta * 2 * 2 * (1 / Real.sqrt p.beta * 2 * 2) * p.beta = 16 := by
    have := multiple_sq (m := 4) hbeta
    rw [show 1 / Real.sqrt p.beta * 2 * 2 = 4 * (1 / Real.sqrt p.beta) by ring, this]; norm_num
  unfold dsvTerm
  rw [e4, hpb, hpc]
  have hE : Real.exp ((1 : ℝ) / 20000 - 1 / 20000 * 16) ≤ 1 := Real.exp_le_one_iff.2 (by norm_num)
  have hE0 := Real.exp_pos ((1 : ℝ) / 20000 - 1 / 20000 * 16)
  have hEE : Real.exp ((1 : ℝ) / 20000 - 1 / 20000 * 16) * Real.exp (-(1 / 20000) + 1 / 20000 * 16) = 1 := by
    rw [← Real.exp_add, ← Real.exp_zero]; congr 1; ring
  generalize Real.exp ((1 : ℝ) / 20000 - 1 / 20000 * 16) = E at *
  generalize Real.exp (-((1 : ℝ) / 20000) + 1 / 20000 * 16) = F at *
  have e5 : p.a * p.q * E / (p.P ^ 2 * 16) * (2 * (99 / 100) * (Real.log 16 * (1 / 2 + 1 / 20000 * 16) - 1)
      - F * (Real.log 16 - 2)) = p.a * p.q / (p.P ^ 2 * 16) *
      (E * (2 * (99 / 100) * (Real.log 16 * (1 / 2 + 1 / 20000 * 16) - 1)) - (E * F) * (Real.log 16 - 2)) := by ring
  rw [e5, hEE]
  apply mul_nonpos_of_nonneg_of_nonpos (by positivity)
  nlinarith [hl16.1, hl16.2]

/-- **C92** (finding): with a strong and slowly fading correction the search stops at a local maximum, whatever exact
root search is used: the reported maximum is exceeded at a hundred times the threshold speed. -/
theorem C92_understated {solve : RootFinder} (hin : solve.Inside) {me mu : ℝ} (hme : 0 < me) {s : Subshell}
    (hP : 0 < s.P) (ha : 0 < s.a * s.q) (hb : s.b = 99 / 100) (hc : s.c = 1 / 20000) {x : XSec}
    (h : mkLotz solve (loadShells me [s]) mu = .ok x) {vmax : ℝ} (hv : 0 < vmax)
    (hfar : 10000 * s.P < 1 / 2 * me * vmax ^ 2) : SigmaVExceeded x vmax := by
  have hbeta : 0 < (LotzPar.load me s.P s.q s.a s.b s.c).beta := by unfold LotzPar.load; dsimp only; positivity
  have hload : loadShells me [s] = [LotzPar.load me s.P s.q s.a s.b s.c] := rfl
  have hvm : 100 * (1 / Real.sqrt (LotzPar.load me s.P s.q s.a s.b s.c).beta) < vmax := by
    have := (threshold_energy (s := s) hme hP (show 0 < vmax / 100 by positivity)).2
    by_contra hcon
    have h1 : vmax / 100 ≤ 1 / Real.sqrt (me / (2 * s.P)) := by
      rw [div_le_iff₀ (by norm_num), mul_comm]; exact not_lt.1 hcon
    have := this.1 h1
    nlinarith
  rw [hload] at h
  have hpP : 0 < (LotzPar.load me s.P s.q s.a s.b s.c).P := hP
  have hpa : 0 < (LotzPar.load me s.P s.q s.a s.b s.c).a * (LotzPar.load me s.P s.q s.a s.b s.c).q := ha
  have hpb : (LotzPar.load me s.P s.q s.a s.b s.c).b = 99 / 100 := hb
  have hpc : (LotzPar.load me s.P s.q s.a s.b s.c).c = 1 / 20000 := hc
  generalize LotzPar.load me s.P s.q s.a s.b s.c = p at *
  obtain ⟨z, z1, z2, hsig, hmax⟩ := mkLotz_single hin h
  generalize hthr : 1 / Real.sqrt p.beta = thr at *
  have hs := Real.sqrt_pos.2 hbeta
  have ht0 : 0 < thr := by rw [← hthr]; positivity
  have hmul : ∀ m, m * thr * (m * thr) * p.beta = m ^ 2 := fun m => by rw [← hthr]; exact multiple_sq hbeta
  have hterm : ∀ m, lotzTerm p (m * thr) =
      p.a * p.q * Real.log (m ^ 2) / (p.P ^ 2 * m ^ 2) * (1 - p.b * Real.exp (-p.c * (m ^ 2 - 1))) :=
    fun m => by rw [← hthr]; exact lotzTerm_multiple hbeta m
  -- the doubling loop stops at four times the threshold or before
  have hd4 : lotzDsv [p] (thr * 2 * 2) ≤ 0 := by rw [← hthr]; exact slow_derivative hbeta hpP hpa hpb hpc
  have hloop : doubleLoop (lotzDsv [p]) 32 thr ≤ 4 * thr := by
    show doubleLoop (lotzDsv [p]) (29 + 1 + 1 + 1) thr ≤ _
    rw [doubleLoop]
    split
    · rw [doubleLoop]
      split
      · rw [doubleLoop, if_neg (not_lt.2 hd4)]; linarith
      · linarith
    · linarith
  have hz4 : z ≤ 4 * thr := z2.trans hloop
  have hzv : z < vmax := by linarith
  refine ⟨_, _, 100 * thr, _, hmax vmax hzv, by positivity, hvm, hsig _, ?_⟩
  rw [if_neg (by linarith)]
  -- the value at the root
  obtain ⟨m, rfl⟩ : ∃ m, z = m * thr := ⟨z / thr, by field_simp⟩
  have hm1 : 1 ≤ m := by
    by_contra hcon
    nlinarith
  have hm4 : m ≤ 4 := le_of_mul_le_mul_right hz4 ht0
  rw [hterm, hterm, hpb, hpc]
  have hK : 0 < p.a * p.q / p.P ^ 2 * thr := by positivity
  have hlm : Real.log (m ^ 2) ≤ 2 * (m - 1) := by
    rw [Real.log_pow]
    have := Real.log_le_sub_one_of_pos (show 0 < m by linarith)
    push_cast; linarith
  have hlm0 : 0 ≤ Real.log (m ^ 2) := Real.log_nonneg (by nlinarith)
  have hEm : 1 - 15 / 20000 ≤ Real.exp (-((1 : ℝ) / 20000) * (m ^ 2 - 1)) := by
    have := Real.add_one_le_exp (-((1 : ℝ) / 20000) * (m ^ 2 - 1))
    nlinarith
  have hleft : m * thr * (p.a * p.q * Real.log (m ^ 2) / (p.P ^ 2 * m ^ 2) *
      (1 - 99 / 100 * Real.exp (-(1 / 20000) * (m ^ 2 - 1)))) ≤ p.a * p.q / p.P ^ 2 * thr * (22 / 1000) := by
    have e : m * thr * (p.a * p.q * Real.log (m ^ 2) / (p.P ^ 2 * m ^ 2) *
        (1 - 99 / 100 * Real.exp (-(1 / 20000) * (m ^ 2 - 1)))) = p.a * p.q / p.P ^ 2 * thr *
        (Real.log (m ^ 2) / m * (1 - 99 / 100 * Real.exp (-(1 / 20000) * (m ^ 2 - 1)))) := by
      have : m ≠ 0 := by linarith
      field_simp
    rw [e]
    apply mul_le_mul_of_nonneg_left _ hK.le
    have h1 : Real.log (m ^ 2) / m ≤ 2 := by
      rw [div_le_iff₀ (by linarith)]; linarith
    have h2 : 0 ≤ Real.log (m ^ 2) / m := div_nonneg hlm0 (by linarith)
    nlinarith
  have hright : p.a * p.q / p.P ^ 2 * thr * (3 / 100) ≤ p.a * p.q * Real.log (100 ^ 2) / (p.P ^ 2 * 100 ^ 2) *
      (1 - 99 / 100 * Real.exp (-(1 / 20000) * (100 ^ 2 - 1))) * (100 * thr) := by
    rw [slow_rearrange hpP.ne']
    exact mul_le_mul_of_nonneg_left slow_value hK.le
  have : p.a * p.q / p.P ^ 2 * thr * (22 / 1000) < p.a * p.q / p.P ^ 2 * thr * (3 / 100) := by
    apply mul_lt_mul_of_pos_left _ hK; norm_num
  linarith

/-- **C92** (finding): with the full correction `b = 1` the derivative vanishes at the threshold, the interval handed
to the search is that single point, and if the search accepts it the reported maximum is zero and is exceeded at every
speed above the threshold. -/
theorem C92_full_correction {solve : RootFinder} (hin : solve.Inside) {me mu : ℝ} (hme : 0 < me) {s : Subshell}
    (hP : 0 < s.P) (ha : 0 < s.a * s.q) (hb : s.b = 1) (hc : 0 < s.c) {x : XSec}
    (h : mkLotz solve (loadShells me [s]) mu = .ok x) {vmax : ℝ} (hv : 0 < vmax)
    (hfar : s.P < 1 / 2 * me * vmax ^ 2) : (∃ vm, x.maxSV vmax = .ok (0, vm)) ∧ SigmaVExceeded x vmax := by
  have hbeta : 0 < (LotzPar.load me s.P s.q s.a s.b s.c).beta := by unfold LotzPar.load; dsimp only; positivity
  have hload : loadShells me [s] = [LotzPar.load me s.P s.q s.a s.b s.c] := rfl
  have hvm : 1 / Real.sqrt (LotzPar.load me s.P s.q s.a s.b s.c).beta < vmax := by
    by_contra hcon
    have := (threshold_energy (s := s) hme hP hv).2.1 (not_lt.1 hcon)
    linarith
  rw [hload] at h
  have hpP : 0 < (LotzPar.load me s.P s.q s.a s.b s.c).P := hP
  have hpa : 0 < (LotzPar.load me s.P s.q s.a s.b s.c).a * (LotzPar.load me s.P s.q s.a s.b s.c).q := ha
  have hpb : (LotzPar.load me s.P s.q s.a s.b s.c).b = 1 := hb
  have hpc : 0 < (LotzPar.load me s.P s.q s.a s.b s.c).c := hc
  generalize LotzPar.load me s.P s.q s.a s.b s.c = p at *
  obtain ⟨z, z1, z2, hsig, hmax⟩ := mkLotz_single hin h
  have hd : lotzDsv [p] (1 / Real.sqrt p.beta) = 0 := by
    rw [lotzDsv_single, dsvTerm_threshold hbeta, hpb]; ring
  have hloop : doubleLoop (lotzDsv [p]) 32 (1 / Real.sqrt p.beta) = 1 / Real.sqrt p.beta := by
    show doubleLoop (lotzDsv [p]) (31 + 1) _ = _
    rw [doubleLoop, if_neg (by rw [hd]; exact lt_irrefl _)]
  rw [hloop] at z2
  obtain rfl : z = 1 / Real.sqrt p.beta := le_antisymm z2 z1
  have hm := hmax vmax hvm
  rw [lotzTerm_threshold hbeta, mul_zero] at hm
  have hs := Real.sqrt_pos.2 hbeta
  generalize hthr : 1 / Real.sqrt p.beta = thr at *
  have ht0 : 0 < thr := by rw [← hthr]; positivity
  refine ⟨⟨_, hm⟩, _, _, (thr + vmax) / 2, _, hm, by positivity, by linarith, hsig _, ?_⟩
  rw [if_neg (by linarith)]
  obtain ⟨m, hme'⟩ : ∃ m, (thr + vmax) / 2 = m * thr := ⟨(thr + vmax) / 2 / thr, by field_simp⟩
  have hm1 : 1 < m := by
    by_contra hcon
    nlinarith
  rw [hme', ← hthr, lotzTerm_multiple hbeta, hthr, hpb, one_mul]
  have hl : 0 < Real.log (m ^ 2) := Real.log_pos (by nlinarith)
  have hE : Real.exp (-p.c * (m ^ 2 - 1)) < 1 := Real.exp_lt_one_iff.2 (by nlinarith [mul_pos hpc (show 0 < m ^ 2 - 1 by nlinarith)])
  have : 0 < 1 - Real.exp (-p.c * (m ^ 2 - 1)) := by linarith
  have hm0 : 0 < m := by linarith
  positivity

/-! ### Non-vacuity -/

theorem idealRoot_inside : idealRoot.Inside := by
  intro f a b z h
  unfold idealRoot at h
  split at h
  · rename_i hz
    cases h
    exact hz.choose_spec
  · cases h

/-- The shell of mercury with the strongest correction in the shipped data (lines 5386-5388 of
`/repo/data/standard/interactions.xml`). -/
noncomputable def mercuryShell : Subshell := ⟨10.4, 10, 2.2, 0.95, 0.16⟩

example : ∃ x, mkLotz idealRoot (loadShells 1 [mercuryShell]) 1 = .ok x ∧ SigmaVBound x 1000 := by
  obtain ⟨x, hx, -, -, -, hb⟩ := C92_one_shell idealRoot_good.2 one_pos 1 (s := mercuryShell)
    (by norm_num [mercuryShell]) (by norm_num [mercuryShell])
    ⟨by norm_num [mercuryShell], by norm_num [mercuryShell], Or.inr (by norm_num [mercuryShell])⟩
  exact ⟨x, hx, (hb 1000 (by norm_num)).1⟩

/-- Two shells without correction: the hypotheses of the statements on several shells. -/
noncomputable def twoShells : List Subshell := [⟨1, 1, 1, 0, 0⟩, ⟨9, 2, 1, 0, 0⟩]

theorem twoShells_mild : ∀ s ∈ twoShells, s.Mild := by
  intro s hs
  simp only [twoShells, List.mem_cons, List.not_mem_nil, or_false] at hs
  rcases hs with rfl | rfl <;> norm_num [Subshell.Mild]

example : ∃ x, mkLotz idealRoot (loadShells 2 twoShells) 3 = .ok x ∧
    (∃ r, x.sigma 2 = .ok r ∧ r < lotzFormula twoShells (1 / 2 * 2 * 2 ^ 2)) ∧
    x.sigma 3 = .ok (lotzFormula twoShells (1 / 2 * 2 * 3 ^ 2)) ∧
    ∃ E₀, x.thrE = 3 / 2 * E₀ ∧ 1 < E₀ ∧ E₀ < 9 := by
  have hpl : ∀ p ∈ loadShells 2 twoShells, p.Plain := by
    intro p hp
    simp only [loadShells, twoShells, List.map_cons, List.map_nil, List.mem_cons, List.not_mem_nil, or_false] at hp
    rcases hp with rfl | rfl <;> exact ⟨⟨by norm_num [LotzPar.load], by norm_num [LotzPar.load]⟩, rfl, by norm_num [LotzPar.load]⟩
  obtain ⟨x, -, hx, -⟩ := C71_succeeds idealRoot_good.2 3 (by simp [loadShells, twoShells]) hpl
  refine ⟨x, hx, ?_, ?_, ?_⟩
  · exact C92_between (by norm_num) twoShells_mild hx (by norm_num) ⟨_, by simp [twoShells]; exact Or.inl rfl, by norm_num⟩
      ⟨_, by simp [twoShells]; exact Or.inr rfl, by norm_num⟩
  · refine C92_formula idealRoot_inside (by norm_num) (fun s hs => (twoShells_mild s hs).1) hx (by norm_num) ?_
    intro s hs
    simp only [twoShells, List.mem_cons, List.not_mem_nil, or_false] at hs
    rcases hs with rfl | rfl <;> norm_num
  · obtain ⟨E₀, h1, ⟨s, hs, h2⟩, ⟨t, ht, h3⟩, -⟩ := C92_threshold idealRoot_inside (by norm_num) twoShells_mild hx
      ⟨⟨1, 1, 1, 0, 0⟩, by simp [twoShells], ⟨9, 2, 1, 0, 0⟩, by simp [twoShells], by norm_num⟩
    refine ⟨E₀, h1, ?_, ?_⟩
    · simp only [twoShells, List.mem_cons, List.not_mem_nil, or_false] at hs
      rcases hs with rfl | rfl <;> norm_num at h2 <;> linarith
    · simp only [twoShells, List.mem_cons, List.not_mem_nil, or_false] at ht
      rcases ht with rfl | rfl <;> norm_num at h3 <;> linarith

/-- The slowly fading correction: the construction succeeds, and the reported maximum is exceeded. -/
example : ∃ x, mkLotz idealRoot (loadShells 2 [⟨1, 1, 1, 99 / 100, 1 / 20000⟩]) 1 = .ok x ∧ SigmaVExceeded x 101 := by
  have hx : ∃ x, mkLotz idealRoot (loadShells 2 [⟨1, 1, 1, 99 / 100, 1 / 20000⟩]) 1 = .ok x := by
    have hload : loadShells 2 [⟨1, 1, 1, 99 / 100, 1 / 20000⟩] = [LotzPar.load 2 1 1 1 (99 / 100) (1 / 20000)] := rfl
    rw [hload]
    have hbeta : 0 < (LotzPar.load 2 1 1 1 (99 / 100) (1 / 20000)).beta := by norm_num [LotzPar.load]
    have hP : 0 < (LotzPar.load 2 1 1 1 (99 / 100) (1 / 20000)).P := by norm_num [LotzPar.load]
    have h4 := slow_derivative hbeta hP (by norm_num [LotzPar.load]) rfl rfl
    have h1 := dsvTerm_threshold hbeta
    have h1' : 0 < dsvTerm (LotzPar.load 2 1 1 1 (99 / 100) (1 / 20000))
        (1 / Real.sqrt (LotzPar.load 2 1 1 1 (99 / 100) (1 / 20000)).beta) := by
      rw [h1]; norm_num [LotzPar.load]
    have hs := Real.sqrt_pos.2 hbeta
    have hr : lotzRange [LotzPar.load 2 1 1 1 (99 / 100) (1 / 20000)] = some
      (1 / Real.sqrt (LotzPar.load 2 1 1 1 (99 / 100) (1 / 20000)).beta,
       1 / Real.sqrt (LotzPar.load 2 1 1 1 (99 / 100) (1 / 20000)).beta) := rfl
    generalize LotzPar.load 2 1 1 1 (99 / 100) (1 / 20000) = p at *
    have ht0 : 0 < 1 / Real.sqrt p.beta := by positivity
    generalize 1 / Real.sqrt p.beta = thr at *
    rw [← lotzDsv_single] at h1'
    obtain ⟨a1, a2⟩ := doubleLoop_stops (lotzDsv [p]) 32 thr ht0 ⟨2, by norm_num, by
      rw [show thr * 2 ^ 2 = thr * 2 * 2 by ring]; exact h4⟩
    obtain ⟨z, hz, -⟩ := idealRoot_good.2 (lotzDsv [p]) thr (doubleLoop (lotzDsv [p]) 32 thr)
      (lt_of_le_of_ne a2 fun he => by rw [← he] at a1; linarith) (lotzDsv_continuousOn hbeta hP.ne' ht0)
      (mul_nonpos_of_nonneg_of_nonpos h1'.le a1)
    unfold mkLotz
    rw [hr]
    simp only [if_true, hz]
    exact ⟨_, rfl⟩
  obtain ⟨x, hx⟩ := hx
  exact ⟨x, hx, C92_understated idealRoot_inside (by norm_num) (by norm_num) (by norm_num) rfl rfl hx (by norm_num)
    (by norm_num)⟩

/-- The full correction: a search that accepts the single point. -/
example : ∃ x, mkLotz idealRoot (loadShells 2 [⟨1, 1, 1, 1, 1⟩]) 1 = .ok x ∧ SigmaVExceeded x 2 := by
  have hx : ∃ x, mkLotz idealRoot (loadShells 2 [⟨1, 1, 1, 1, 1⟩]) 1 = .ok x := by
    have hload : loadShells 2 [⟨1, 1, 1, 1, 1⟩] = [LotzPar.load 2 1 1 1 1 1] := rfl
    rw [hload]
    have hbeta : 0 < (LotzPar.load 2 1 1 1 1 1).beta := by norm_num [LotzPar.load]
    have h1 := dsvTerm_threshold hbeta
    rw [show (LotzPar.load 2 1 1 1 1 1).b = 1 from rfl, sub_self, mul_zero, mul_zero] at h1
    have hr : lotzRange [LotzPar.load 2 1 1 1 1 1] = some
      (1 / Real.sqrt (LotzPar.load 2 1 1 1 1 1).beta, 1 / Real.sqrt (LotzPar.load 2 1 1 1 1 1).beta) := rfl
    generalize LotzPar.load 2 1 1 1 1 1 = p at *
    generalize 1 / Real.sqrt p.beta = thr at *
    rw [← lotzDsv_single] at h1
    have hl : doubleLoop (lotzDsv [p]) 32 thr = thr := by
      show doubleLoop (lotzDsv [p]) (31 + 1) thr = thr
      rw [doubleLoop, if_neg (by rw [h1]; exact lt_irrefl _)]
    have hz : ∃ z, idealRoot (lotzDsv [p]) thr thr = some z := by
      unfold idealRoot
      rw [dif_pos ⟨thr, h1, le_rfl, le_rfl⟩]
      exact ⟨_, rfl⟩
    obtain ⟨z, hz⟩ := hz
    unfold mkLotz
    rw [hr]
    simp only [if_true, hl, hz]
    exact ⟨_, rfl⟩
  obtain ⟨x, hx⟩ := hx
  exact ⟨x, hx, (C92_full_correction idealRoot_inside (by norm_num) (by norm_num) (by norm_num) rfl one_pos hx
    (by norm_num) (by norm_num)).2⟩

end Chimp
