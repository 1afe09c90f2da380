import Verif.Lemmas.OutPath
import Mathlib.MeasureTheory.Measure.Lebesgue.Basic
import Mathlib.Tactic.NormNum

/-!
# Properties C30-C34: choosing the outcome of a pair test
-/

namespace Chimp

/-! ## Specification -/

section Spec
variable {K : Type} [Field K] [LinearOrder K]

/-- Total cross section of a set. -/
def totalSigma (cs : List K) : K := cs.sum

/-- Left end of the selection interval of channel `j` on the scale of the total cross section. -/
def channelStart (cs : List K) (j : ℕ) : K := (cs.take j).sum

end Spec

variable {K : Type} [Field K] [LinearOrder K] [IsStrictOrderedRing K]

/-! ## C32: acceptance -/

omit [IsStrictOrderedRing K] in
/-- **C32**  The pair test is turned down (without complaint) exactly when `rand * max` exceeds
`sigma_total * v`. -/
theorem C32_reject_iff (cs : List K) (maxSV v u w : K) :
    calculateOutPath cs maxSV v u w = ⟨-1, 0, false⟩ ↔ totalSigma cs * v < u * maxSV := by
  unfold calculateOutPath
  rw [csTotal_eq_sum]
  unfold totalSigma
  constructor
  · intro h
    by_contra hc
    rw [if_neg hc] at h
    split at h
    · simp only [OutPath.mk.injEq] at h; omega
    · simp at h
  · intro h; rw [if_pos h]

/-! ## C31, C30: the selected channel -/

/-- **C31**  For nonnegative cross sections and random numbers `w ∈ [0,1)`: channel `j` is selected
exactly when the test is accepted and `w * total` lies in `[start_j, start_j + sigma_j)`. -/
theorem C31_selected_iff (cs : List K) (hnn : ∀ c ∈ cs, 0 ≤ c) (maxSV v u w : K) (hw : 0 ≤ w)
    (j : ℕ) :
    (calculateOutPath cs maxSV v u w).first = j ↔
      u * maxSV ≤ totalSigma cs * v ∧ ∃ c, cs[j]? = some c ∧
        channelStart cs j ≤ w * totalSigma cs ∧ w * totalSigma cs < channelStart cs j + c := by
  have htot : 0 ≤ totalSigma cs := List.sum_nonneg hnn
  unfold calculateOutPath
  rw [csTotal_eq_sum]
  change _ ↔ _
  have hr : 0 ≤ w * cs.sum := mul_nonneg hw htot
  by_cases hacc : u * maxSV > cs.sum * v
  · rw [if_pos hacc]
    simp only [totalSigma]
    constructor
    · intro h; simp at h
    · rintro ⟨h, _⟩; exact absurd hacc (not_lt.2 h)
  · rw [if_neg hacc]
    have hacc' := not_lt.1 hacc
    cases hp : pickLoop (w * cs.sum) cs 0 0 with
    | none =>
      simp only
      constructor
      · intro h; omega
      · rintro ⟨_, c, hc, h1, h2⟩
        have := (pickLoop_iff hnn _ hr j c).2 ⟨hc, h1, h2⟩
        rw [hp] at this; cases this
    | some jc =>
      obtain ⟨j', c'⟩ := jc
      simp only [Nat.cast_inj]
      constructor
      · rintro rfl
        have := (pickLoop_iff hnn _ hr j' c').1 hp
        exact ⟨hacc', c', this⟩
      · rintro ⟨_, c, hc, h1, h2⟩
        have := (pickLoop_iff hnn _ hr j c).2 ⟨hc, h1, h2⟩
        rw [hp] at this
        simp only [Option.some.injEq, Prod.mk.injEq] at this
        exact this.1

/-- **C30**  The answer is `(-1, 0)` or a valid equation index with that equation's cross section,
which is then strictly positive. -/
theorem C30_valid_open_channel (cs : List K) (hnn : ∀ c ∈ cs, 0 ≤ c) (maxSV v u w : K) (hw : 0 ≤ w) :
    let p := calculateOutPath cs maxSV v u w
    (p.first = -1 ∧ p.second = 0) ∨
    ∃ j c, cs[j]? = some c ∧ p.first = (j : ℕ) ∧ p.second = c ∧ 0 < c := by
  have htot : 0 ≤ cs.sum := List.sum_nonneg hnn
  have hr : 0 ≤ w * cs.sum := mul_nonneg hw htot
  simp only
  unfold calculateOutPath
  rw [csTotal_eq_sum]
  by_cases hacc : u * maxSV > cs.sum * v
  · rw [if_pos hacc]; left; exact ⟨rfl, rfl⟩
  · rw [if_neg hacc]
    cases hp : pickLoop (w * cs.sum) cs 0 0 with
    | none => left; exact ⟨rfl, rfl⟩
    | some jc =>
      obtain ⟨j, c⟩ := jc
      have := (pickLoop_iff hnn _ hr j c).1 hp
      exact .inr ⟨j, c, this.1, rfl, rfl, by linarith [this.2.1, this.2.2]⟩

/-- Three channels, the middle one closed: `w * total = 1` skips the closed channel. -/
example : calculateOutPath ([1, 0, 3] : List ℚ) 8 1 (1/2) (1/4) = ⟨2, 3, false⟩ := by decide +kernel

/-- Rejection. -/
example : calculateOutPath ([1, 0, 3] : List ℚ) 8 1 (3/4) (1/4) = ⟨-1, 0, false⟩ := by decide +kernel

/-! ## C33: the severe exit -/

/-- **C33**  The exit that is logged as severe is taken exactly when the test is accepted although the
total cross section is zero; with a positive total it is unreachable. -/
theorem C33_severe_iff (cs : List K) (hnn : ∀ c ∈ cs, 0 ≤ c) (maxSV v u w : K) (hw : 0 ≤ w)
    (hw1 : w < 1) :
    (calculateOutPath cs maxSV v u w).severe = true ↔
      totalSigma cs = 0 ∧ u * maxSV ≤ 0 := by
  have htot : 0 ≤ cs.sum := List.sum_nonneg hnn
  have hr : 0 ≤ w * cs.sum := mul_nonneg hw htot
  unfold calculateOutPath totalSigma
  rw [csTotal_eq_sum]
  by_cases hacc : u * maxSV > cs.sum * v
  · rw [if_pos hacc]
    simp only [Bool.false_eq_true, false_iff, not_and, not_le]
    intro h0; rw [h0, zero_mul] at hacc; exact hacc
  · rw [if_neg hacc]
    have hacc' := not_lt.1 hacc
    rcases htot.eq_or_lt with h0 | hpos
    · have hp : pickLoop (w * cs.sum) cs 0 0 = none := by
        rw [pickLoop_none]
        intro i _
        have h1 := prefix_sum_mono hnn (i := i+1) (j := max cs.length (i+1)) (by omega)
        rw [List.take_of_length_le (l := cs) (le_max_left _ _), ← h0] at h1
        rw [← h0]; simpa using h1
      rw [hp]
      simp only [true_iff]
      rw [← h0, zero_mul] at hacc'
      exact ⟨h0.symm, hacc'⟩
    · have hne : pickLoop (w * cs.sum) cs 0 0 ≠ none := by
        intro hp
        rw [pickLoop_none] at hp
        have hlen : 0 < cs.length := by
          rcases cs with _ | ⟨a, l⟩
          · simp at hpos
          · simp
        have := hp (cs.length - 1) (by omega)
        rw [List.take_of_length_le (by omega)] at this
        nlinarith
      obtain ⟨jc, hjc⟩ := Option.ne_none_iff_exists'.1 hne
      rw [hjc]
      simp only [Bool.false_eq_true, false_iff, not_and]
      intro h; exact absurd h hpos.ne'

/-- **C33**  With nonnegative cross sections of positive total, an accepted test always selects a
channel. -/
theorem C33_accepted_selects (cs : List K) (hnn : ∀ c ∈ cs, 0 ≤ c) (hpos : 0 < totalSigma cs)
    (maxSV v u w : K) (hw : 0 ≤ w) (hw1 : w < 1) (hacc : u * maxSV ≤ totalSigma cs * v) :
    ∃ j < cs.length, (calculateOutPath cs maxSV v u w).first = (j : ℕ) := by
  have h1 : (calculateOutPath cs maxSV v u w).severe ≠ true := by
    rw [Ne, C33_severe_iff cs hnn maxSV v u w hw hw1]
    rintro ⟨h, _⟩; exact hpos.ne' h
  have h2 := C30_valid_open_channel cs hnn maxSV v u w hw
  rcases h2 with ⟨h3, h4⟩ | ⟨j, c, hc, hj, _⟩
  · exfalso
    have h5 : calculateOutPath cs maxSV v u w = ⟨-1, 0, false⟩ := by
      cases hp : calculateOutPath cs maxSV v u w with
      | mk a b s =>
        rw [hp] at h1 h3 h4
        simp only at h1 h3 h4
        subst h3; subst h4
        cases s
        · rfl
        · exact absurd rfl h1
    rw [C32_reject_iff] at h5
    exact absurd hacc (not_le.2 h5)
  · exact ⟨j, (List.getElem?_eq_some_iff.1 hc).1, hj⟩

/-- The severe exit is reachable when all channels are closed and `rand` returns zero. -/
example : (calculateOutPath ([0, 0] : List ℚ) 8 1 0 (1/4)).severe = true := by decide +kernel

/-! ## C31, C32: measures -/

open MeasureTheory in
/-- **C31**  Among the random numbers in `[0,1)` for the channel choice, those selecting channel `j` have
measure `sigma_j / sigma_total`, provided the test was accepted. -/
theorem C31_measure (cs : List ℝ) (hnn : ∀ c ∈ cs, 0 ≤ c) (hpos : 0 < totalSigma cs)
    (maxSV v u : ℝ) (hacc : u * maxSV ≤ totalSigma cs * v) (j : ℕ) (c : ℝ) (hc : cs[j]? = some c) :
    volume {w : ℝ | w ∈ Set.Ico (0:ℝ) 1 ∧ (calculateOutPath cs maxSV v u w).first = (j : ℕ)} =
      ENNReal.ofReal (c / totalSigma cs) := by
  have hjl : j < cs.length := (List.getElem?_eq_some_iff.1 hc).1
  have h0 : 0 ≤ channelStart cs j := List.sum_nonneg (fun x hx => hnn x (List.mem_of_mem_take hx))
  have hend : channelStart cs j + c ≤ totalSigma cs := by
    have h1 := prefix_sum_mono hnn (i := j+1) (j := cs.length) (by omega)
    rw [List.take_length, take_succ_sum _ _ _ hc] at h1
    exact h1
  have hset : {w : ℝ | w ∈ Set.Ico (0:ℝ) 1 ∧ (calculateOutPath cs maxSV v u w).first = (j : ℕ)} =
      Set.Ico (channelStart cs j / totalSigma cs) ((channelStart cs j + c) / totalSigma cs) := by
    ext w
    simp only [Set.mem_ofPred_eq, Set.mem_Ico]
    constructor
    · rintro ⟨⟨hw0, hw1⟩, hj⟩
      obtain ⟨_, c', hc', h1, h2⟩ := (C31_selected_iff cs hnn maxSV v u w hw0 j).1 hj
      rw [hc] at hc'; cases hc'
      exact ⟨(div_le_iff₀ hpos).2 h1, (lt_div_iff₀ hpos).2 h2⟩
    · rintro ⟨h1, h2⟩
      have hw0 : 0 ≤ w := le_trans (div_nonneg h0 hpos.le) h1
      have hw1 : w < 1 := lt_of_lt_of_le h2 ((div_le_one hpos).2 hend)
      exact ⟨⟨hw0, hw1⟩, (C31_selected_iff cs hnn maxSV v u w hw0 j).2
        ⟨hacc, c, hc, (div_le_iff₀ hpos).1 h1, (lt_div_iff₀ hpos).1 h2⟩⟩
  rw [hset, Real.volume_Ico]
  congr 1
  field_simp
  ring

open MeasureTheory in
/-- **C32**  If `max` is positive and bounds `sigma_total * v`, the random numbers in `[0,1]` that pass
the acceptance test have measure `sigma_total * v / max`. -/
theorem C32_accept_measure (cs : List ℝ) (hnn : ∀ c ∈ cs, 0 ≤ c) (maxSV v w : ℝ) (hv : 0 ≤ v)
    (hmax : 0 < maxSV) (hb : totalSigma cs * v ≤ maxSV) :
    volume {u : ℝ | u ∈ Set.Icc (0:ℝ) 1 ∧ calculateOutPath cs maxSV v u w ≠ ⟨-1, 0, false⟩} =
      ENNReal.ofReal (totalSigma cs * v / maxSV) := by
  have htot : 0 ≤ totalSigma cs * v := mul_nonneg (List.sum_nonneg hnn) hv
  have hset : {u : ℝ | u ∈ Set.Icc (0:ℝ) 1 ∧ calculateOutPath cs maxSV v u w ≠ ⟨-1, 0, false⟩} =
      Set.Icc 0 (totalSigma cs * v / maxSV) := by
    ext u
    simp only [Set.mem_ofPred_eq, Set.mem_Icc, Ne, C32_reject_iff, not_lt]
    constructor
    · rintro ⟨⟨h0, _⟩, h⟩; exact ⟨h0, (le_div_iff₀ hmax).2 h⟩
    · rintro ⟨h0, h⟩
      exact ⟨⟨h0, h.trans ((div_le_one hmax).2 hb)⟩, (le_div_iff₀ hmax).1 h⟩
  rw [hset, Real.volume_Icc, sub_zero]

open MeasureTheory in
/-- **C32**  The joint measure of the random numbers `(rand, randExc)` that accept the pair and select
channel `j` is `sigma_j * v / max`: the null-collision method realises exactly the rate of each
channel. -/
theorem C32_joint_measure (cs : List ℝ) (hnn : ∀ c ∈ cs, 0 ≤ c) (hpos : 0 < totalSigma cs)
    (maxSV v : ℝ) (hv : 0 ≤ v) (hmax : 0 < maxSV) (hb : totalSigma cs * v ≤ maxSV)
    (j : ℕ) (c : ℝ) (hc : cs[j]? = some c) :
    (volume : Measure (ℝ × ℝ)) {p : ℝ × ℝ | p.1 ∈ Set.Icc (0:ℝ) 1 ∧ p.2 ∈ Set.Ico (0:ℝ) 1 ∧
        (calculateOutPath cs maxSV v p.1 p.2).first = (j : ℕ)} =
      ENNReal.ofReal (c * v / maxSV) := by
  have htot : 0 ≤ totalSigma cs * v := mul_nonneg hpos.le hv
  have hc0 : 0 ≤ c := hnn c (List.mem_of_getElem? hc)
  have h0 : 0 ≤ channelStart cs j := List.sum_nonneg (fun x hx => hnn x (List.mem_of_mem_take hx))
  have hjl : j < cs.length := (List.getElem?_eq_some_iff.1 hc).1
  have hend : channelStart cs j + c ≤ totalSigma cs := by
    have h1 := prefix_sum_mono hnn (i := j+1) (j := cs.length) (by omega)
    rw [List.take_length, take_succ_sum _ _ _ hc] at h1
    exact h1
  have hset : {p : ℝ × ℝ | p.1 ∈ Set.Icc (0:ℝ) 1 ∧ p.2 ∈ Set.Ico (0:ℝ) 1 ∧
        (calculateOutPath cs maxSV v p.1 p.2).first = (j : ℕ)} =
      Set.Icc 0 (totalSigma cs * v / maxSV) ×ˢ
      Set.Ico (channelStart cs j / totalSigma cs) ((channelStart cs j + c) / totalSigma cs) := by
    ext ⟨u, w⟩
    simp only [Set.mem_ofPred_eq, Set.mem_prod, Set.mem_Icc, Set.mem_Ico]
    constructor
    · rintro ⟨⟨hu0, _⟩, ⟨hw0, hw1⟩, hj⟩
      obtain ⟨ha, c', hc', h1, h2⟩ := (C31_selected_iff cs hnn maxSV v u w hw0 j).1 hj
      rw [hc] at hc'; cases hc'
      exact ⟨⟨hu0, (le_div_iff₀ hmax).2 ha⟩, (div_le_iff₀ hpos).2 h1, (lt_div_iff₀ hpos).2 h2⟩
    · rintro ⟨⟨hu0, hu⟩, h1, h2⟩
      have hw0 : 0 ≤ w := le_trans (div_nonneg h0 hpos.le) h1
      have hw1 : w < 1 := lt_of_lt_of_le h2 ((div_le_one hpos).2 hend)
      exact ⟨⟨hu0, hu.trans ((div_le_one hmax).2 hb)⟩, ⟨hw0, hw1⟩,
        (C31_selected_iff cs hnn maxSV v u w hw0 j).2
        ⟨(le_div_iff₀ hmax).1 hu, c, hc, (div_le_iff₀ hpos).1 h1, (lt_div_iff₀ hpos).1 h2⟩⟩
  rw [hset, Measure.volume_eq_prod, Measure.prod_prod, Real.volume_Icc, Real.volume_Ico, sub_zero,
    ← ENNReal.ofReal_mul (div_nonneg htot hmax.le)]
  congr 1
  field_simp
  ring

/-- The hypotheses of the measure statements are met by three channels, one of them closed. -/
example : (∀ c ∈ ([1, 0, 3] : List ℝ), 0 ≤ c) ∧ 0 < totalSigma ([1, 0, 3] : List ℝ) ∧
    totalSigma ([1, 0, 3] : List ℝ) * 2 ≤ 10 := by
  norm_num [totalSigma]

/-! ## C34: the bound on the total rate -/

/-- **C34**  If each equation's `findMaxSigmaV` bounds its own `sigma(v) * v` up to `vmax`, the value of
the set bounds the total `sigma_total(v) * v` there. -/
theorem C34_bound (eqs : List ((K → K) × (K → K))) (vmax : K)
    (hb : ∀ e ∈ eqs, ∀ v, 0 ≤ v → v ≤ vmax → e.1 v * v ≤ e.2 vmax)
    (v : K) (hv0 : 0 ≤ v) (hv : v ≤ vmax) :
    totalSigma (eqs.map (fun e => e.1 v)) * v ≤ findMaxSigmaVProduct (eqs.map Prod.snd) vmax := by
  rw [findMaxSigmaVProduct_eq, List.map_map]
  unfold totalSigma
  induction eqs with
  | nil => simp
  | cons e es ih =>
    have h1 := hb e (by simp) v hv0 hv
    have h2 := ih (fun e' he' => hb e' (by simp [he']))
    simp only [List.map_cons, List.sum_cons, Function.comp_apply]
    simp only [Function.comp_def] at h2 ⊢
    rw [add_mul]
    exact add_le_add h1 h2

/-- **C34**  So for every pair not faster than `vmax` the acceptance ratio used by
`calculateOutPath` is at most one: with `rand = 1` the test is not passed unless the bound is
attained. -/
theorem C34_ratio_le_one (eqs : List ((K → K) × (K → K))) (vmax : K)
    (hb : ∀ e ∈ eqs, ∀ v, 0 ≤ v → v ≤ vmax → e.1 v * v ≤ e.2 vmax)
    (v w : K) (hv0 : 0 ≤ v) (hv : v ≤ vmax) :
    calculateOutPath (eqs.map (fun e => e.1 v)) (findMaxSigmaVProduct (eqs.map Prod.snd) vmax) v 1 w
      ≠ ⟨-1, 0, false⟩ →
    totalSigma (eqs.map (fun e => e.1 v)) * v = findMaxSigmaVProduct (eqs.map Prod.snd) vmax := by
  intro h
  rw [Ne, C32_reject_iff, not_lt, one_mul] at h
  exact le_antisymm (C34_bound eqs vmax hb v hv0 hv) h

/-- Two constant cross sections with their exact bounds. -/
example : ∀ e ∈ ([(fun _ => 2, fun v => 2 * v), (fun _ => 3, fun v => 3 * v)] :
    List ((ℚ → ℚ) × (ℚ → ℚ))), ∀ v, 0 ≤ v → v ≤ 5 → e.1 v * v ≤ e.2 5 := by
  intro e he v h0 h5
  simp only [List.mem_cons, List.not_mem_nil, or_false] at he
  rcases he with rfl | rfl <;> simp only <;> linarith

end Chimp
