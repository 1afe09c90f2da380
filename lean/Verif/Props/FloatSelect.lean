import Verif.Lemmas.FloatDriver
import Mathlib.Algebra.Order.Field.Power
import Mathlib.Algebra.Order.Floor.Semifield
import Mathlib.Tactic.Positivity

/-!
# Property C95: choosing pairs and outcomes in floating-point arithmetic
-/

namespace Chimp

variable {S : Type} {p : ℕ} (R : Rounding p)

/-! ### Rounded sums -/

theorem csTotalR_append (rd : ℝ → ℝ) (cs : List ℝ) (c : ℝ) : csTotalR rd (cs ++ [c]) = rd (csTotalR rd cs + c) := by
  simp [csTotalR]

theorem csTotalR_nonneg (cs : List ℝ) (h : ∀ c ∈ cs, 0 ≤ c) : 0 ≤ csTotalR R.rd cs := by
  induction cs using List.reverseRecOn with
  | nil => simp [csTotalR]
  | append_singleton cs c ih =>
    rw [csTotalR_append]
    exact R.nonneg (add_nonneg (ih fun x hx => h x (by simp [hx])) (h c (by simp)))

theorem csTotalR_mem (cs : List ℝ) : csTotalR R.rd cs ∈ FP p := by
  induction cs using List.reverseRecOn with
  | nil => simpa [csTotalR] using fp_zero
  | append_singleton cs c _ => rw [csTotalR_append]; exact R.mem _

/-- Error of a rounded sum of nonnegative numbers. -/
theorem csTotalR_bounds (hp : 0 < p) (cs : List ℝ) (h : ∀ c ∈ cs, 0 ≤ c) :
    (1 - unitError p) ^ cs.length * cs.sum ≤ csTotalR R.rd cs ∧
      csTotalR R.rd cs ≤ (1 + unitError p) ^ cs.length * cs.sum := by
  have he := unitError_pos (p := p)
  have he2 := unitError_le_half hp
  induction cs using List.reverseRecOn with
  | nil => simp [csTotalR]
  | append_singleton cs c ih =>
    have hc : 0 ≤ c := h c (by simp)
    obtain ⟨h1, h2⟩ := ih fun x hx => h x (by simp [hx])
    have h0 := csTotalR_nonneg R cs fun x hx => h x (by simp [hx])
    have hb := R.bounds (add_nonneg h0 hc)
    rw [csTotalR_append, List.length_append, List.sum_append]
    simp only [List.length_singleton, List.sum_singleton, pow_succ]
    have hlo : (1 - unitError p) ^ cs.length ≤ 1 := pow_le_one₀ (by linarith) (by linarith)
    have hhi : 1 ≤ (1 + unitError p) ^ cs.length := one_le_pow₀ (by linarith)
    constructor
    · refine le_trans ?_ hb.1
      have : (1 - unitError p) ^ cs.length * (cs.sum + c) ≤ csTotalR R.rd cs + c := by nlinarith
      nlinarith
    · refine le_trans hb.2 ?_
      have : csTotalR R.rd cs + c ≤ (1 + unitError p) ^ cs.length * (cs.sum + c) := by nlinarith
      nlinarith

/-- Rounded partial sums grow. -/
theorem csTotalR_take_mono (cs : List ℝ) (h : ∀ c ∈ cs, 0 ≤ c) {i j : ℕ} (hij : i ≤ j) :
    csTotalR R.rd (cs.take i) ≤ csTotalR R.rd (cs.take j) := by
  induction j, hij using Nat.le_induction with
  | base => exact le_rfl
  | succ j _ ih =>
    refine ih.trans ?_
    by_cases hj : j < cs.length
    · rw [List.take_succ_eq_append_getElem hj, csTotalR_append]
      exact R.ge_of_ge (csTotalR_mem R _) (by have := h _ (List.getElem_mem hj); linarith)
    · rw [List.take_of_length_le (by omega), List.take_of_length_le (by omega)]

theorem pickLoopR_some (rd : ℝ → ℝ) (r : ℝ) (cs : List ℝ) : ∀ (t : ℝ) (j₀ j : ℕ) (c : ℝ),
    pickLoopR rd r cs t j₀ = some (j, c) →
    ∃ k, j = j₀ + k ∧ cs[k]? = some c ∧ r < (cs.take (k + 1)).foldl (fun t c => rd (t + c)) t ∧
      ∀ i < k, (cs.take (i + 1)).foldl (fun t c => rd (t + c)) t ≤ r := by
  induction cs with
  | nil => intro t j₀ j c h; simp [pickLoopR] at h
  | cons a cs ih =>
    intro t j₀ j c h
    unfold pickLoopR at h
    split at h
    · rename_i hgt
      simp only [Option.some.injEq, Prod.mk.injEq] at h
      obtain ⟨rfl, rfl⟩ := h
      exact ⟨0, by simp, by simp, by simpa using hgt, by simp⟩
    · rename_i hgt
      obtain ⟨k, hk, hc, hr, hlt⟩ := ih _ _ _ _ h
      refine ⟨k + 1, by omega, by simpa using hc, by simpa using hr, ?_⟩
      intro i hi
      cases i with
      | zero => simpa using not_lt.1 hgt
      | succ i => simpa using hlt i (by omega)

theorem pickLoopR_none (rd : ℝ → ℝ) (r : ℝ) (cs : List ℝ) : ∀ (t : ℝ) (j₀ : ℕ),
    pickLoopR rd r cs t j₀ = none →
    ∀ i < cs.length, (cs.take (i + 1)).foldl (fun t c => rd (t + c)) t ≤ r := by
  induction cs with
  | nil => intro t j₀ _ i hi; simp at hi
  | cons a cs ih =>
    intro t j₀ h i hi
    unfold pickLoopR at h
    split at h
    · simp at h
    · rename_i hgt
      cases i with
      | zero => simpa using not_lt.1 hgt
      | succ i => simpa using ih _ _ h i (by simpa using hi)

/-- The loop finds the channel whose rounded partial sums enclose `r`. -/
theorem pickLoopR_iff (cs : List ℝ) (hnn : ∀ c ∈ cs, 0 ≤ c) (r : ℝ) (hr0 : 0 ≤ r) (j : ℕ) (c : ℝ) :
    pickLoopR R.rd r cs 0 0 = some (j, c) ↔
      cs[j]? = some c ∧ csTotalR R.rd (cs.take j) ≤ r ∧ r < csTotalR R.rd (cs.take (j + 1)) := by
  constructor
  · intro h
    obtain ⟨k, hk, hc, hr, hlt⟩ := pickLoopR_some R.rd r cs 0 0 j c h
    rw [zero_add] at hk
    subst hk
    refine ⟨hc, ?_, hr⟩
    cases j with
    | zero => simpa [csTotalR] using hr0
    | succ i => exact hlt i (by omega)
  · rintro ⟨hc, h1, h2⟩
    have hj : j < cs.length := by
      by_contra hh
      rw [List.getElem?_eq_none (by omega)] at hc
      simp at hc
    cases h : pickLoopR R.rd r cs 0 0 with
    | none =>
      have := pickLoopR_none R.rd r cs 0 0 h j hj
      exact absurd h2 (not_lt.2 this)
    | some jc =>
      obtain ⟨k, c'⟩ := jc
      obtain ⟨k', hk, hc', hr, hlt⟩ := pickLoopR_some R.rd r cs 0 0 k c' h
      rw [zero_add] at hk
      subst hk
      rcases lt_trichotomy k j with hkj | hkj | hkj
      · exact absurd (lt_of_lt_of_le hr (csTotalR_take_mono R cs hnn (by omega : k + 1 ≤ j))) (not_lt.2 h1)
      · subst hkj
        rw [hc] at hc'
        rw [Option.some.inj hc']
      · exact absurd h2 (not_lt.2 (hlt j hkj))

/-! ## Pairs -/

/-- **C95**  In floating-point arithmetic, too, the two selected positions are in their ranges and different, for every
generator whose numbers have the same number of digits: the product of a size and a number below one is never rounded up to
the size. -/
theorem C95_pair (hp : 0 < p) (rng : RNG S ℝ) (hv : rng.ValidFP p) (fuel : ℕ) (a b : ℕ × ℕ)
    (ha : a.1 < a.2) (hb : b.1 < b.2) (hap : a.2 - a.1 ≤ 2 ^ p) (hbp : b.2 - b.1 ≤ 2 ^ p) (s : S) (i j : ℕ) (s' : S)
    (h : selectRandomPairR R.rd rng false fuel a b s = some (i, j, s')) :
    (a.1 ≤ i ∧ i < a.2) ∧ (b.1 ≤ j ∧ j < b.2) ∧ i ≠ j :=
  selectRandomPairR_spec R hp rng hv fuel a b (by unfold rsize; omega) (by unfold rsize; omega) hap hbp s i j s' h

/-- A generator that alternates between 1/4 and 3/4 meets the hypothesis for `double`. -/
noncomputable def twoPointRNG : RNG Bool ℝ where
  rand b := (if b then 3 / 4 else 1 / 4, !b)
  randExc b := (if b then 3 / 4 else 1 / 4, !b)

theorem twoPointRNG_valid : twoPointRNG.ValidFP 53 := by
  have h1 : (1 / 4 : ℝ) ∈ FP 53 := ⟨1, -2, by norm_num, by norm_num⟩
  have h3 : (3 / 4 : ℝ) ∈ FP 53 := ⟨3, -2, by norm_num, by norm_num⟩
  refine ⟨⟨?_, ?_⟩, ?_, ?_⟩ <;> intro b <;> cases b <;> simp only [twoPointRNG] <;>
    first | exact h1 | exact h3 | norm_num

/-- Two particles out of four at positions 10 to 13, whatever the rule for ties. -/
example (R : Rounding 53) : selectRandomPairR R.rd twoPointRNG false 1 (10, 14) (10, 14) false = some (11, 13, false) := by
  have h1 : R.rd (((14 - 10 : ℕ) : ℝ) * (1 / 4)) = 1 := by
    rw [show ((14 - 10 : ℕ) : ℝ) * (1 / 4) = 1 by norm_num]; exact R.rd_of_mem fp_one
  have h3 : R.rd (((14 - 10 : ℕ) : ℝ) * (3 / 4)) = 3 := by
    rw [show ((14 - 10 : ℕ) : ℝ) * (3 / 4) = ((3 : ℕ) : ℝ) by norm_num]
    rw [R.rd_of_mem (fp_nat (by norm_num))]; norm_num
  simp only [selectRandomPairR, selectBR, twoPointRNG, pickPosR, rsize, Bool.false_eq_true, if_false, Bool.not_false,
    if_true, h1, h3, Bool.not_true]
  norm_num
  rfl

/-- **C95**  Every particle of a species with at most `2 ^ (p - 3)` particles can be selected. -/
theorem C95_every_position (lo n k : ℕ) (hk : k < n) (hn : n * 8 ≤ 2 ^ p) :
    ∃ u ∈ FP p, 0 ≤ u ∧ u < 1 ∧ pickPosR R.rd lo n u = lo + k := by
  have he := unitError_pos (p := p)
  have hnR : (0 : ℝ) < n := by exact_mod_cast (by omega : 0 < n)
  have hnε : (n : ℝ) * unitError p ≤ 1 / 8 := by
    unfold unitError
    rw [zpow_neg, zpow_natCast, ← div_eq_mul_inv, div_le_iff₀ (by positivity)]
    have : (n : ℝ) * 8 ≤ 2 ^ p := by exact_mod_cast hn
    linarith
  have he1 : unitError p ≤ 1 / 8 := by
    have : (1 : ℝ) ≤ n := by exact_mod_cast (by omega : 1 ≤ n)
    nlinarith
  have hkn : (k : ℝ) + 1 ≤ n := by exact_mod_cast hk
  have hk0 : (0 : ℝ) ≤ k := by positivity
  have hx0 : 0 ≤ ((k : ℝ) + 1 / 2) / n := by positivity
  set u := R.rd (((k : ℝ) + 1 / 2) / n) with hu
  have hub := R.bounds hx0
  rw [← hu] at hub
  have hu0 : 0 ≤ u := R.nonneg hx0
  -- the product before rounding
  have e1 : (1 - unitError p) * ((k : ℝ) + 1 / 2) ≤ n * u := by
    have := mul_le_mul_of_nonneg_left hub.1 hnR.le
    have hh : (n : ℝ) * ((1 - unitError p) * (((k : ℝ) + 1 / 2) / n)) = (1 - unitError p) * ((k : ℝ) + 1 / 2) := by
      field_simp
    linarith
  have e2 : n * u ≤ (1 + unitError p) * ((k : ℝ) + 1 / 2) := by
    have := mul_le_mul_of_nonneg_left hub.2 hnR.le
    have hh : (n : ℝ) * ((1 + unitError p) * (((k : ℝ) + 1 / 2) / n)) = (1 + unitError p) * ((k : ℝ) + 1 / 2) := by
      field_simp
    linarith
  have hkε : unitError p * ((k : ℝ) + 1 / 2) ≤ 1 / 8 := by nlinarith
  have hkε2 : unitError p * (unitError p * ((k : ℝ) + 1 / 2)) ≤ 1 / 64 := by nlinarith
  have hb := R.bounds (mul_nonneg hnR.le hu0)
  have f1 : (k : ℝ) ≤ R.rd (n * u) := by nlinarith
  have f2 : R.rd (n * u) < k + 1 := by nlinarith
  refine ⟨u, R.mem _, hu0, ?_, ?_⟩
  · by_contra hc
    push Not at hc
    nlinarith
  · have : ⌊R.rd ((n : ℝ) * u)⌋ = k := by
      rw [Int.floor_eq_iff]; push_cast; exact ⟨f1, f2⟩
    rw [pickPosR, this]; simp

/-- Grid points `i < G` at which position `k` of `n` is picked. -/
private theorem card_grid (G n k : ℕ) (hG : 0 < G) (hn : 0 < n) (hk : k < n) :
    ((Finset.range G).filter (fun i => n * i / G = k)).card = G / n ∨
      ((Finset.range G).filter (fun i => n * i / G = k)).card = G / n + 1 := by
  have hset : (Finset.range G).filter (fun i => n * i / G = k) =
      Finset.Ico ((k * G + (n - 1)) / n) ((k * G + (n - 1) + G) / n) := by
    ext i
    simp only [Finset.mem_filter, Finset.mem_range, Finset.mem_Ico]
    have h1 : n * i / G = k ↔ k * G ≤ n * i ∧ n * i < (k + 1) * G := by
      rw [← Nat.le_div_iff_mul_le hG, ← Nat.div_lt_iff_lt_mul hG]
      omega
    have h2 : (k * G + (n - 1)) / n ≤ i ↔ k * G ≤ n * i := by
      rw [← Nat.lt_succ_iff, Nat.div_lt_iff_lt_mul hn, Nat.succ_mul, mul_comm i]
      omega
    have h3 : i < (k * G + (n - 1) + G) / n ↔ n * i < (k + 1) * G := by
      rw [← Nat.succ_le_iff, Nat.le_div_iff_mul_le hn, Nat.succ_mul, mul_comm i, Nat.add_mul, one_mul]
      omega
    rw [h1, h2, h3]
    constructor
    · exact fun h => h.2
    · intro h
      refine ⟨?_, h⟩
      have : (k + 1) * G ≤ n * G := Nat.mul_le_mul_right _ hk
      exact lt_of_mul_lt_mul_left (lt_of_lt_of_le h.2 this) (Nat.zero_le n)
  rw [hset, Nat.card_Ico, Nat.add_div (a := k * G + (n - 1)) (b := G) hn]
  generalize (k * G + (n - 1)) / n = x
  generalize G / n = y
  split <;> omega

/-- **C95**  If the generator returns multiples of `2 ^ -b` and `n 2 ^ b ≤ 2 ^ p`, the positions of `n` particles are
equally frequent up to one grid point: each is picked for `⌊2 ^ b / n⌋` of the `2 ^ b` numbers or for one more. -/
theorem C95_frequency (lo n k b : ℕ) (hk : k < n) (hb : n * 2 ^ b ≤ 2 ^ p) :
    let c := ((Finset.range (2 ^ b)).filter
      (fun i : ℕ => pickPosR R.rd lo n ((i : ℝ) / 2 ^ b) = lo + k)).card
    c = 2 ^ b / n ∨ c = 2 ^ b / n + 1 := by
  intro c
  have hc : c = ((Finset.range (2 ^ b)).filter (fun i => n * i / 2 ^ b = k)).card := by
    simp only [c]
    congr 1
    apply Finset.filter_congr
    intro i hi
    have hi' : n * i ≤ 2 ^ p :=
      (Nat.mul_le_mul_left n (Finset.mem_range.1 hi).le).trans hb
    have hfp : (n : ℝ) * ((i : ℝ) / 2 ^ b) ∈ FP p := by
      have := fp_scale (fp_nat (p := p) hi') (-(b : ℤ))
      rw [zpow_neg, zpow_natCast, ← div_eq_mul_inv] at this
      push_cast at this
      rwa [mul_div_assoc] at this
    rw [pickPosR, R.rd_of_mem hfp, Int.floor_toNat]
    have : (n : ℝ) * ((i : ℝ) / 2 ^ b) = ((n * i : ℕ) : ℝ) / ((2 ^ b : ℕ) : ℝ) := by
      push_cast; ring
    rw [this, Nat.floor_div_eq_div]
    omega
  rw [hc]
  exact card_grid (2 ^ b) n k (by positivity) (by omega) hk

/-- Three particles and a 32-bit generator: each position belongs to 1431655765 or 1431655766 of the numbers. -/
example (R : Rounding 53) : let c := ((Finset.range (2 ^ 32)).filter
    (fun i : ℕ => pickPosR R.rd 0 3 ((i : ℝ) / 2 ^ 32) = 0 + 1)).card
    c = 2 ^ 32 / 3 ∨ c = 2 ^ 32 / 3 + 1 := C95_frequency R 0 3 1 32 (by norm_num) (by norm_num)

/-! ## Outcomes -/

/-- What `calculateOutPathR` returns. -/
private theorem outPathR_eq (cs : List ℝ) (m v u w : ℝ) (hacc : R.rd (u * m) ≤ R.rd (csTotalR R.rd cs * v)) :
    calculateOutPathR R.rd cs m v u w =
      match pickLoopR R.rd (R.rd (w * csTotalR R.rd cs)) cs 0 0 with
      | some (j, c) => ⟨j, c, false⟩
      | none => ⟨-1, 0, true⟩ := by
  unfold calculateOutPathR
  simp only [if_neg (not_lt.2 hacc)]
  all_goals cases pickLoopR R.rd (R.rd (w * csTotalR R.rd cs)) cs 0 0 <;> rfl

private theorem outPathR_first (cs : List ℝ) (hnn : ∀ c ∈ cs, 0 ≤ c) (m v u w : ℝ) (hw : 0 ≤ w) (j : ℕ) :
    (calculateOutPathR R.rd cs m v u w).first = j ↔
      R.rd (u * m) ≤ R.rd (csTotalR R.rd cs * v) ∧ j < cs.length ∧
      csTotalR R.rd (cs.take j) ≤ R.rd (w * csTotalR R.rd cs) ∧
      R.rd (w * csTotalR R.rd cs) < csTotalR R.rd (cs.take (j + 1)) := by
  have hr0 : 0 ≤ R.rd (w * csTotalR R.rd cs) := R.nonneg (mul_nonneg hw (csTotalR_nonneg R cs hnn))
  by_cases hacc : R.rd (u * m) ≤ R.rd (csTotalR R.rd cs * v)
  · rw [outPathR_eq R cs m v u w hacc]
    cases h : pickLoopR R.rd (R.rd (w * csTotalR R.rd cs)) cs 0 0 with
    | none =>
      constructor
      · intro hc; simp only at hc; omega
      · rintro ⟨-, hj, h1, h2⟩
        exact absurd h2 (not_lt.2 (pickLoopR_none R.rd _ cs 0 0 h j hj))
    | some jc =>
      obtain ⟨k, c⟩ := jc
      have hk := (pickLoopR_iff R cs hnn _ hr0 k c).1 h
      simp only [Nat.cast_inj]
      constructor
      · rintro rfl
        exact ⟨hacc, (List.getElem?_eq_some_iff.1 hk.1).1, hk.2⟩
      · rintro ⟨-, hj, h1, h2⟩
        have := (pickLoopR_iff R cs hnn _ hr0 j cs[j]).2 ⟨List.getElem?_eq_getElem hj, h1, h2⟩
        rw [h] at this
        simp only [Option.some.injEq, Prod.mk.injEq] at this
        exact this.1
  · rw [calculateOutPathR, if_pos (not_le.1 hacc)]
    constructor
    · intro hc; simp only at hc; omega
    · intro h; exact absurd h.1 hacc

/-- **C95**  The outcome of a pair test in floating-point arithmetic: nothing, or an equation of the set whose cross section
is positive, returned with that cross section. -/
theorem C95_open_channel (cs : List ℝ) (hnn : ∀ c ∈ cs, 0 ≤ c) (m v u w : ℝ) (hw : 0 ≤ w) :
    let o := calculateOutPathR R.rd cs m v u w
    (o.first = -1 ∧ o.second = 0) ∨
      ∃ j, o.first = (j : ℕ) ∧ ∃ h : j < cs.length, o.second = cs[j] ∧ 0 < cs[j] ∧ o.severe = false := by
  intro o
  have hr0 : 0 ≤ R.rd (w * csTotalR R.rd cs) := R.nonneg (mul_nonneg hw (csTotalR_nonneg R cs hnn))
  by_cases hacc : R.rd (u * m) ≤ R.rd (csTotalR R.rd cs * v)
  · have ho : o = _ := outPathR_eq R cs m v u w hacc
    cases h : pickLoopR R.rd (R.rd (w * csTotalR R.rd cs)) cs 0 0 with
    | none => left; rw [ho, h]; exact ⟨rfl, rfl⟩
    | some jc =>
      obtain ⟨k, c⟩ := jc
      obtain ⟨hc, h1, h2⟩ := (pickLoopR_iff R cs hnn _ hr0 k c).1 h
      obtain ⟨hk, rfl⟩ := List.getElem?_eq_some_iff.1 hc
      right
      rw [ho, h]
      refine ⟨k, rfl, hk, rfl, ?_, rfl⟩
      rcases (hnn _ (List.getElem_mem hk)).lt_or_eq with h0 | h0
      · exact h0
      · rw [List.take_succ_eq_append_getElem hk, csTotalR_append, ← h0, add_zero, R.rd_of_mem (csTotalR_mem R _)] at h2
        linarith
  · left
    simp only [o, calculateOutPathR, if_pos (not_le.1 hacc), and_self]

/-- **C95**  No accepted test falls through the loop unless all cross sections are zero: the rounded `w * total` stays below
the rounded total.  With zero cross sections it is accepted exactly if the random number or the bound is zero. -/
theorem C95_severe_iff (hp : 0 < p) (cs : List ℝ) (hnn : ∀ c ∈ cs, 0 ≤ c) (m v u w : ℝ) (hw : 0 ≤ w) (hw1 : w < 1)
    (hwp : w ∈ FP p) :
    (calculateOutPathR R.rd cs m v u w).severe = true ↔ (∀ c ∈ cs, c = 0) ∧ u * m ≤ 0 := by
  have hum : R.rd (u * m) ≤ 0 ↔ u * m ≤ 0 :=
    ⟨fun h => not_lt.1 fun h' => absurd (R.pos hp h') (not_lt.2 h), fun h => by simpa [R.rd_zero] using R.mono h⟩
  rw [← hum]
  have hT0 := csTotalR_nonneg R cs hnn
  have hsum : 0 ≤ cs.sum := List.sum_nonneg hnn
  have hT : csTotalR R.rd cs = 0 ↔ ∀ c ∈ cs, c = 0 := by
    have hb := csTotalR_bounds R hp cs hnn
    have he := unitError_le_half hp
    have hpos : 0 < (1 - unitError p) ^ cs.length := by apply pow_pos; linarith
    constructor
    · intro h0
      have hs0 : cs.sum = 0 := by
        rcases hsum.lt_or_eq with h | h
        · exfalso; have := mul_pos hpos h; linarith [hb.1]
        · exact h.symm
      intro c hc
      have := List.single_le_sum hnn c hc
      exact le_antisymm (by linarith) (hnn c hc)
    · intro h0
      have : cs.sum = 0 := List.sum_eq_zero h0
      rw [this] at hb
      linarith [hb.1, hb.2]
  rw [← hT]
  by_cases hacc : R.rd (u * m) ≤ R.rd (csTotalR R.rd cs * v)
  · rw [outPathR_eq R cs m v u w hacc]
    cases h : pickLoopR R.rd (R.rd (w * csTotalR R.rd cs)) cs 0 0 with
    | none =>
      simp only [true_iff]
      have hz : csTotalR R.rd cs = 0 := by
        by_contra hne
        have hpos := lt_of_le_of_ne hT0 (Ne.symm hne)
        have hlt := R.mul_lt hp hwp hw1 (csTotalR_mem R cs) hpos
        have hlen : 0 < cs.length := by
          rcases cs with _ | ⟨c, cs⟩
          · simp [csTotalR] at hne
          · simp
        have := pickLoopR_none R.rd _ cs 0 0 h (cs.length - 1) (by omega)
        rw [List.take_of_length_le (by omega)] at this
        exact absurd hlt (not_lt.2 this)
      refine ⟨hz, ?_⟩
      rw [hz, zero_mul, R.rd_zero] at hacc
      exact hacc
    | some jc =>
      obtain ⟨k, c⟩ := jc
      simp only [Bool.false_eq_true, false_iff, not_and]
      intro hz
      have hk := (pickLoopR_iff R cs hnn _ (R.nonneg (mul_nonneg hw hT0)) k c).1 h
      have hmono := csTotalR_take_mono R cs hnn (i := k + 1) (j := max (k + 1) cs.length) (le_max_left _ _)
      rw [List.take_of_length_le (le_max_right _ _), hz] at hmono
      rw [hz, mul_zero, R.rd_zero] at hk
      linarith [hk.2.2]
  · rw [calculateOutPathR, if_pos (not_le.1 hacc)]
    simp only [Bool.false_eq_true, false_iff, not_and]
    intro hz
    rw [hz, zero_mul, R.rd_zero] at hacc
    exact hacc

/-- A test is accepted if a channel comes back, or none with the severe message. -/
def Accepted (o : OutPath ℝ) : Prop := ¬ (o.first = -1 ∧ o.severe = false)

theorem accepted_iff (cs : List ℝ) (m v u w : ℝ) :
    Accepted (calculateOutPathR R.rd cs m v u w) ↔ R.rd (u * m) ≤ R.rd (csTotalR R.rd cs * v) := by
  unfold Accepted calculateOutPathR
  split
  · rename_i h; simp [h]
  · rename_i h
    rw [not_lt] at h
    simp only [h, iff_true]
    cases pickLoopR R.rd (R.rd (w * csTotalR R.rd cs)) cs 0 0 with
    | none => simp
    | some x => simp

/-- **C95**  The acceptance of a test with total cross section `σ` at speed `v` under the bound `m`: the random number `u`
is compared with `σ v / m` up to the rounding of the `n` sums and the two products. -/
theorem C95_acceptance (hp : 0 < p) (cs : List ℝ) (hnn : ∀ c ∈ cs, 0 ≤ c) (m v u : ℝ) (hm : 0 ≤ m) (hv : 0 ≤ v)
    (hu : 0 ≤ u) (w : ℝ) :
    (u * m ≤ (1 - unitError p) ^ cs.length * (cs.sum * v) → Accepted (calculateOutPathR R.rd cs m v u w)) ∧
    (Accepted (calculateOutPathR R.rd cs m v u w) →
      (1 - unitError p) * (u * m) ≤ (1 + unitError p) ^ (cs.length + 1) * (cs.sum * v)) := by
  have hb := csTotalR_bounds R hp cs hnn
  have he := unitError_pos (p := p)
  rw [accepted_iff]
  constructor
  · intro h
    apply R.mono
    have := mul_le_mul_of_nonneg_right hb.1 hv
    linarith
  · intro h
    have h1 := (R.bounds (mul_nonneg hu hm)).1
    have h2 := (R.bounds (mul_nonneg (csTotalR_nonneg R cs hnn) hv)).2
    have h3 := mul_le_mul_of_nonneg_right hb.2 hv
    have h4 : (1 + unitError p) * (csTotalR R.rd cs * v) ≤ (1 + unitError p) * ((1 + unitError p) ^ cs.length * cs.sum * v) :=
      mul_le_mul_of_nonneg_left h3 (by linarith)
    rw [pow_succ]
    linarith

/-- **C95**  Which channel is selected: an accepted test with random number `w` takes channel `j` only if `w σ` lies between
the exact partial sums before and after `j` up to the relative errors of the sums, and it does take channel `j` if `w σ` lies
between them by more than these errors. -/
theorem C95_selected (hp : 0 < p) (cs : List ℝ) (hnn : ∀ c ∈ cs, 0 ≤ c) (m v u w : ℝ) (hw : 0 ≤ w) (j : ℕ)
    (hacc : Accepted (calculateOutPathR R.rd cs m v u w)) :
    ((calculateOutPathR R.rd cs m v u w).first = j →
      (1 - unitError p) ^ j * (cs.take j).sum ≤ (1 + unitError p) ^ (cs.length + 1) * (w * cs.sum) ∧
      (1 - unitError p) ^ (cs.length + 1) * (w * cs.sum) < (1 + unitError p) ^ (j + 1) * (cs.take (j + 1)).sum) ∧
    (j < cs.length → (1 + unitError p) ^ j * (cs.take j).sum ≤ (1 - unitError p) ^ (cs.length + 1) * (w * cs.sum) →
      (1 + unitError p) ^ (cs.length + 1) * (w * cs.sum) < (1 - unitError p) ^ (j + 1) * (cs.take (j + 1)).sum →
      (calculateOutPathR R.rd cs m v u w).first = j) := by
  have he := unitError_pos (p := p)
  have he2 := unitError_le_half hp
  have hb := csTotalR_bounds R hp cs hnn
  have hT0 := csTotalR_nonneg R cs hnn
  have hr := R.bounds (mul_nonneg hw hT0)
  have hrlo : (1 - unitError p) ^ (cs.length + 1) * (w * cs.sum) ≤ R.rd (w * csTotalR R.rd cs) := by
    refine le_trans ?_ hr.1
    have := mul_le_mul_of_nonneg_left hb.1 hw
    have := mul_le_mul_of_nonneg_left this (by linarith : 0 ≤ 1 - unitError p)
    rw [pow_succ]; linarith
  have hrhi : R.rd (w * csTotalR R.rd cs) ≤ (1 + unitError p) ^ (cs.length + 1) * (w * cs.sum) := by
    refine le_trans hr.2 ?_
    have := mul_le_mul_of_nonneg_left hb.2 hw
    have := mul_le_mul_of_nonneg_left this (by linarith : 0 ≤ 1 + unitError p)
    rw [pow_succ]; linarith
  have htake : ∀ i, i ≤ cs.length → (1 - unitError p) ^ i * (cs.take i).sum ≤ csTotalR R.rd (cs.take i) ∧
      csTotalR R.rd (cs.take i) ≤ (1 + unitError p) ^ i * (cs.take i).sum := by
    intro i hi
    have := csTotalR_bounds R hp (cs.take i) (fun c hc => hnn c (List.mem_of_mem_take hc))
    rwa [List.length_take_of_le hi] at this
  rw [accepted_iff] at hacc
  rw [outPathR_first R cs hnn m v u w hw j]
  constructor
  · rintro ⟨-, hj, h1, h2⟩
    have a1 := (htake j hj.le).1
    have a2 := (htake (j + 1) hj).2
    exact ⟨by linarith, by linarith⟩
  · intro hj h1 h2
    have a1 := (htake j hj.le).2
    have a2 := (htake (j + 1) hj).1
    exact ⟨hacc, hj, by linarith, by linarith⟩

/-- Channels with cross sections 1 and 2: the number 1/2 selects the second one, for `double` and any rule for ties. -/
example (R : Rounding 53) : (calculateOutPathR R.rd [1, 2] 3 1 0 (1 / 2)).first = (1 : ℕ) := by
  have hε : unitError 53 ≤ 1 / 1024 := by
    unfold unitError; norm_num
  have hε0 := unitError_pos (p := 53)
  have hnn : ∀ c ∈ [(1 : ℝ), 2], 0 ≤ c := by simp
  refine (C95_selected R (by norm_num) [1, 2] hnn 3 1 0 (1 / 2) (by norm_num) 1 ?_).2 (by simp) ?_ ?_
  · rw [accepted_iff, zero_mul, R.rd_zero]
    exact R.nonneg (mul_nonneg (csTotalR_nonneg R _ hnn) (by norm_num))
  · norm_num
    have h1 : (1 - 1 / 1024 : ℝ) ^ 3 ≤ (1 - unitError 53) ^ 3 := pow_le_pow_left₀ (by norm_num) (by linarith) 3
    norm_num at h1
    linarith
  · norm_num
    have h1 : (1 - 1 / 1024 : ℝ) ^ 2 ≤ (1 - unitError 53) ^ 2 := pow_le_pow_left₀ (by norm_num) (by linarith) 2
    have h2 : (1 + unitError 53) ^ 3 ≤ (1 + 1 / 1024 : ℝ) ^ 3 := pow_le_pow_left₀ (by linarith) (by linarith) 3
    norm_num at h1 h2
    linarith

end Chimp
