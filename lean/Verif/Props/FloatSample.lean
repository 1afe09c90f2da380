import Verif.Props.FloatCross
import Mathlib.Data.List.Chain

/-!
# Property C101: sampled averages in floating-point arithmetic
-/

namespace Chimp

variable {p : ℕ} (R : Rounding p)

/-! ## Specification -/

/-- The speeds of the samples: each is the one before minus the step, rounded. -/
noncomputable def sampleSpeed (rd : ℝ → ℝ) (v dv : ℝ) : ℕ → ℝ
  | 0 => v
  | k + 1 => rd (sampleSpeed rd v dv k - dv)

private theorem sampleSpeed_shift (rd : ℝ → ℝ) (v dv : ℝ) (k : ℕ) :
    sampleSpeed rd (rd (v - dv)) dv k = sampleSpeed rd v dv (k + 1) := by
  induction k with
  | zero => rfl
  | succ k ih => simp only [sampleSpeed] at ih ⊢; rw [ih]

/-! ## Exact operations -/

/-- **C101**  With exact operations the sampled average is that of C63. -/
theorem C101_exact_operations (allowed : Bool) (c0 c1 : XSec) (vmax dv mu : ℝ) (fuel : ℕ) :
    mkAveragedR id (fun t =>
      let co := setCoeffs allowed t.reverse
      if co.C = 0 then none else some fun v => extrapF (v ^ 2 - co.v02) co.C co.a co.b) c0 c1 vmax dv mu fuel =
    mkAveraged allowed c0 c1 vmax dv mu fuel := by
  have h : ∀ v, avgSigmaR id c0.sigma c1.sigma v = avgSigma c0.sigma c1.sigma v := by
    intro v
    have := congrArg (fun x : XSec => x.sigma v) (C100_exact_operations.2.2.2.1 c0 c1)
    exact this
  have hl : ∀ fuel v t, sampleLoopR id c0.sigma c1.sigma dv fuel v t = sampleLoop c0.sigma c1.sigma dv fuel v t := by
    intro fuel
    induction fuel with
    | zero => intro v t; rfl
    | succ fuel ih =>
      intro v t
      unfold sampleLoopR sampleLoop
      rw [h]
      rcases avgSigma c0.sigma c1.sigma v with x | s
      · rfl
      · simp only [ih, id]
  unfold mkAveragedR mkAveraged
  rw [hl]
  simp only [id]
  rcases sampleLoop c0.sigma c1.sigma dv fuel (vmax + 1 / 2 * dv) [] with _ | _ | t
  · rfl
  · rfl
  · simp only [C100_exact_operations.2.2.2.2]

/-! ## Steps -/

/-- With a step that is not too small each sample is at least half a step below the one before, and at most one and a
half. -/
private theorem step_bounds (hp : 0 < p) {v dv : ℝ} (hv : 0 < v) (hdv : 0 < dv) (h : 2 * unitError p * v ≤ dv) :
    R.rd (v - dv) ≤ v - dv / 2 ∧ v - 3 / 2 * dv ≤ R.rd (v - dv) := by
  have hu := unitError_le_half hp
  have hu0 := unitError_pos (p := p)
  have he := R.error (v - dv)
  rw [← unitError] at he
  have hb : unitError p * |v - dv| ≤ dv / 2 := by
    rcases le_total v dv with hle | hle
    · rw [abs_of_nonpos (by linarith)]
      nlinarith
    · rw [abs_of_nonneg (by linarith)]
      nlinarith
  obtain ⟨h1, h2⟩ := abs_le.1 (he.trans hb)
  constructor <;> linarith

private theorem speeds_nonpos {v dv : ℝ} (hdv : 0 < dv) {j k : ℕ} (hjk : j ≤ k) (h : sampleSpeed R.rd v dv j ≤ 0) :
    sampleSpeed R.rd v dv k ≤ 0 := by
  induction k, hjk using Nat.le_induction with
  | base => exact h
  | succ k _ ih =>
    show R.rd _ ≤ 0
    have := R.mono (show sampleSpeed R.rd v dv k - dv ≤ 0 by linarith)
    rwa [R.rd_zero] at this

private theorem run (hp : 0 < p) {s0 s1 : ℝ → Except XErr ℝ} {f : ℝ → ℝ} {dv : ℝ} (hdv : 0 < dv)
    (hf : ∀ v, 0 < v → avgSigmaR R.rd s0 s1 v = .ok (f v)) (n : ℕ) : ∀ (v : ℝ) (t : XTable), Increasing t →
    (∀ e ∈ t, v < e.1) → 2 * unitError p * v ≤ dv → v ≤ n * (dv / 2) →
    ∃ u : XTable, (∀ fuel, n < fuel → sampleLoopR R.rd s0 s1 dv fuel v t = some (.ok (u ++ t))) ∧ Increasing (u ++ t) ∧
      (∀ d, d ∈ u ↔ ∃ k, d.1 = sampleSpeed R.rd v dv k ∧ 0 < d.1 ∧ d.2 = f d.1) ∧
      List.IsChain (fun a b => a.1 = R.rd (b.1 - dv)) u ∧ (∀ d ∈ u.head?, d.1 ≤ dv) ∧
      (0 < v → u.getLast? = some (v, f v)) := by
  have stop : ∀ (v : ℝ) (t : XTable) (n : ℕ), v ≤ 0 → Increasing t →
      ∃ u : XTable, (∀ fuel, n < fuel → sampleLoopR R.rd s0 s1 dv fuel v t = some (.ok (u ++ t))) ∧ Increasing (u ++ t) ∧
      (∀ d, d ∈ u ↔ ∃ k, d.1 = sampleSpeed R.rd v dv k ∧ 0 < d.1 ∧ d.2 = f d.1) ∧
      List.IsChain (fun a b => a.1 = R.rd (b.1 - dv)) u ∧ (∀ d ∈ u.head?, d.1 ≤ dv) ∧
      (0 < v → u.getLast? = some (v, f v)) := by
    intro v t n hv ht
    refine ⟨[], fun fuel hfuel => ?_, by simpa using ht, fun d => ?_, by simp, by simp, fun h => absurd h (not_lt.2 hv)⟩
    · obtain ⟨m, rfl⟩ : ∃ m, fuel = m + 1 := ⟨fuel - 1, by omega⟩
      unfold sampleLoopR
      rw [if_neg (not_lt.2 hv)]; rfl
    · simp only [List.not_mem_nil, false_iff, not_exists, not_and]
      intro k hk hpos
      have := speeds_nonpos R hdv (Nat.zero_le k) (show sampleSpeed R.rd v dv 0 ≤ 0 from hv)
      linarith
  induction n with
  | zero =>
    intro v t ht _ _ hle
    exact stop v t 0 (by simpa using hle) ht
  | succ n ih =>
    intro v t ht hlt hu hle
    rcases le_or_gt v 0 with hv | hv
    · exact stop v t _ hv ht
    obtain ⟨b1, b2⟩ := step_bounds R hp hv hdv hu
    have hins : XTable.insert t (v, f v) = (v, f v) :: t :=
      insert_front t (v, f v) fun e he => hlt e (List.mem_of_mem_head? he)
    have hu0 := unitError_pos (p := p)
    obtain ⟨u, h1, h2, h3, h4, h5, h6⟩ := ih (R.rd (v - dv)) ((v, f v) :: t)
      (List.pairwise_cons.2 ⟨fun e he => hlt e he, ht⟩)
      (fun e he => by
        rcases List.mem_cons.1 he with rfl | he
        · show _ < v; linarith
        · have := hlt e he; linarith)
      (by nlinarith) (by push_cast at hle; linarith)
    refine ⟨u ++ [(v, f v)], fun fuel hfuel => ?_, by simpa using h2, fun d => ?_, ?_, ?_, fun _ => by simp⟩
    · obtain ⟨m, rfl⟩ : ∃ m, fuel = m + 1 := ⟨fuel - 1, by omega⟩
      unfold sampleLoopR
      rw [if_pos hv, hf v hv]
      show sampleLoopR R.rd s0 s1 dv m (R.rd (v - dv)) (XTable.insert t (v, f v)) = _
      rw [hins, h1 m (by omega)]
      simp
    · rw [List.mem_append, List.mem_singleton, h3]
      constructor
      · rintro (⟨k, e1, e2, e3⟩ | rfl)
        · exact ⟨k + 1, by rw [e1, sampleSpeed_shift], e2, e3⟩
        · exact ⟨0, rfl, hv, rfl⟩
      · rintro ⟨k, e1, e2, e3⟩
        cases k with
        | zero => exact .inr (Prod.ext e1 (by rw [e3, e1]; rfl))
        | succ k => exact .inl ⟨k, by rw [e1, sampleSpeed_shift], e2, e3⟩
    · rw [List.isChain_append]
      refine ⟨h4, by simp, fun a ha b hb => ?_⟩
      simp only [List.head?_cons, Option.mem_def, Option.some.injEq] at hb
      subst hb
      by_cases hw : 0 < R.rd (v - dv)
      · rw [h6 hw] at ha
        simp only [Option.mem_def, Option.some.injEq] at ha
        rw [← ha]
      · exfalso
        obtain ⟨k, e1, e2, -⟩ := (h3 a).1 (List.mem_of_getLast? ha)
        have := speeds_nonpos R hdv (Nat.zero_le k) (show sampleSpeed R.rd (R.rd (v - dv)) dv 0 ≤ 0 from not_lt.1 hw)
        linarith
    · intro d hd
      rcases u with _ | ⟨a, u⟩
      · simp only [List.nil_append, List.head?_cons, Option.mem_def, Option.some.injEq] at hd
        subst hd
        show v ≤ dv
        by_contra hc
        have hw : 0 < R.rd (v - dv) := R.pos hp (by linarith [not_le.1 hc])
        simpa using h6 hw
      · exact h5 d (by simpa using hd)

/-- A positive sample is where it would be without rounding, up to one rounding for each step. -/
private theorem drift {v dv : ℝ} (hv : v ∈ FP p) (hdv : 0 < dv) (k : ℕ) (hk : 0 < sampleSpeed R.rd v dv k) :
    |sampleSpeed R.rd v dv k - (v - k * dv)| ≤ k * (unitError p * v) := by
  have hu0 := unitError_pos (p := p)
  have main : ∀ k, sampleSpeed R.rd v dv k ∈ FP p ∧ sampleSpeed R.rd v dv k ≤ v := by
    intro k
    induction k with
    | zero => exact ⟨hv, le_rfl⟩
    | succ k ih => exact ⟨R.mem _, (R.le_of_le ih.1 (by linarith)).trans ih.2⟩
  induction k with
  | zero => simp [sampleSpeed]
  | succ k ih =>
    have hk' : 0 < sampleSpeed R.rd v dv k - dv := by
      by_contra hc
      have := R.mono (not_lt.1 hc)
      rw [R.rd_zero] at this
      exact absurd hk (not_lt.2 this)
    have i := abs_le.1 (ih (by linarith))
    have he := R.error (sampleSpeed R.rd v dv k - dv)
    rw [← unitError, abs_of_pos hk'] at he
    have hb : unitError p * (sampleSpeed R.rd v dv k - dv) ≤ unitError p * v :=
      mul_le_mul_of_nonneg_left (by linarith [(main k).2]) hu0.le
    have e := abs_le.1 (he.trans hb)
    show |R.rd (sampleSpeed R.rd v dv k - dv) - _| ≤ _
    rw [abs_le]
    push_cast
    constructor <;> linarith [i.1, i.2, e.1, e.2]

private theorem start_bounds {vmax dv : ℝ} (hv : 0 < vmax) (hvm : vmax ∈ FP p) (hdv : 0 < dv) (hdm : dv ∈ FP p) :
    vmax ≤ R.rd (vmax + R.rd (1 / 2 * dv)) ∧
    |R.rd (vmax + R.rd (1 / 2 * dv)) - (vmax + dv / 2)| ≤ unitError p * (vmax + dv / 2) := by
  have hh : R.rd (1 / 2 * dv) = dv / 2 := by
    have : (1 / 2 * dv : ℝ) = dv * (2 : ℝ) ^ (-1 : ℤ) := by norm_num; ring
    rw [this, R.rd_of_mem (fp_scale hdm (-1))]
    norm_num; ring
  rw [hh]
  refine ⟨R.ge_of_ge hvm (by linarith), ?_⟩
  have := R.error (vmax + dv / 2)
  rwa [← unitError, abs_of_pos (show 0 < vmax + dv / 2 by positivity)] at this

/-- **C101**  Unless the step is tiny, the loop ends within `4 vmax / dv + 4` rounds.  The samples are positive, in
increasing order, half a step to one and a half apart, the first is at most `dv` and the last at least `vmax`.  Sample `k`
from the top is where it would be without rounding, up to `k + 1` roundings, and its value is the average at its own speed
up to six. -/
theorem C101_samples (hp : 3 ≤ p) {c0 c1 : XSec} {f0 f1 : ℝ → ℝ} {vmax dv : ℝ} (hv : 0 < vmax) (hvm : vmax ∈ FP p)
    (hdv : 0 < dv) (hdm : dv ∈ FP p) (hstep : 4 * vmax ≤ 2 ^ p * dv)
    (h0 : ∀ v, 0 < v → c0.sigma v = .ok (f0 v) ∧ 0 ≤ f0 v)
    (h1 : ∀ v, 0 < v → c1.sigma v = .ok (f1 v) ∧ 0 ≤ f1 v) :
    ∃ t : XTable, (∀ fuel : ℕ, 4 * vmax / dv + 4 ≤ fuel → ∀ ext mu,
        mkAveragedR R.rd ext c0 c1 vmax dv mu fuel = some (mkDataR R.rd ext mu t)) ∧
      Increasing t ∧
      (∀ d ∈ t, 0 < d.1 ∧ 0 ≤ d.2 ∧ |d.2 - ((Real.sqrt (f0 d.1) + Real.sqrt (f1 d.1)) / 2) ^ 2| ≤
        (growth p 6 - 1) * ((Real.sqrt (f0 d.1) + Real.sqrt (f1 d.1)) / 2) ^ 2) ∧
      (∀ d ∈ t, ∃ k : ℕ, |d.1 - (vmax + dv / 2 - k * dv)| ≤
        (k + 1) * (unitError p * (1 + unitError p) * (vmax + dv / 2))) ∧
      (∀ l1 a b l2, t = l1 ++ a :: b :: l2 → dv / 2 ≤ b.1 - a.1 ∧ b.1 - a.1 ≤ 3 / 2 * dv) ∧
      (∃ d ∈ t.head?, d.1 ≤ dv) ∧ ∃ d ∈ t.getLast?, vmax ≤ d.1 := by
  have hp0 : 0 < p := by omega
  have hu0 := unitError_pos (p := p)
  have hu8 : unitError p ≤ 1 / 8 := by
    unfold unitError
    calc (2 : ℝ) ^ (-(p : ℤ)) ≤ 2 ^ (-3 : ℤ) := zpow_le_zpow_right₀ (by norm_num) (by omega)
      _ = 1 / 8 := by norm_num
  have hup : unitError p * 2 ^ p = 1 := by
    unfold unitError
    rw [zpow_neg, zpow_natCast, inv_mul_cancel₀ (by positivity)]
  have h4 : 4 * (unitError p * vmax) ≤ dv := by
    have := mul_le_mul_of_nonneg_left hstep hu0.le
    rw [← mul_assoc, ← mul_assoc, hup, one_mul] at this
    linarith
  obtain ⟨a1, a2⟩ := start_bounds R hv hvm hdv hdm
  set v := R.rd (vmax + R.rd (1 / 2 * dv)) with hvdef
  have hvFP : v ∈ FP p := R.mem _
  have hvpos : 0 < v := hv.trans_le a1
  have hvle : v ≤ (1 + unitError p) * (vmax + dv / 2) := by linarith [(abs_le.1 a2).2]
  have hu : 2 * unitError p * v ≤ dv := by
    calc 2 * unitError p * v ≤ 2 * unitError p * ((1 + unitError p) * (vmax + dv / 2)) :=
          mul_le_mul_of_nonneg_left hvle (by positivity)
      _ = (1 + unitError p) / 2 * (4 * (unitError p * vmax)) + unitError p * (1 + unitError p) * dv := by ring
      _ ≤ (1 + unitError p) / 2 * dv + unitError p * (1 + unitError p) * dv := by gcongr
      _ = ((1 + unitError p) / 2 + unitError p * (1 + unitError p)) * dv := by ring
      _ ≤ 1 * dv := mul_le_mul_of_nonneg_right (by nlinarith) hdv.le
      _ = dv := one_mul _
  -- the values
  have havg : ∀ w : ℝ, ∃ s : ℝ, 0 < w → avgSigmaR R.rd c0.sigma c1.sigma w = .ok s ∧ 0 ≤ s ∧
      |s - ((Real.sqrt (f0 w) + Real.sqrt (f1 w)) / 2) ^ 2| ≤
        (growth p 6 - 1) * ((Real.sqrt (f0 w) + Real.sqrt (f1 w)) / 2) ^ 2 := by
    intro w
    by_cases hw : 0 < w
    · obtain ⟨s, e1, -, e2, e3, -⟩ := C100_average R (h0 w hw).1 (h1 w hw).1 (h0 w hw).2 (h1 w hw).2
      refine ⟨s, fun _ => ⟨e1, ?_, e2⟩⟩
      have hm : 0 ≤ growth p 6 * s := le_trans (le_min (h0 w hw).2 (h1 w hw).2) e3
      exact nonneg_of_mul_nonneg_right hm (growth_pos 6)
    · exact ⟨0, fun h => absurd h hw⟩
  choose f hf using havg
  set n := ⌈2 * v / dv⌉₊ with hn
  have hnv : v ≤ n * (dv / 2) := by
    have := Nat.le_ceil (2 * v / dv)
    rw [div_le_iff₀ hdv] at this
    linarith
  obtain ⟨t, r1, r2, r3, r4, r5, r6⟩ := run R hp0 hdv (fun w hw => (hf w hw).1) n v [] (by simp [Increasing]) (by simp) hu hnv
  rw [List.append_nil] at r2
  have hmem : ∀ d ∈ t, 0 < d.1 ∧ d.2 = f d.1 := by
    intro d hd
    obtain ⟨k, -, e2, e3⟩ := (r3 d).1 hd
    exact ⟨e2, e3⟩
  have hlt : ∀ d ∈ t, d.1 ≤ v := by
    intro d hd
    obtain ⟨k, e1, -, -⟩ := (r3 d).1 hd
    have : ∀ k, sampleSpeed R.rd v dv k ∈ FP p ∧ sampleSpeed R.rd v dv k ≤ v := by
      intro k
      induction k with
      | zero => exact ⟨hvFP, le_rfl⟩
      | succ k ih => exact ⟨R.mem _, (R.le_of_le ih.1 (by linarith)).trans ih.2⟩
    rw [e1]; exact (this k).2
  refine ⟨t, fun fuel hfuel ext mu => ?_, r2, fun d hd => ?_, fun d hd => ?_, ?_, ?_, ⟨_, r6 hvpos, a1⟩⟩
  · unfold mkAveragedR
    rw [← hvdef, r1 fuel ?_, List.append_nil]
    have hc : (n : ℝ) < 2 * v / dv + 1 := Nat.ceil_lt_add_one (by positivity)
    have hb : 2 * v / dv ≤ 4 * vmax / dv + 2 := by
      rw [div_le_iff₀ hdv, add_mul, div_mul_cancel₀ _ hdv.ne']
      nlinarith
    have : (n : ℝ) < fuel := by linarith
    exact_mod_cast this
  · obtain ⟨e1, e2⟩ := hmem d hd
    rw [e2]
    exact ⟨e1, (hf d.1 e1).2⟩
  · obtain ⟨k, e1, e2, -⟩ := (r3 d).1 hd
    refine ⟨k, ?_⟩
    rw [e1] at e2 ⊢
    have d1 := abs_le.1 (drift R hvFP hdv k e2)
    have d2 := abs_le.1 a2
    have d3 : k * (unitError p * v) ≤ k * (unitError p * ((1 + unitError p) * (vmax + dv / 2))) := by gcongr
    have d4 : unitError p * (vmax + dv / 2) ≤ unitError p * (1 + unitError p) * (vmax + dv / 2) :=
      mul_le_mul_of_nonneg_right (by nlinarith) (by positivity)
    rw [abs_le]
    constructor <;> linarith [d1.1, d1.2, d2.1, d2.2]
  · rintro l1 a b l2 rfl
    have hab := (List.isChain_append_cons_cons.1 r4).2.1
    have hbm : b ∈ l1 ++ a :: b :: l2 := by simp
    obtain ⟨b1, b2⟩ := step_bounds R hp0 (hmem b hbm).1 hdv
      (le_trans (mul_le_mul_of_nonneg_left (hlt b hbm) (by positivity)) hu)
    rw [← hab] at b1 b2
    constructor <;> linarith
  · rcases t with _ | ⟨d, t⟩
    · simpa using r6 hvpos
    · exact ⟨d, by simp, r5 d (by simp)⟩

/-- **C101**  If the step is tiny compared to `vmax`, subtracting it changes nothing and the construction never ends. -/
theorem C101_endless (hp : 0 < p) {c0 c1 : XSec} {f0 f1 : ℝ → ℝ} {vmax dv : ℝ} (hvm : vmax ∈ FP p)
    (hdv : 0 < dv) (htiny : 2 ^ (p + 1) * dv < vmax)
    (h0 : ∀ v, 0 < v → c0.sigma v = .ok (f0 v) ∧ 0 ≤ f0 v)
    (h1 : ∀ v, 0 < v → c1.sigma v = .ok (f1 v) ∧ 0 ≤ f1 v) (ext : XTable → Option (ℝ → ℝ)) (mu : ℝ) (fuel : ℕ) :
    mkAveragedR R.rd ext c0 c1 vmax dv mu fuel = none := by
  have hv : 0 < vmax := lt_of_le_of_lt (by positivity) htiny
  have a1 : vmax ≤ R.rd (vmax + R.rd (1 / 2 * dv)) :=
    R.ge_of_ge hvm (by linarith [R.nonneg (show 0 ≤ 1 / 2 * dv by positivity)])
  set v := R.rd (vmax + R.rd (1 / 2 * dv)) with hvdef
  have hvpos : 0 < v := hv.trans_le a1
  have hstuck : R.rd (v - dv) = v := by
    obtain ⟨M, k, m1, m2, m3⟩ := fp_normal (R.mem (vmax + R.rd (1 / 2 * dv))) hvpos
    rw [← hvdef] at m3
    rw [m3]
    refine R.rd_eq hp m1 m2 ?_
    have hk : (0 : ℝ) < 2 ^ k := by positivity
    have hM : (M : ℝ) ≤ 2 ^ p := by exact_mod_cast m2
    rw [sub_sub_cancel_left, abs_neg, abs_of_pos hdv]
    have h2 : 2 ^ (p + 1) * dv < 2 ^ p * (2 : ℝ) ^ k := by
      calc 2 ^ (p + 1) * dv < vmax := htiny
        _ ≤ v := a1
        _ = M * 2 ^ k := m3
        _ ≤ 2 ^ p * 2 ^ k := mul_le_mul_of_nonneg_right hM hk.le
    rw [pow_succ, mul_assoc] at h2
    have := lt_of_mul_lt_mul_left h2 (by positivity)
    linarith
  have loop : ∀ (fuel : ℕ) (t : XTable), sampleLoopR R.rd c0.sigma c1.sigma dv fuel v t = none := by
    intro fuel
    induction fuel with
    | zero => intro t; rfl
    | succ fuel ih =>
      intro t
      obtain ⟨s, e1, -⟩ := C100_average R (h0 v hvpos).1 (h1 v hvpos).1 (h0 v hvpos).2 (h1 v hvpos).2
      have e1 : avgSigmaR R.rd c0.sigma c1.sigma v = .ok s := e1
      unfold sampleLoopR
      rw [if_pos hvpos, e1]
      show sampleLoopR R.rd c0.sigma c1.sigma dv fuel (R.rd (v - dv)) _ = none
      rw [hstuck]
      exact ih _
  unfold mkAveragedR
  rw [← hvdef, loop]

/-- **C101**  A component that cannot be evaluated at the first sample, at or above `vmax`, stops the construction with its
error. -/
theorem C101_failure {c0 c1 : XSec} {vmax dv : ℝ} (hv : 0 < vmax) (hvm : vmax ∈ FP p) (hdv : 0 < dv) {x : XErr}
    (h : ∀ v, vmax ≤ v → c0.sigma v = .error x) (ext : XTable → Option (ℝ → ℝ)) (mu : ℝ) (fuel : ℕ) (hf : 0 < fuel) :
    mkAveragedR R.rd ext c0 c1 vmax dv mu fuel = some (.error x) := by
  have a1 : vmax ≤ R.rd (vmax + R.rd (1 / 2 * dv)) :=
    R.ge_of_ge hvm (by linarith [R.nonneg (show 0 ≤ 1 / 2 * dv by positivity)])
  obtain ⟨m, rfl⟩ : ∃ m, fuel = m + 1 := ⟨fuel - 1, by omega⟩
  have e : avgSigmaR R.rd c0.sigma c1.sigma (R.rd (vmax + R.rd (1 / 2 * dv))) = .error x := by
    simp only [avgSigmaR, h _ a1, bind, Except.bind]
  unfold mkAveragedR sampleLoopR
  rw [if_pos (hv.trans_le a1), e]

/-! ## Cases -/

private theorem constant_all (c : ℝ) (hc : 0 ≤ c) :
    ∃ x, mkConstantR R.rd c 2 0 = .ok x ∧ ∀ v, 0 < v → x.sigma v = .ok c ∧ 0 ≤ c := by
  have ht : thresholdVR R.rd 0 2 = 0 := by simp [thresholdVR, R.rd_zero]
  refine ⟨_, by unfold mkConstantR setThresholdR; rw [if_neg (lt_irrefl 0)], fun v h => ⟨?_, hc⟩⟩
  show Except.ok (if v ≥ thresholdVR R.rd 0 2 then c else 0) = _
  rw [ht, if_pos h.le]

/-- In `double`, two constants sampled up to 10 with the step 3. -/
example (R : Rounding 53) : ∃ x y, mkConstantR R.rd 1 2 0 = .ok x ∧ mkConstantR R.rd 9 2 0 = .ok y ∧
    ∃ t : XTable, Increasing t ∧ (∃ d ∈ t.head?, d.1 ≤ 3) ∧ (∃ d ∈ t.getLast?, 10 ≤ d.1) ∧
      ∃ fuel, mkAveragedR R.rd (fun _ => none) x y 10 3 2 fuel = some (mkDataR R.rd (fun _ => none) 2 t) := by
  obtain ⟨x, hx, sx⟩ := constant_all R 1 (by norm_num)
  obtain ⟨y, hy, sy⟩ := constant_all R 9 (by norm_num)
  obtain ⟨t, t1, t2, -, -, -, t3, t4⟩ := C101_samples R (by norm_num) (c0 := x) (c1 := y) (f0 := fun _ => 1) (f1 := fun _ => 9)
    (vmax := 10) (dv := 3) (by norm_num) (by exact_mod_cast fp_nat (p := 53) (n := 10) (by norm_num)) (by norm_num)
    (by exact_mod_cast fp_nat (p := 53) (n := 3) (by norm_num)) (by norm_num) sx sy
  exact ⟨x, y, hx, hy, t, t2, t3, t4, 18, t1 18 (by norm_num) _ _⟩

/-- In `double`, the speed of light sampled in steps of `2^-30` never ends. -/
example (R : Rounding 53) (fuel : ℕ) : ∃ x, mkConstantR R.rd 1 2 0 = .ok x ∧
    mkAveragedR R.rd (fun _ => none) x x 299792458 (2 ^ (-30 : ℤ)) 2 fuel = none := by
  obtain ⟨x, hx, sx⟩ := constant_all R 1 (by norm_num)
  exact ⟨x, hx, C101_endless R (by norm_num) (f0 := fun _ => 1) (f1 := fun _ => 1)
    (by exact_mod_cast fp_nat (p := 53) (n := 299792458) (by norm_num)) (by positivity) (by norm_num) sx sx _ _ _⟩

end Chimp
