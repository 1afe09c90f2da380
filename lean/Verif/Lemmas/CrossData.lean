import Verif.Lemmas.CrossSection
import Mathlib.Data.List.Pairwise
import Mathlib.Tactic.NormNum
import Mathlib.Tactic.Linarith
import Mathlib.Analysis.Complex.ExponentialBounds

/-!
# Lemmas on tabulated cross sections
-/

namespace Chimp

/-- Strictly increasing speeds. -/
def Increasing (t : XTable) : Prop := t.Pairwise fun a b => a.1 < b.1

theorem takeWhile_split {t1 t2 : XTable} {v : ℝ} (h1 : ∀ d ∈ t1, d.1 < v) (h2 : ∀ d ∈ t2.head?, v ≤ d.1) :
    belowOf (t1 ++ t2) v = t1 ∧ aboveOf (t1 ++ t2) v = t2 := by
  unfold belowOf aboveOf
  induction t1 with
  | nil =>
    cases t2 with
    | nil => simp
    | cons d l =>
      have : v ≤ d.1 := h2 d (by simp)
      simp [this]
  | cons a l ih =>
    have ha : a.1 < v := h1 a (by simp)
    have := ih fun d hd => h1 d (by simp [hd])
    simp [ha, this.1, this.2]

/-- Inside a segment the lever rule applies. -/
theorem dataSigma_segment {l1 l2 : XTable} {i f : ℝ × ℝ} (h : Increasing (l1 ++ i :: f :: l2)) (co : Coeffs)
    {v : ℝ} (h1 : i.1 < v) (h2 : v ≤ f.1) : dataSigma (l1 ++ i :: f :: l2) co v = .ok (lever i f v) := by
  have hs : l1 ++ i :: f :: l2 = (l1 ++ [i]) ++ (f :: l2) := by simp
  have hall : ∀ d ∈ l1 ++ [i], d.1 < v := by
    intro d hd
    rw [Increasing, List.pairwise_append] at h
    rw [List.mem_append, List.mem_singleton] at hd
    rcases hd with hd | rfl
    · exact (h.2.2 d hd i (by simp)).trans h1
    · exact h1
  obtain ⟨e1, e2⟩ := takeWhile_split (t2 := f :: l2) hall (by simpa using h2)
  unfold dataSigma
  rw [hs, e1, e2]
  simp [evalSplit]

/-- At or before the first speed. -/
theorem dataSigma_first (d : ℝ × ℝ) (l : XTable) (co : Coeffs) {v : ℝ} (h : v ≤ d.1) :
    dataSigma (d :: l) co v = .ok (if d.1 = v then d.2 else 0) := by
  obtain ⟨e1, e2⟩ := takeWhile_split (t1 := []) (t2 := d :: l) (v := v) (by simp) (by simpa using h)
  rw [List.nil_append] at e1 e2
  unfold dataSigma
  rw [e1, e2]
  simp [evalSplit]

/-- Beyond the last speed. -/
theorem dataSigma_beyond {l : XTable} {d : ℝ × ℝ} (h : Increasing (l ++ [d])) (co : Coeffs) {v : ℝ}
    (hv : d.1 < v) : dataSigma (l ++ [d]) co v =
      if d.2 = 0 then .ok 0 else if co.C = 0 then .error .outOfRange
        else .ok (extrapF (v ^ 2 - co.v02) co.C co.a co.b) := by
  have hall : ∀ e ∈ l ++ [d], e.1 < v := by
    intro e he
    rw [Increasing, List.pairwise_append] at h
    rw [List.mem_append, List.mem_singleton] at he
    rcases he with he | rfl
    · exact (h.2.2 e he d (by simp)).trans hv
    · exact hv
  obtain ⟨e1, e2⟩ := takeWhile_split (t2 := []) hall (by simp)
  rw [List.append_nil] at e1 e2
  unfold dataSigma
  rw [e1, e2]
  simp [evalSplit]

theorem lever_left (i f : ℝ × ℝ) (h : i.1 < f.1) : lever i f i.1 = i.2 := by
  have : f.1 - i.1 ≠ 0 := sub_ne_zero.2 h.ne'
  unfold lever; field_simp; ring

theorem lever_right (i f : ℝ × ℝ) (h : i.1 < f.1) : lever i f f.1 = f.2 := by
  have : f.1 - i.1 ≠ 0 := sub_ne_zero.2 h.ne'
  unfold lever; field_simp; ring

theorem lever_eq (i f : ℝ × ℝ) (h : i.1 < f.1) (v : ℝ) :
    lever i f v = i.2 + (f.2 - i.2) / (f.1 - i.1) * (v - i.1) := by
  have : f.1 - i.1 ≠ 0 := sub_ne_zero.2 h.ne'
  unfold lever; field_simp; ring

/-- At a table speed. -/
theorem dataSigma_point {t : XTable} (h : Increasing t) (co : Coeffs) {d : ℝ × ℝ} (hd : d ∈ t) :
    dataSigma t co d.1 = .ok d.2 := by
  obtain ⟨l1, l2, rfl⟩ := List.append_of_mem hd
  rcases List.eq_nil_or_concat l1 with rfl | ⟨l, i, rfl⟩
  · rw [List.nil_append, dataSigma_first _ _ _ le_rfl]; simp
  · have hs : (l ++ [i]) ++ d :: l2 = l ++ i :: d :: l2 := by simp
    rw [List.concat_eq_append] at h ⊢
    rw [hs] at h ⊢
    have hlt : i.1 < d.1 := by
      have := (List.pairwise_append.1 h).2.1
      rw [List.pairwise_cons] at this
      exact this.1 d (by simp)
    rw [dataSigma_segment h co hlt le_rfl, lever_right _ _ hlt]

/-- Trimming. -/
theorem checkThreshold_eq (zs : XTable) (hz : ∀ d ∈ zs, d.2 = 0) (d : ℝ × ℝ) (hd : d.2 ≠ 0) (l : XTable) :
    checkThreshold (zs ++ d :: l) = .ok (zs.getLast?.toList ++ d :: l) := by
  induction zs with
  | nil =>
    cases l with
    | nil => simp [checkThreshold, hd]
    | cons e l => simp [checkThreshold, hd]
  | cons a zs ih =>
    cases zs with
    | nil => simp [checkThreshold, hd]
    | cons b zs =>
      have ha : a.2 = 0 := hz a (by simp)
      have hb : b.2 = 0 := hz b (by simp)
      have := ih fun e he => hz e (by simp [he])
      simp only [List.cons_append] at this ⊢
      rw [checkThreshold, if_pos ⟨ha, hb⟩, this]
      simp

theorem checkThreshold_zeros (zs : XTable) (hne : zs ≠ []) (hz : ∀ d ∈ zs, d.2 = 0) :
    checkThreshold zs = .error .ub := by
  induction zs with
  | nil => exact absurd rfl hne
  | cons a zs ih =>
    cases zs with
    | nil => simp [checkThreshold, hz a (by simp)]
    | cons b zs =>
      rw [checkThreshold, if_pos ⟨hz a (by simp), hz b (by simp)⟩]
      exact ih (by simp) fun e he => hz e (by simp [he])

/-- Every table is empty, all zeros, or zeros followed by a nonzero value. -/
theorem table_cases (t : XTable) : t = [] ∨ (t ≠ [] ∧ ∀ d ∈ t, d.2 = 0) ∨
    ∃ zs d l, t = zs ++ d :: l ∧ (∀ e ∈ zs, e.2 = 0) ∧ d.2 ≠ 0 := by
  induction t with
  | nil => exact .inl rfl
  | cons a t ih =>
    by_cases ha : a.2 = 0
    · rcases ih with rfl | ⟨hne, hz⟩ | ⟨zs, d, l, rfl, hz, hd⟩
      · exact .inr (.inl ⟨by simp, by simpa using ha⟩)
      · exact .inr (.inl ⟨by simp, by simpa [ha] using fun a b h => hz (a, b) h⟩)
      · refine .inr (.inr ⟨a :: zs, d, l, rfl, ?_, hd⟩)
        intro e he
        rcases List.mem_cons.1 he with rfl | he
        · exact ha
        · exact hz e he
    · exact .inr (.inr ⟨[], a, t, rfl, by simp, ha⟩)

/-- What a successful construction means. -/
theorem mkData_ok {allowed : Bool} {mu : ℝ} {t : XTable} {x : XSec} (h : mkData allowed mu t = .ok x) :
    ∃ zs d l t', t = zs ++ d :: l ∧ (∀ e ∈ zs, e.2 = 0) ∧ d.2 ≠ 0 ∧ t' = zs.getLast?.toList ++ d :: l ∧
      x.sigma = dataSigma t' (setCoeffs allowed t'.reverse) ∧
      x.maxSV = dataMax t' (setCoeffs allowed t'.reverse) ∧
      ∃ d0 ∈ t'.head?, x.thrE = 1 / 2 * mu * d0.1 ^ 2 := by
  unfold mkData at h
  rcases table_cases t with rfl | ⟨hne, hz⟩ | ⟨zs, d, l, rfl, hz, hd⟩
  · simp [checkThreshold] at h
  · rw [checkThreshold_zeros t hne hz] at h; cases h
  · rw [checkThreshold_eq zs hz d hd l] at h
    cases h
    refine ⟨zs, d, l, _, rfl, hz, hd, rfl, rfl, rfl, ?_⟩
    cases h : zs.getLast? with
    | none => exact ⟨d, by simp, by simp⟩
    | some e => exact ⟨e, by simp, by simp⟩

theorem getLast?_toList_suffix (zs : XTable) : ∃ pre, zs = pre ++ zs.getLast?.toList := by
  rcases List.eq_nil_or_concat zs with rfl | ⟨l, a, rfl⟩
  · exact ⟨[], by simp⟩
  · exact ⟨l, by simp⟩

/-- The trimmed table is a suffix of the table and the rest is zero; when something is removed the first value left
is zero. -/
theorem trimmed_suffix (zs : XTable) (hz : ∀ e ∈ zs, e.2 = 0) (d : ℝ × ℝ) (l : XTable) :
    ∃ pre, zs ++ d :: l = pre ++ (zs.getLast?.toList ++ d :: l) ∧ (∀ e ∈ pre, e.2 = 0) ∧
      (pre ≠ [] → ∀ e ∈ (zs.getLast?.toList ++ d :: l).head?, e.2 = 0) := by
  obtain ⟨pre, hpre⟩ := getLast?_toList_suffix zs
  refine ⟨pre, by rw [← List.append_assoc, ← hpre], fun e he => hz e (by rw [hpre]; simp [he]), ?_⟩
  intro hne e he
  cases h : zs.getLast? with
  | none =>
    rw [h] at hpre
    rw [List.getLast?_eq_none_iff] at h
    subst h
    simp only [Option.toList_none, List.append_nil] at hpre
    exact absurd hpre.symm hne
  | some a =>
    rw [h] at he
    simp at he
    subst he
    exact hz _ (List.mem_of_getLast? h)

/-- `log s / s` strictly decreases from e on. -/
theorem log_div_lt {s t : ℝ} (hs : Real.exp 1 ≤ s) (hst : s < t) : Real.log t / t < Real.log s / s := by
  have h0 : 0 < s := (Real.exp_pos 1).trans_le hs
  have h1 : 0 < t := h0.trans hst
  have hl : 1 ≤ Real.log s := by
    rw [← Real.log_exp 1]; exact Real.log_le_log (Real.exp_pos 1) hs
  have hr : Real.log (t / s) < t / s - 1 := Real.log_lt_sub_one_of_pos (by positivity) (by
    intro h; rw [div_eq_one_iff_eq h0.ne'] at h; exact absurd h hst.ne')
  rw [Real.log_div h1.ne' h0.ne'] at hr
  have h2 := mul_lt_mul_of_pos_left hr h0
  have e2 : s * (t / s - 1) = t - s := by field_simp
  rw [e2] at h2
  rw [div_lt_div_iff₀ h1 h0]
  nlinarith

theorem exp_one_lt_30 : Real.exp 1 < 30 := by
  have := Real.exp_one_lt_d9; linarith

theorem one_lt_log30 : 1 < Real.log 30 := by
  rw [Real.lt_log_iff_exp_lt (by norm_num)]; exact exp_one_lt_30

theorem foldl_biStep_ge (C a x s2 : ℝ) (l : List ℝ) (hl : ∀ b ∈ l, Real.exp 1 ≤ b) (st : ℝ × Option ℝ)
    (hst : Real.exp 1 ≤ st.1) : Real.exp 1 ≤ (l.foldl (biStep C a x s2) st).1 := by
  induction l generalizing st with
  | nil => exact hst
  | cons b l ih =>
    apply ih (fun b hb => hl b (by simp [hb]))
    unfold biStep
    have hb := hl b (by simp)
    dsimp only
    split
    · exact hb
    · split
      · exact hb
      · exact hst

theorem biValues_ge : ∀ b ∈ biValues, Real.exp 1 ≤ b := by
  intro b hb
  unfold biValues at hb
  simp only [List.mem_filter, List.mem_map] at hb
  obtain ⟨⟨k, -, rfl⟩, -⟩ := hb
  have : (0 : ℝ) ≤ k / 100 := by positivity
  linarith

/-- The coefficients used beyond the table. -/
theorem getCab_spec {d0 d1 d2 : ℝ × ℝ} (hd1 : 0 < d1.2)
    (hF : (d1.2 - d0.2) / (d1.1 ^ 2 - d0.1 ^ 2) + (d2.2 - d1.2) / (d2.1 ^ 2 - d1.1 ^ 2) < 0) :
    0 < (getCab d0 d1 d2).C ∧ 0 < (getCab d0 d1 d2).a ∧ Real.exp 1 ≤ (getCab d0 d1 d2).b ∧
      (getCab d0 d1 d2).v02 = d1.1 ^ 2 := by
  have h30 := one_lt_log30
  have hn : ¬ (1 / 2 * ((d1.2 - d0.2) / (d1.1 ^ 2 - d0.1 ^ 2) + (d2.2 - d1.2) / (d2.1 ^ 2 - d1.1 ^ 2)) ≥ 0) := by
    intro h; linarith
  have hge := biValues_ge
  unfold getCab
  generalize biValues = L at hge ⊢
  dsimp only
  rw [if_neg hn]
  have hC : 0 < d1.2 / Real.log 30 := by positivity
  refine ⟨hC, ?_, foldl_biStep_ge _ _ _ _ _ hge _ exp_one_lt_30.le, rfl⟩
  apply div_pos_of_neg_of_neg
  · linarith
  · exact mul_neg_of_pos_of_neg hC (by linarith)

theorem getCab_rising {d0 d1 d2 : ℝ × ℝ}
    (hF : 0 ≤ (d1.2 - d0.2) / (d1.1 ^ 2 - d0.1 ^ 2) + (d2.2 - d1.2) / (d2.1 ^ 2 - d1.1 ^ 2)) :
    (getCab d0 d1 d2).C = 0 := by
  unfold getCab
  dsimp only
  rw [if_pos (by linarith)]

/-- Values of the extrapolation. -/
theorem extrapF_spec {C a b x y : ℝ} (hC : 0 < C) (ha : 0 < a) (hb : Real.exp 1 ≤ b) (hx : 0 ≤ x) (hxy : x < y) :
    0 < extrapF x C a b ∧ extrapF y C a b < extrapF x C a b := by
  have hb0 : 0 < b := (Real.exp_pos 1).trans_le hb
  have hax : 0 ≤ a * x := by positivity
  have hlog : 0 < Real.log (a * x + b) := Real.log_pos (by
    have := Real.add_one_lt_exp (one_ne_zero); linarith)
  have hlt : a * x < a * y := mul_lt_mul_of_pos_left hxy ha
  unfold extrapF
  refine ⟨by positivity, ?_⟩
  rw [mul_div_assoc, mul_div_assoc]
  exact mul_lt_mul_of_pos_left (log_div_lt (by linarith) (by linarith)) (by positivity)

/-- The loop over the table. -/
theorem maxLoop_spec (l : XTable) (r : ℝ × ℝ) :
    r.1 ≤ (maxLoop l r).1 ∧ (∀ d ∈ l, d.1 * d.2 ≤ (maxLoop l r).1) ∧
      (maxLoop l r = r ∨ ∃ d ∈ l, maxLoop l r = (d.1 * d.2, d.1)) := by
  induction l generalizing r with
  | nil => exact ⟨le_rfl, by simp, .inl rfl⟩
  | cons a l ih =>
    unfold maxLoop at ih ⊢
    rw [List.foldl_cons]
    by_cases h : r.1 < a.1 * a.2
    · rw [if_pos h]
      obtain ⟨h1, h2, h3⟩ := ih (a.1 * a.2, a.1)
      refine ⟨h.le.trans h1, ?_, ?_⟩
      · intro d hd
        rcases List.mem_cons.1 hd with rfl | hd
        · exact h1
        · exact h2 d hd
      · rcases h3 with h3 | ⟨d, hd, h3⟩
        · exact .inr ⟨a, by simp, h3⟩
        · exact .inr ⟨d, by simp [hd], h3⟩
    · rw [if_neg h]
      obtain ⟨h1, h2, h3⟩ := ih r
      refine ⟨h1, ?_, ?_⟩
      · intro d hd
        rcases List.mem_cons.1 hd with rfl | hd
        · exact (not_lt.1 h).trans h1
        · exact h2 d hd
      · rcases h3 with h3 | ⟨d, hd, h3⟩
        · exact .inl h3
        · exact .inr ⟨d, by simp [hd], h3⟩

theorem mem_belowOf {t : XTable} (h : Increasing t) {d : ℝ × ℝ} {v : ℝ} :
    d ∈ belowOf t v ↔ d ∈ t ∧ d.1 < v := by
  unfold belowOf
  induction t with
  | nil => simp
  | cons a t ih =>
    rw [Increasing, List.pairwise_cons] at h
    have ih := ih h.2
    by_cases ha : a.1 < v
    · simp only [ha, decide_true, List.takeWhile_cons_of_pos, List.mem_cons, ih]
      constructor
      · rintro (rfl | h)
        · exact ⟨.inl rfl, ha⟩
        · exact ⟨.inr h.1, h.2⟩
      · rintro ⟨rfl | h, h'⟩
        · exact .inl rfl
        · exact .inr ⟨h, h'⟩
    · simp only [ha, decide_false, Bool.false_eq_true, not_false_eq_true, List.takeWhile_cons_of_neg,
        List.not_mem_nil, List.mem_cons, false_iff, not_and]
      rintro (rfl | hd)
      · exact ha
      · have := h.1 d hd
        linarith

/-- The reported maximum. -/
theorem dataMax_spec {t : XTable} (h : Increasing t) {co : Coeffs} {vmax M vm : ℝ}
    (hm : dataMax t co vmax = .ok (M, vm)) :
    0 ≤ M ∧ (∀ d ∈ t, d.1 < vmax → d.1 * d.2 ≤ M) ∧
    (∃ s, dataSigma t co vmax = .ok s ∧ vmax * s ≤ M ∧
      ((M = 0 ∧ vm = 0) ∨ (∃ d ∈ t, d.1 < vmax ∧ vm = d.1 ∧ M = d.1 * d.2) ∨ (vm = vmax ∧ M = vmax * s))) := by
  unfold dataMax at hm
  obtain ⟨h1, h2, h3⟩ := maxLoop_spec (belowOf t vmax) (0, 0)
  dsimp only at hm
  cases hs : dataSigma t co vmax with
  | error x => rw [hs] at hm; cases hm
  | ok s =>
    rw [hs] at hm
    dsimp only at hm
    by_cases hlt : (maxLoop (belowOf t vmax) (0, 0)).1 < vmax * s
    · rw [if_pos hlt] at hm
      cases hm
      exact ⟨h1.trans hlt.le, fun d hd hdv => (h2 d ((mem_belowOf h).2 ⟨hd, hdv⟩)).trans hlt.le,
        s, rfl, le_rfl, .inr (.inr ⟨rfl, rfl⟩)⟩
    · rw [if_neg hlt] at hm
      have hm' := Except.ok.inj hm
      rw [hm'] at h1 h2 h3 hlt
      refine ⟨h1, fun d hd hdv => h2 d ((mem_belowOf h).2 ⟨hd, hdv⟩), s, rfl, not_lt.1 hlt, ?_⟩
      rcases h3 with h3 | ⟨d, hd, h3⟩
      · cases h3; exact .inl ⟨rfl, rfl⟩
      · cases h3
        rw [mem_belowOf h] at hd
        exact .inr (.inl ⟨d, hd.1, hd.2, rfl, rfl⟩)

/-- Which segment a speed is in. -/
theorem locate {t : XTable} {v : ℝ} (hne : t ≠ []) :
    (∃ d l, t = d :: l ∧ v ≤ d.1) ∨ (∃ l1 i f l2, t = l1 ++ i :: f :: l2 ∧ i.1 < v ∧ v ≤ f.1) ∨
    (∃ l d, t = l ++ [d] ∧ d.1 < v) := by
  induction t with
  | nil => exact absurd rfl hne
  | cons a t ih =>
    by_cases ha : v ≤ a.1
    · exact .inl ⟨a, t, rfl, ha⟩
    · have ha := not_le.1 ha
      cases t with
      | nil => exact .inr (.inr ⟨[], a, rfl, ha⟩)
      | cons b t =>
        rcases ih (by simp) with ⟨d, l, hd, hv⟩ | ⟨l1, i, f, l2, hl, h1, h2⟩ | ⟨l, d, hl, h1⟩
        · cases hd
          exact .inr (.inl ⟨[], a, b, t, rfl, ha, hv⟩)
        · exact .inr (.inl ⟨a :: l1, i, f, l2, by rw [hl]; rfl, h1, h2⟩)
        · exact .inr (.inr ⟨a :: l, d, by rw [hl]; rfl, h1⟩)

/-! ### Insertion -/

theorem insert_front (t : XTable) (d : ℝ × ℝ) (h : ∀ e ∈ t.head?, d.1 < e.1) : XTable.insert t d = d :: t := by
  cases t with
  | nil => rfl
  | cons a t =>
    have : d.1 < a.1 := h a (by simp)
    simp [XTable.insert, this]

theorem mem_insert {t : XTable} {d e : ℝ × ℝ} (h : e ∈ XTable.insert t d) : e = d ∨ e ∈ t := by
  induction t with
  | nil => simp [XTable.insert] at h; exact .inl h
  | cons a t ih =>
    unfold XTable.insert at h
    split at h
    · rcases List.mem_cons.1 h with h | h
      · exact .inl h
      · exact .inr h
    · split at h
      · rcases List.mem_cons.1 h with h | h
        · exact .inr (by simp [h])
        · rcases ih h with h | h
          · exact .inl h
          · exact .inr (by simp [h])
      · exact .inr h

theorem subset_insert {t : XTable} {d e : ℝ × ℝ} (h : e ∈ t) : e ∈ XTable.insert t d := by
  induction t with
  | nil => simp at h
  | cons a t ih =>
    unfold XTable.insert
    split
    · exact List.mem_cons_of_mem _ h
    · split
      · rcases List.mem_cons.1 h with h | h
        · simp [h]
        · exact List.mem_cons_of_mem _ (ih h)
      · exact h

/-- Afterwards the key is present: with the new value if it was absent. -/
theorem insert_key {t : XTable} (ht : Increasing t) (d : ℝ × ℝ) :
    (∃ e ∈ t, e.1 = d.1) ∧ XTable.insert t d = t ∨
    (∀ e ∈ t, e.1 ≠ d.1) ∧ d ∈ XTable.insert t d := by
  induction t with
  | nil => exact .inr ⟨by simp, by simp [XTable.insert]⟩
  | cons a t ih =>
    rw [Increasing, List.pairwise_cons] at ht
    unfold XTable.insert
    by_cases h1 : d.1 < a.1
    · rw [if_pos h1]
      refine .inr ⟨?_, by simp⟩
      intro e he
      rcases List.mem_cons.1 he with rfl | he
      · exact h1.ne'
      · exact (h1.trans (ht.1 e he)).ne'
    · rw [if_neg h1]
      by_cases h2 : a.1 < d.1
      · rw [if_pos h2]
        rcases ih ht.2 with ⟨⟨e, he, hed⟩, heq⟩ | ⟨hall, hd⟩
        · exact .inl ⟨⟨e, by simp [he], hed⟩, by rw [heq]⟩
        · refine .inr ⟨?_, by simp [hd]⟩
          intro e he
          rcases List.mem_cons.1 he with rfl | he
          · exact h2.ne
          · exact hall e he
      · rw [if_neg h2]
        exact .inl ⟨⟨a, by simp, le_antisymm (not_lt.1 h1) (not_lt.1 h2)⟩, rfl⟩

theorem insert_increasing {t : XTable} (ht : Increasing t) (d : ℝ × ℝ) : Increasing (XTable.insert t d) := by
  induction t with
  | nil => simp [XTable.insert, Increasing]
  | cons a t ih =>
    have ht' := ht
    rw [Increasing, List.pairwise_cons] at ht
    unfold XTable.insert
    by_cases h1 : d.1 < a.1
    · rw [if_pos h1, Increasing, List.pairwise_cons]
      refine ⟨?_, ht'⟩
      intro e he
      rcases List.mem_cons.1 he with rfl | he
      · exact h1
      · exact h1.trans (ht.1 e he)
    · rw [if_neg h1]
      by_cases h2 : a.1 < d.1
      · rw [if_pos h2, Increasing, List.pairwise_cons]
        refine ⟨?_, ih ht.2⟩
        intro e he
        rcases mem_insert he with rfl | he
        · exact h2
        · exact ht.1 e he
      · rw [if_neg h2]; exact ht'

/-! ### Sampling -/

/-- The samples: `v - k dv` for `k < n`, in increasing order. -/
noncomputable def samples (f : ℝ → ℝ) (v dv : ℝ) : ℕ → XTable
  | 0 => []
  | n + 1 => (v - n * dv, f (v - n * dv)) :: samples f v dv n

theorem samples_shift (f : ℝ → ℝ) (v dv : ℝ) (n : ℕ) :
    samples f (v - dv) dv n ++ [(v, f v)] = samples f v dv (n + 1) := by
  induction n with
  | zero => simp [samples]
  | succ n ih =>
    rw [samples, List.cons_append, ih, samples.eq_2 f v dv (n + 1)]
    have : v - dv - n * dv = v - ((n + 1 : ℕ) : ℝ) * dv := by push_cast; ring
    rw [this]

theorem mem_samples {f : ℝ → ℝ} {v dv : ℝ} {n : ℕ} {d : ℝ × ℝ} :
    d ∈ samples f v dv n ↔ ∃ k < n, d = (v - (k : ℕ) * dv, f (v - k * dv)) := by
  induction n with
  | zero => simp [samples]
  | succ n ih =>
    rw [samples, List.mem_cons, ih]
    constructor
    · rintro (h | ⟨k, hk, h⟩)
      · exact ⟨n, by omega, h⟩
      · exact ⟨k, by omega, h⟩
    · rintro ⟨k, hk, h⟩
      rcases Nat.lt_succ_iff_lt_or_eq.1 hk with hk | rfl
      · exact .inr ⟨k, hk, h⟩
      · exact .inl h

theorem samples_increasing {f : ℝ → ℝ} {v dv : ℝ} (hdv : 0 < dv) (n : ℕ) : Increasing (samples f v dv n) := by
  induction n with
  | zero => simp [samples, Increasing]
  | succ n ih =>
    rw [samples, Increasing, List.pairwise_cons]
    refine ⟨?_, ih⟩
    intro d hd
    obtain ⟨k, hk, rfl⟩ := mem_samples.1 hd
    have : (k : ℝ) < n := by exact_mod_cast hk
    show v - n * dv < v - k * dv
    nlinarith

/-- The loop takes exactly the positive samples; `t` holds those already taken. -/
theorem sampleLoop_run {s0 s1 : ℝ → Except XErr ℝ} {f : ℝ → ℝ} {dv : ℝ} (hdv : 0 < dv) (n : ℕ) :
    ∀ (v : ℝ) (t : XTable), (∀ e ∈ t.head?, v < e.1) → v - n * dv ≤ 0 → (∀ k < n, 0 < v - (k : ℕ) * dv) →
      (∀ k < n, avgSigma s0 s1 (v - (k : ℕ) * dv) = .ok (f (v - k * dv))) →
      ∀ fuel, n < fuel → sampleLoop s0 s1 dv fuel v t = some (.ok (samples f v dv n ++ t)) := by
  induction n with
  | zero =>
    intro v t _ hle _ _ fuel hf
    cases fuel with
    | zero => omega
    | succ fuel =>
      have : ¬ v > 0 := by simpa using hle
      simp [sampleLoop, this, samples]
  | succ n ih =>
    intro v t ht hle hpos hval fuel hf
    cases fuel with
    | zero => omega
    | succ fuel =>
      have h0 : v > 0 := by simpa using hpos 0 (by omega)
      have hv0 : avgSigma s0 s1 v = .ok (f v) := by simpa using hval 0 (by omega)
      have hshift : ∀ k : ℕ, v - dv - k * dv = v - ((k + 1 : ℕ) : ℝ) * dv := fun k => by push_cast; ring
      rw [sampleLoop, if_pos h0, hv0]
      dsimp only
      rw [insert_front t (v, f v) ht, ih (v - dv) ((v, f v) :: t) (by simpa using hdv)
        (by rw [hshift]; exact hle) (fun k hk => by rw [hshift]; exact hpos (k + 1) (by omega))
        (fun k hk => by rw [hshift]; exact hval (k + 1) (by omega)) fuel (by omega)]
      rw [← samples_shift]
      simp

/-- The first failing sample stops the construction. -/
theorem sampleLoop_error {s0 s1 : ℝ → Except XErr ℝ} {f : ℝ → ℝ} {dv : ℝ} {x : XErr} (n : ℕ) :
    ∀ (v : ℝ) (t : XTable), (∀ k ≤ n, 0 < v - (k : ℕ) * dv) →
      (∀ k < n, avgSigma s0 s1 (v - (k : ℕ) * dv) = .ok (f (v - k * dv))) →
      avgSigma s0 s1 (v - n * dv) = .error x →
      ∀ fuel, n < fuel → sampleLoop s0 s1 dv fuel v t = some (.error x) := by
  induction n with
  | zero =>
    intro v t hpos _ he fuel hf
    cases fuel with
    | zero => omega
    | succ fuel =>
      have h0 : v > 0 := by simpa using hpos 0 le_rfl
      have : avgSigma s0 s1 v = .error x := by simpa using he
      rw [sampleLoop, if_pos h0, this]
  | succ n ih =>
    intro v t hpos hval he fuel hf
    cases fuel with
    | zero => omega
    | succ fuel =>
      have h0 : v > 0 := by simpa using hpos 0 (by omega)
      have hv0 : avgSigma s0 s1 v = .ok (f v) := by simpa using hval 0 (by omega)
      have hshift : ∀ k : ℕ, v - dv - k * dv = v - ((k + 1 : ℕ) : ℝ) * dv := fun k => by push_cast; ring
      rw [sampleLoop, if_pos h0, hv0]
      exact ih (v - dv) _ (fun k hk => by rw [hshift]; exact hpos (k + 1) (by omega))
        (fun k hk => by rw [hshift]; exact hval (k + 1) (by omega)) (by rw [hshift]; exact he) fuel (by omega)

/-- Without a positive step the loop does not end. -/
theorem sampleLoop_none {s0 s1 : ℝ → Except XErr ℝ} {f : ℝ → ℝ} {dv : ℝ} (hdv : dv ≤ 0)
    (hval : ∀ v, 0 < v → avgSigma s0 s1 v = .ok (f v)) (fuel : ℕ) :
    ∀ (v : ℝ) (t : XTable), 0 < v → sampleLoop s0 s1 dv fuel v t = none := by
  induction fuel with
  | zero => intro v t _; rfl
  | succ fuel ih =>
    intro v t hv
    rw [sampleLoop, if_pos hv, hval v hv]
    exact ih _ _ (by linarith)

end Chimp
