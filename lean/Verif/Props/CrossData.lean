import Verif.Lemmas.CrossData
import Verif.Props.CrossSection

/-!
# Tabulated cross sections: C57 to C60 and C63
-/

namespace Chimp

/-- A constructed table is the given one without some leading zeros. -/
theorem trim_view {allowed : Bool} {mu : ℝ} {t : XTable} {x : XSec} (ht : Increasing t)
    (h : mkData allowed mu t = .ok x) :
    ∃ pre t', t = pre ++ t' ∧ Increasing t' ∧ (∀ e ∈ pre, e.2 = 0) ∧ t' ≠ [] ∧
      (pre ≠ [] → ∀ e ∈ t'.head?, e.2 = 0) ∧
      x.sigma = dataSigma t' (setCoeffs allowed t'.reverse) ∧
      x.maxSV = dataMax t' (setCoeffs allowed t'.reverse) := by
  obtain ⟨zs, d, l, t', rfl, hz, hd, ht', hs, hm, -⟩ := mkData_ok h
  obtain ⟨pre, hpre, hzero, hhead⟩ := trimmed_suffix zs hz d l
  rw [← ht'] at hpre hhead
  refine ⟨pre, t', hpre, ?_, hzero, ?_, hhead, hs, hm⟩
  · rw [hpre] at ht
    exact (List.pairwise_append.1 ht).2.1
  · rw [ht']; simp

/-! ### C57: interpolation -/

/-- **C57**: between two consecutive entries (ends included) the cross section is the straight line through them. -/
theorem C57_linear {allowed : Bool} {mu : ℝ} {l1 l2 : XTable} {i f : ℝ × ℝ} {x : XSec}
    (ht : Increasing (l1 ++ i :: f :: l2)) (h : mkData allowed mu (l1 ++ i :: f :: l2) = .ok x) {v : ℝ}
    (h1 : i.1 ≤ v) (h2 : v ≤ f.1) :
    x.sigma v = .ok (i.2 + (f.2 - i.2) / (f.1 - i.1) * (v - i.1)) := by
  obtain ⟨pre, t', hpre, hinc, hzero, hne, hhead, hs, -⟩ := trim_view ht h
  rw [hs]
  have hif : i.1 < f.1 := by
    have := (List.pairwise_append.1 ht).2.1
    rw [List.pairwise_cons] at this
    exact this.1 f (by simp)
  generalize setCoeffs allowed t'.reverse = co
  rcases List.append_eq_append_iff.1 hpre with ⟨a, ha, hb⟩ | ⟨c, hc, hd⟩
  · -- `pre = l1 ++ a`
    match a, hb with
    | [], hb =>
      rw [List.nil_append] at hb
      subst hb
      rcases h1.eq_or_lt with rfl | h1
      · rw [dataSigma_first _ _ _ le_rfl]; simp
      · rw [← lever_eq i f hif]
        exact dataSigma_segment (l1 := []) hinc co h1 h2
    | [a], hb =>
      rw [List.cons_append, List.nil_append] at hb
      injection hb with e1 e2
      subst e1
      subst e2
      have z1 : i.2 = 0 := hzero i (by rw [ha]; simp)
      have z2 : f.2 = 0 := hhead (by rw [ha]; simp) f (by simp)
      rw [dataSigma_first _ _ _ h2]
      simp [z1, z2]
    | a :: b :: c, hb =>
      rw [List.cons_append, List.cons_append] at hb
      injection hb with e1 e2
      injection e2 with e2 e3
      subst e1
      subst e2
      have z1 : i.2 = 0 := hzero i (by rw [ha]; simp)
      have z2 : f.2 = 0 := hzero f (by rw [ha]; simp)
      cases t' with
      | nil => exact absurd rfl hne
      | cons d t' =>
        have hlt : f.1 < d.1 := by
          rw [hpre, ha] at ht
          exact (List.pairwise_append.1 ht).2.2 f (by simp) d (by simp)
        rw [dataSigma_first _ _ _ (by linarith), if_neg (by linarith)]
        simp [z1, z2]
  · subst hd
    rcases h1.eq_or_lt with rfl | h1
    · rw [dataSigma_point hinc co (d := i) (by simp)]; simp
    · rw [← lever_eq i f hif]
      exact dataSigma_segment hinc co h1 h2

/-- **C57**: at a table speed it is the table value. -/
theorem C57_points {allowed : Bool} {mu : ℝ} {t : XTable} {x : XSec} (ht : Increasing t)
    (h : mkData allowed mu t = .ok x) {d : ℝ × ℝ} (hd : d ∈ t) : x.sigma d.1 = .ok d.2 := by
  obtain ⟨pre, t', hpre, hinc, hzero, hne, hhead, hs, -⟩ := trim_view ht h
  rw [hs]
  rw [hpre] at hd ht
  rcases List.mem_append.1 hd with hd' | hd'
  · cases t' with
    | nil => exact absurd rfl hne
    | cons e t' =>
      have hlt := (List.pairwise_append.1 ht).2.2 d hd' e (by simp)
      rw [dataSigma_first _ _ _ hlt.le, if_neg hlt.ne', hzero d hd']
  · exact dataSigma_point hinc _ hd'

/-- **C57**: below the first speed it is zero. -/
theorem C57_below {allowed : Bool} {mu : ℝ} {d : ℝ × ℝ} {l : XTable} {x : XSec} (ht : Increasing (d :: l))
    (h : mkData allowed mu (d :: l) = .ok x) {v : ℝ} (hv : v < d.1) : x.sigma v = .ok 0 := by
  obtain ⟨pre, t', hpre, hinc, hzero, hne, hhead, hs, -⟩ := trim_view ht h
  rw [hs]
  cases t' with
  | nil => exact absurd rfl hne
  | cons e t' =>
    have hle : d.1 ≤ e.1 := by
      cases pre with
      | nil => cases hpre; exact le_rfl
      | cons a pre =>
        injection hpre with e1 e2
        subst e1
        rw [e2, Increasing, List.pairwise_cons] at ht
        exact (ht.1 e (by simp)).le
    rw [dataSigma_first _ _ _ (by linarith), if_neg (by linarith)]

/-- **C57**: so it lies between the neighbouring values. -/
theorem C57_between {allowed : Bool} {mu : ℝ} {l1 l2 : XTable} {i f : ℝ × ℝ} {x : XSec}
    (ht : Increasing (l1 ++ i :: f :: l2)) (h : mkData allowed mu (l1 ++ i :: f :: l2) = .ok x) {v : ℝ}
    (h1 : i.1 ≤ v) (h2 : v ≤ f.1) : ∃ s, x.sigma v = .ok s ∧ min i.2 f.2 ≤ s ∧ s ≤ max i.2 f.2 := by
  have hif : i.1 < f.1 := by
    have := (List.pairwise_append.1 ht).2.1
    rw [List.pairwise_cons] at this
    exact this.1 f (by simp)
  refine ⟨_, C57_linear ht h h1 h2, ?_⟩
  have hw : 0 ≤ (v - i.1) / (f.1 - i.1) := div_nonneg (by linarith) (by linarith)
  have hw' : (v - i.1) / (f.1 - i.1) ≤ 1 := (div_le_one (by linarith)).2 (by linarith)
  have e : i.2 + (f.2 - i.2) / (f.1 - i.1) * (v - i.1) = i.2 + (f.2 - i.2) * ((v - i.1) / (f.1 - i.1)) := by ring
  rw [e]
  rcases le_total i.2 f.2 with hle | hle
  · rw [min_eq_left hle, max_eq_right hle]
    constructor <;> nlinarith
  · rw [min_eq_right hle, max_eq_left hle]
    constructor <;> nlinarith

/-- **C57**: with nonnegative values it is defined and nonnegative at every speed up to the last one. -/
theorem C57_nonneg {allowed : Bool} {mu : ℝ} {t : XTable} {x : XSec} (ht : Increasing t)
    (h : mkData allowed mu t = .ok x) (hpos : ∀ d ∈ t, 0 ≤ d.2) {v : ℝ} (hv : ∃ d ∈ t, v ≤ d.1) :
    ∃ s, x.sigma v = .ok s ∧ 0 ≤ s := by
  obtain ⟨d, hd, hvd⟩ := hv
  rcases locate (t := t) (v := v) (by rintro rfl; simp at hd) with
    ⟨e, l, rfl, hle⟩ | ⟨l1, i, f, l2, rfl, h1, h2⟩ | ⟨l, e, rfl, hlt⟩
  · rcases hle.eq_or_lt with rfl | hlt
    · exact ⟨e.2, C57_points ht h (by simp), hpos e (by simp)⟩
    · exact ⟨0, C57_below ht h hlt, le_rfl⟩
  · obtain ⟨s, hs, hm, -⟩ := C57_between ht h h1.le h2
    exact ⟨s, hs, le_trans (le_min (hpos i (by simp)) (hpos f (by simp))) hm⟩
  · exfalso
    rcases List.mem_append.1 hd with hd | hd
    · have := (List.pairwise_append.1 ht).2.2 d hd e (by simp)
      linarith
    · rw [List.mem_singleton] at hd
      subst hd
      linarith

/-- **C57**: a table loaded from a document has strictly increasing speeds whatever the order of the rows; each entry
comes from a row, and each row has an entry at its speed.  A row given by an energy stands at the speed with that
kinetic energy. -/
theorem C57_loaded (mu : ℝ) (rows : List RowDoc) :
    Increasing (loadTable mu rows) ∧
    (∀ d ∈ loadTable mu rows, ∃ r ∈ rows, d.2 = r.2 ∧
      d.1 = match r.1 with | .energy e => Real.sqrt (e / (1 / 2 * mu)) | .speed w => w) ∧
    (∀ r ∈ rows, ∃ d ∈ loadTable mu rows,
      d.1 = match r.1 with | .energy e => Real.sqrt (e / (1 / 2 * mu)) | .speed w => w) := by
  unfold loadTable
  have key : ∀ (rows : List RowDoc) (t : XTable), Increasing t →
      Increasing (rows.foldl (fun t r => XTable.insert t
        (match r.1 with | .energy e => Real.sqrt (e / (1 / 2 * mu)) | .speed v => v, r.2)) t) ∧
      (∀ d ∈ t, d ∈ (rows.foldl (fun t r => XTable.insert t
        (match r.1 with | .energy e => Real.sqrt (e / (1 / 2 * mu)) | .speed v => v, r.2)) t)) ∧
      (∀ d ∈ (rows.foldl (fun t r => XTable.insert t
        (match r.1 with | .energy e => Real.sqrt (e / (1 / 2 * mu)) | .speed v => v, r.2)) t), d ∈ t ∨
        ∃ r ∈ rows, d.2 = r.2 ∧
          d.1 = match r.1 with | .energy e => Real.sqrt (e / (1 / 2 * mu)) | .speed w => w) ∧
      (∀ r ∈ rows, ∃ d ∈ (rows.foldl (fun t r => XTable.insert t
        (match r.1 with | .energy e => Real.sqrt (e / (1 / 2 * mu)) | .speed v => v, r.2)) t),
        d.1 = match r.1 with | .energy e => Real.sqrt (e / (1 / 2 * mu)) | .speed w => w) := by
    intro rows
    induction rows with
    | nil => intro t ht; exact ⟨ht, fun d hd => hd, fun d hd => .inl hd, by simp⟩
    | cons r rows ih =>
      intro t ht
      rw [List.foldl_cons]
      generalize hd : ((match r.1 with | .energy e => Real.sqrt (e / (1 / 2 * mu)) | .speed v => v, r.2) : ℝ × ℝ) = d
      have hd1 : d.1 = match r.1 with | .energy e => Real.sqrt (e / (1 / 2 * mu)) | .speed v => v := by rw [← hd]
      have hd2 : d.2 = r.2 := by rw [← hd]
      obtain ⟨i1, i2, i3, i4⟩ := ih (XTable.insert t d) (insert_increasing ht d)
      refine ⟨i1, fun e he => i2 e (subset_insert he), fun e he => ?_, fun r' hr' => ?_⟩
      · rcases i3 e he with h | ⟨r', hr', h⟩
        · rcases mem_insert h with rfl | h
          · exact .inr ⟨r, by simp, hd2, hd1⟩
          · exact .inl h
        · exact .inr ⟨r', by simp [hr'], h⟩
      · rcases List.mem_cons.1 hr' with rfl | hr'
        · rcases insert_key ht d with ⟨⟨e, he, hed⟩, -⟩ | ⟨-, hmem⟩
          · exact ⟨e, i2 e (subset_insert he), by rw [hed, hd1]⟩
          · exact ⟨d, i2 d hmem, hd1⟩
        · exact i4 r' hr'
  obtain ⟨h1, -, h3, h4⟩ := key rows [] (by simp [Increasing])
  refine ⟨h1, fun d hd => ?_, h4⟩
  rcases h3 d hd with h | h
  · simp at h
  · exact h

/-- Example table, with two leading zeros. -/
def exTable : XTable := [(1, 0), (2, 0), (3, 4), (5, 8)]

theorem exTable_inc : Increasing exTable := by
  unfold exTable Increasing
  simp only [List.pairwise_cons, List.mem_cons, List.not_mem_nil, or_false, List.Pairwise.nil, and_true]
  refine ⟨?_, ?_, ?_, ?_⟩
  · rintro a (rfl | rfl | rfl) <;> norm_num
  · rintro a (rfl | rfl) <;> norm_num
  · rintro a rfl; norm_num
  · rintro a h; exact absurd h (by simp)

theorem exTable_ok : ∃ x, mkData false 2 exTable = .ok x := by
  have := checkThreshold_eq [(1, 0), (2, 0)] (by simp) (3, 4) (by norm_num) [(5, 8)]
  unfold mkData exTable
  rw [show ([(1, 0), (2, 0), (3, 4), (5, 8)] : XTable) = [(1, 0), (2, 0)] ++ (3, 4) :: [(5, 8)] from rfl, this]
  exact ⟨_, rfl⟩

/-- Non-vacuity: at 4 the value is 6. -/
example : ∃ x, mkData false 2 exTable = .ok x ∧ x.sigma 4 = .ok 6 ∧ x.sigma 1 = .ok 0 := by
  obtain ⟨x, hx⟩ := exTable_ok
  refine ⟨x, hx, ?_, C57_points exTable_inc hx (d := (1, 0)) (by simp [exTable])⟩
  have := C57_linear (l1 := [(1, 0), (2, 0)]) (i := (3, 4)) (f := (5, 8)) (l2 := []) exTable_inc hx (v := 4)
    (by norm_num) (by norm_num)
  rw [this]; norm_num

/-! ### C58: the reported maximum -/

/-- **C58**: the reported value is at least the product at every table speed below `vmax` and at `vmax`, and not
negative. -/
theorem C58_points {allowed : Bool} {mu : ℝ} {t : XTable} {x : XSec} (ht : Increasing t)
    (h : mkData allowed mu t = .ok x) {vmax M vm : ℝ} (hm : x.maxSV vmax = .ok (M, vm)) :
    0 ≤ M ∧ (∀ d ∈ t, d.1 < vmax → d.2 * d.1 ≤ M) ∧ ∃ s, x.sigma vmax = .ok s ∧ s * vmax ≤ M := by
  obtain ⟨pre, t', hpre, hinc, hzero, hne, hhead, hs, hmm⟩ := trim_view ht h
  rw [hmm] at hm
  obtain ⟨h0, h1, s, h2, h3, -⟩ := dataMax_spec hinc hm
  refine ⟨h0, fun d hd hlt => ?_, s, by rw [hs, h2], by linarith⟩
  rw [hpre] at hd
  rcases List.mem_append.1 hd with hd | hd
  · rw [hzero d hd, zero_mul]; exact h0
  · have := h1 d hd hlt; linarith

/-- **C58**: it is reported whenever `vmax` is not beyond the table, and for nonnegative speeds it is attained. -/
theorem C58_attained {allowed : Bool} {mu : ℝ} {t : XTable} {x : XSec} (ht : Increasing t)
    (h : mkData allowed mu t = .ok x) (hsp : ∀ d ∈ t, 0 ≤ d.1) {vmax : ℝ} (h0 : 0 ≤ vmax)
    (hv : ∃ d ∈ t, vmax ≤ d.1) : SigmaVAttained x vmax := by
  obtain ⟨pre, t', hpre, hinc, hzero, hne, hhead, hs, hmm⟩ := trim_view ht h
  obtain ⟨s, hsv⟩ : ∃ s, x.sigma vmax = .ok s := by
    obtain ⟨d, hd, hvd⟩ := hv
    rcases locate (t := t) (v := vmax) (by rintro rfl; simp at hd) with
      ⟨e, l, rfl, hle⟩ | ⟨l1, i, f, l2, rfl, h1, h2⟩ | ⟨l, e, rfl, hlt⟩
    · rcases hle.eq_or_lt with rfl | hlt
      · exact ⟨e.2, C57_points ht h (by simp)⟩
      · exact ⟨0, C57_below ht h hlt⟩
    · exact ⟨_, C57_linear ht h h1.le h2⟩
    · exfalso
      rcases List.mem_append.1 hd with hd | hd
      · have := (List.pairwise_append.1 ht).2.2 d hd e (by simp)
        linarith
      · rw [List.mem_singleton] at hd
        subst hd
        linarith
  obtain ⟨M, vm, hm⟩ : ∃ M vm, x.maxSV vmax = .ok (M, vm) := by
    rw [hs] at hsv
    rw [hmm]
    unfold dataMax
    rw [hsv]
    exact ⟨_, _, rfl⟩
  have hm' := hm
  rw [hmm] at hm'
  obtain ⟨-, -, s', h2, -, h4⟩ := dataMax_spec hinc hm'
  rw [← hs] at h2
  rcases h4 with ⟨rfl, rfl⟩ | ⟨d, hd, hlt, rfl, rfl⟩ | ⟨rfl, rfl⟩
  · obtain ⟨r, hr⟩ : ∃ r, x.sigma 0 = .ok r := by
      rw [hs]
      cases t' with
      | nil => exact absurd rfl hne
      | cons e t' =>
        exact ⟨_, dataSigma_first _ _ _ (hsp e (by rw [hpre]; simp))⟩
    exact ⟨0, 0, r, hm, le_rfl, h0, hr, mul_zero _⟩
  · have hd' : d ∈ t := by rw [hpre]; simp [hd]
    exact ⟨_, _, d.2, hm, hsp d hd', hlt.le, C57_points ht h hd', mul_comm _ _⟩
  · exact ⟨_, _, s', hm, h0, le_rfl, h2, mul_comm _ _⟩

/-- A segment does not hide a larger product inside: the derivative of `sigma(v) v` is not negative at its right end,
or not positive at its left end. -/
def SegmentSafe (i f : ℝ × ℝ) : Prop :=
  0 ≤ f.2 + f.1 * ((f.2 - i.2) / (f.1 - i.1)) ∨ i.2 + i.1 * ((f.2 - i.2) / (f.1 - i.1)) ≤ 0

/-- A rising segment with nonnegative speeds and values is safe. -/
theorem segmentSafe_of_rising {i f : ℝ × ℝ} (h0 : 0 ≤ i.1) (hif : i.1 < f.1) (hi : 0 ≤ i.2) (h : i.2 ≤ f.2) :
    SegmentSafe i f := by
  left
  have : 0 ≤ (f.2 - i.2) / (f.1 - i.1) := div_nonneg (by linarith) (by linarith)
  have h2 : 0 ≤ f.1 * ((f.2 - i.2) / (f.1 - i.1)) := mul_nonneg (by linarith) this
  linarith

/-- **C58**: if every segment in range is safe, in particular if the table does not fall in range, the reported value
is a bound everywhere in range. -/
theorem C58_bound {allowed : Bool} {mu : ℝ} {t : XTable} {x : XSec} (ht : Increasing t)
    (h : mkData allowed mu t = .ok x) (hsp : ∀ d ∈ t, 0 ≤ d.1 ∧ 0 ≤ d.2) {vmax : ℝ} (h0 : 0 ≤ vmax)
    (hv : ∃ d ∈ t, vmax ≤ d.1)
    (hseg : ∀ l1 i f l2, t = l1 ++ i :: f :: l2 → i.1 < vmax → SegmentSafe i f) : SigmaVBound x vmax := by
  obtain ⟨M, vm, s, hm, -⟩ := C58_attained ht h (fun d hd => (hsp d hd).1) h0 hv
  obtain ⟨hM, hpts, sm, hsm, hvm⟩ := C58_points ht h hm
  refine ⟨M, vm, hm, fun v r hv0 hle hr => ?_⟩
  obtain ⟨dl, hdl, hvdl⟩ := hv
  rcases locate (t := t) (v := v) (by rintro rfl; simp at hdl) with
    ⟨e, l, rfl, hle'⟩ | ⟨l1, i, f, l2, rfl, h1, h2⟩ | ⟨l, e, rfl, hlt⟩
  · rcases hle'.eq_or_lt with rfl | hlt
    · rw [C57_points ht h (by simp)] at hr
      cases hr
      rcases hle.eq_or_lt with hE | hlt
      · rw [← hE, C57_points ht h (by simp)] at hsm
        cases hsm
        rw [← hE] at hvm
        exact hvm
      · exact hpts e (by simp) hlt
    · rw [C57_below ht h hlt] at hr
      cases hr
      simpa using hM
  · rw [C57_linear ht h h1.le h2] at hr
    cases hr
    have hif : i.1 < f.1 := h1.trans_le h2
    have hiv : i.1 < vmax := h1.trans_le hle
    have hsafe := hseg l1 i f l2 rfl hiv
    unfold SegmentSafe at hsafe
    obtain ⟨pi1, pi2⟩ := hsp i (by simp)
    obtain ⟨pf1, pf2⟩ := hsp f (by simp)
    -- the right end in range
    obtain ⟨w, hw1, hw2, hw3⟩ : ∃ w, v ≤ w ∧ w ≤ f.1 ∧
        (i.2 + (f.2 - i.2) / (f.1 - i.1) * (w - i.1)) * w ≤ M := by
      rcases lt_or_ge f.1 vmax with hf | hf
      · refine ⟨f.1, h2, le_rfl, ?_⟩
        have e : i.2 + (f.2 - i.2) / (f.1 - i.1) * (f.1 - i.1) = f.2 := by
          rw [div_mul_cancel₀ _ (by linarith)]; ring
        rw [e]
        exact hpts f (by simp) hf
      · refine ⟨vmax, hle, hf, ?_⟩
        rw [C57_linear ht h hiv.le hf] at hsm
        cases hsm
        exact hvm
    have e : f.2 = i.2 + (f.2 - i.2) / (f.1 - i.1) * (f.1 - i.1) := by
      rw [div_mul_cancel₀ _ (by linarith)]; ring
    have hleft : i.2 * i.1 ≤ M := hpts i (by simp) hiv
    generalize (f.2 - i.2) / (f.1 - i.1) = g at *
    rcases le_or_gt 0 g with hg | hg
    · refine le_trans ?_ hw3
      have q1 : 0 ≤ g * (v - i.1) := mul_nonneg hg (by linarith)
      have q2 : g * (v - i.1) ≤ g * (w - i.1) := mul_le_mul_of_nonneg_left (by linarith) hg
      exact mul_le_mul (by linarith) hw1 hv0 (by linarith)
    · rcases hsafe with hs | hs
      · refine le_trans ?_ hw3
        have key : 0 ≤ i.2 + g * (v + w - i.1) := by
          have : g * (2 * f.1 - i.1) ≤ g * (v + w - i.1) :=
            mul_le_mul_of_nonpos_left (by linarith) hg.le
          linarith
        have := mul_nonneg (sub_nonneg.2 hw1) key
        nlinarith
      · refine le_trans ?_ hleft
        have key : i.2 + g * v ≤ 0 := by
          have : g * v ≤ g * i.1 := mul_le_mul_of_nonpos_left h1.le hg.le
          linarith
        have := mul_nonneg_of_nonpos_of_nonpos (sub_nonpos.2 h1.le) key
        nlinarith
  · exfalso
    rcases List.mem_append.1 hdl with hd | hd
    · have := (List.pairwise_append.1 ht).2.2 dl hd e (by simp)
      linarith
    · rw [List.mem_singleton] at hd
      subst hd
      linarith

/-- **C58**, the case of a table that does not fall in range. -/
theorem C58_rising {allowed : Bool} {mu : ℝ} {t : XTable} {x : XSec} (ht : Increasing t)
    (h : mkData allowed mu t = .ok x) (hsp : ∀ d ∈ t, 0 ≤ d.1 ∧ 0 ≤ d.2) {vmax : ℝ} (h0 : 0 ≤ vmax)
    (hv : ∃ d ∈ t, vmax ≤ d.1)
    (hseg : ∀ l1 i f l2, t = l1 ++ i :: f :: l2 → i.1 < vmax → i.2 ≤ f.2) : SigmaVBound x vmax := by
  refine C58_bound ht h hsp h0 hv fun l1 i f l2 hl hi => ?_
  subst hl
  have hif : i.1 < f.1 := by
    have := (List.pairwise_append.1 ht).2.1
    rw [List.pairwise_cons] at this
    exact this.1 f (by simp)
  exact segmentSafe_of_rising (hsp i (by simp)).1 hif (hsp i (by simp)).2 (hseg l1 i f l2 rfl hi)

/-- **C58**: the condition is sharp.  With a single segment that is not safe the reported value is exceeded
strictly inside it. -/
theorem C58_exceeded {allowed : Bool} {mu : ℝ} {i f : ℝ × ℝ} {x : XSec} (h0 : 0 ≤ i.1) (hif : i.1 < f.1)
    (h : mkData allowed mu [i, f] = .ok x) (hfall : f.2 < i.2) (hpos : 0 ≤ f.2) (hns : ¬ SegmentSafe i f) :
    SigmaVExceeded x f.1 := by
  have ht : Increasing [i, f] := by simpa [Increasing] using hif
  obtain ⟨M, vm, s, hm, hvm0, hvm1, hsv, hM⟩ := C58_attained ht h (vmax := f.1)
    (by intro d hd; simp at hd; rcases hd with rfl | rfl <;> linarith) (by linarith) ⟨f, by simp, le_rfl⟩
  obtain ⟨pre, t', hpre, hinc, hzero, hne, hhead, hs, hmm⟩ := trim_view ht h
  have hm' := hm
  rw [hmm] at hm'
  obtain ⟨-, -, r, hr, -, hM⟩ := dataMax_spec hinc hm'
  rw [← hs, C57_points ht h (d := f) (by simp)] at hr
  cases hr
  unfold SegmentSafe at hns
  push Not at hns
  obtain ⟨n1, n2⟩ := hns
  have e : f.2 = i.2 + (f.2 - i.2) / (f.1 - i.1) * (f.1 - i.1) := by
    rw [div_mul_cancel₀ _ (by linarith)]; ring
  have hg : (f.2 - i.2) / (f.1 - i.1) < 0 := div_neg_of_neg_of_pos (by linarith) (by linarith)
  have lin := fun v h1 h2 => C57_linear (l1 := []) (i := i) (f := f) (l2 := []) ht h (v := v) h1 h2
  generalize (f.2 - i.2) / (f.1 - i.1) = g at *
  -- the vertex
  set w := (g * i.1 - i.2) / (2 * g) with hw
  have hgw : 2 * g * w = g * i.1 - i.2 := by
    rw [hw, mul_div_cancel₀ _ (mul_ne_zero two_ne_zero hg.ne)]
  have w1 : i.1 < w := by nlinarith
  have w2 : w < f.1 := by nlinarith
  refine ⟨M, vm, w, _, hm, by linarith, w2, lin w w1.le w2.le, ?_⟩
  have q : (i.2 + g * (w - i.1)) * w = -g * w ^ 2 := by linear_combination w * hgw
  have b1 : i.1 * i.2 < -g * w ^ 2 := by nlinarith [mul_pos (neg_pos.2 hg) (pow_pos (sub_pos.2 w1) 2)]
  have b2 : f.1 * f.2 < -g * w ^ 2 := by nlinarith [mul_pos (neg_pos.2 hg) (pow_pos (sub_pos.2 w2) 2)]
  have hmem : ∀ d ∈ t', d = i ∨ d = f := by
    intro d hd
    have : d ∈ [i, f] := by rw [hpre]; simp [hd]
    simpa using this
  rw [q]
  rcases hM with ⟨hM, -⟩ | ⟨d, hd, -, -, hM⟩ | ⟨-, hM⟩
  · have := mul_nonneg (show (0 : ℝ) ≤ f.1 by linarith) hpos
    linarith
  · rcases hmem d hd with rfl | rfl <;> linarith
  · linarith

/-- Non-vacuity: the falling table 1 ↦ 1, 3 ↦ 0. -/
example : ∃ x, mkData false 2 [(1, 1), (3, 0)] = .ok x ∧ SigmaVExceeded x 3 := by
  have hx : ∃ x, mkData false 2 [(1, 1), (3, 0)] = .ok x := by
    unfold mkData
    rw [show ([(1, 1), (3, 0)] : XTable) = [] ++ (1, 1) :: [(3, 0)] from rfl,
      checkThreshold_eq [] (by simp) (1, 1) (by norm_num) [(3, 0)]]
    exact ⟨_, rfl⟩
  obtain ⟨x, hx⟩ := hx
  exact ⟨x, hx, C58_exceeded (i := (1, 1)) (f := (3, 0)) (by norm_num) (by norm_num) hx (by norm_num) (by norm_num)
    (by norm_num [SegmentSafe])⟩

/-- Non-vacuity: the rising table. -/
example : ∃ x, mkData false 2 exTable = .ok x ∧ SigmaVBound x 4 ∧ SigmaVAttained x 4 := by
  obtain ⟨x, hx⟩ := exTable_ok
  have hp : ∀ d ∈ exTable, (0 : ℝ) ≤ d.1 ∧ (0 : ℝ) ≤ d.2 := by
    intro d hd
    simp only [exTable, List.mem_cons, List.not_mem_nil, or_false] at hd
    rcases hd with rfl | rfl | rfl | rfl <;> norm_num
  refine ⟨x, hx, C58_rising exTable_inc hx hp (by norm_num) ⟨(5, 8), by simp [exTable], by norm_num⟩ ?_,
    C58_attained exTable_inc hx (fun d hd => (hp d hd).1) (by norm_num) ⟨(5, 8), by simp [exTable], by norm_num⟩⟩
  intro l1 i f l2 hl hi
  have hm : ∀ l1 : XTable, exTable = l1 ++ i :: f :: l2 → i.2 ≤ f.2 := by
    intro l1 hl
    rcases l1 with _ | ⟨a, _ | ⟨b, _ | ⟨c, _ | ⟨d, l1⟩⟩⟩⟩ <;> simp [exTable] at hl
    · obtain ⟨rfl, rfl, -⟩ := hl; norm_num
    · obtain ⟨-, rfl, rfl, -⟩ := hl; norm_num
    · obtain ⟨-, -, rfl, rfl, -⟩ := hl; norm_num
  exact hm l1 hl

/-! ### C59: beyond the table -/

/-- Sum of the last two slopes of the cross section against the squared speed. -/
noncomputable def endSlope (d0 d1 d2 : ℝ × ℝ) : ℝ :=
  (d1.2 - d0.2) / (d1.1 ^ 2 - d0.1 ^ 2) + (d2.2 - d1.2) / (d2.1 ^ 2 - d1.1 ^ 2)

/-- The last three entries stay if the last but one is not zero. -/
theorem trimmed_last3 {allowed : Bool} {mu : ℝ} {l : XTable} {d0 d1 d2 : ℝ × ℝ} {x : XSec}
    (h : mkData allowed mu (l ++ [d0, d1, d2]) = .ok x) (hd1 : d1.2 ≠ 0) :
    ∃ l', x.sigma = dataSigma (l' ++ [d0, d1, d2]) (setCoeffs allowed (l' ++ [d0, d1, d2]).reverse) ∧
      ∃ pre, l = pre ++ l' := by
  obtain ⟨zs, d, k, t', hz, hzero, hd, ht', hs, -, -⟩ := mkData_ok h
  obtain ⟨pre, hpre, hpz, hhead⟩ := trimmed_suffix zs hzero d k
  rw [← ht'] at hpre hhead
  rw [hpre] at hz
  rcases List.append_eq_append_iff.1 hz with ⟨a, ha, hb⟩ | ⟨c, hc, he⟩
  · match a, hb with
    | [], hb =>
      rw [List.nil_append] at hb
      exact ⟨[], by rw [hs, ← hb]; rfl, pre, by rw [ha]; simp⟩
    | [a], hb =>
      rw [List.cons_append, List.nil_append] at hb
      injection hb with e1 e2
      have := hhead (by rw [ha]; simp) d1 (by rw [← e2]; simp)
      exact absurd this hd1
    | [a, b], hb =>
      rw [List.cons_append, List.cons_append, List.nil_append] at hb
      injection hb with e1 e2
      injection e2 with e2 e3
      exact absurd (hpz d1 (by rw [ha, e2]; simp)) hd1
    | a :: b :: c :: a', hb =>
      rw [List.cons_append, List.cons_append] at hb
      injection hb with e1 e2
      injection e2 with e2 e3
      exact absurd (hpz d1 (by rw [ha, e2]; simp)) hd1
  · exact ⟨c, by rw [hs, he], pre, hc⟩

/-- **C59**: when extrapolation is allowed and the end of the table falls, the cross section beyond the table is
positive and strictly decreasing. -/
theorem C59_extrapolates {mu : ℝ} {l : XTable} {d0 d1 d2 : ℝ × ℝ} {x : XSec}
    (ht : Increasing (l ++ [d0, d1, d2])) (h0 : 0 ≤ d0.1) (h : mkData true mu (l ++ [d0, d1, d2]) = .ok x)
    (hd1 : 0 < d1.2) (hd2 : d2.2 ≠ 0) (hF : endSlope d0 d1 d2 < 0) {v : ℝ} (hv : d2.1 < v) :
    ∃ s, x.sigma v = .ok s ∧ 0 < s ∧ ∀ w, v < w → ∃ s', x.sigma w = .ok s' ∧ 0 < s' ∧ s' < s := by
  obtain ⟨l', hs, pre, hpre⟩ := trimmed_last3 h hd1.ne'
  obtain ⟨hC, ha, hb, h02⟩ := getCab_spec (d0 := d0) (d1 := d1) (d2 := d2) hd1 hF
  have hco : setCoeffs true (l' ++ [d0, d1, d2]).reverse = getCab d0 d1 d2 := by
    simp [setCoeffs, hd2]
  have hinc : Increasing ((l' ++ [d0, d1]) ++ [d2]) := by
    rw [hpre, List.append_assoc] at ht
    have := (List.pairwise_append.1 ht).2.1
    simpa [Increasing] using this
  have h3 : d0.1 < d1.1 ∧ d1.1 < d2.1 := by
    have := (List.pairwise_append.1 ht).2.1
    simp at this
    exact ⟨this.1.1, this.2⟩
  have hval : ∀ w, d2.1 < w → x.sigma w = .ok (extrapF (w ^ 2 - d1.1 ^ 2) (getCab d0 d1 d2).C
      (getCab d0 d1 d2).a (getCab d0 d1 d2).b) := by
    intro w hw
    rw [hs, hco]
    have := dataSigma_beyond hinc (getCab d0 d1 d2) hw
    rw [if_neg hd2, if_neg hC.ne', h02] at this
    rw [← this]
    simp
  have hx : ∀ w, d2.1 < w → 0 ≤ w ^ 2 - d1.1 ^ 2 := by
    intro w hw
    nlinarith
  refine ⟨_, hval v hv, (extrapF_spec hC ha hb (hx v hv) (lt_add_one _)).1, fun w hw => ?_⟩
  refine ⟨_, hval w (by linarith), (extrapF_spec hC ha hb (hx w (by linarith)) (lt_add_one _)).1, ?_⟩
  exact (extrapF_spec hC ha hb (hx v hv) (by nlinarith)).2

/-- The search for `b` keeps a value of least error. -/
theorem foldl_biStep_min (C a x s2 : ℝ) (l : List ℝ) (b0 e0 : ℝ) :
    let err := fun b => 1 - s2 / extrapF x C a b
    e0 = err b0 →
    let r := (l.foldl (biStep C a x s2) (b0, some e0)).1
    (r = b0 ∨ r ∈ l) ∧ |err r| ≤ |err b0| ∧ ∀ b ∈ l, |err r| ≤ |err b| := by
  intro err
  induction l generalizing b0 e0 with
  | nil => intro _; simp
  | cons b l ih =>
    intro h0
    rw [List.foldl_cons]
    have hstep : biStep C a x s2 (b0, some e0) b =
        if |err b| < |e0| then (b, some (err b)) else (b0, some e0) := rfl
    rw [hstep]
    split
    · rename_i hlt
      obtain ⟨i1, i2, i3⟩ := ih b (err b) rfl
      refine ⟨Or.inr ?_, i2.trans (by rw [← h0]; exact hlt.le), fun c hc => ?_⟩
      · rcases i1 with h | h
        · rw [h]; simp
        · exact List.mem_cons_of_mem _ h
      · rcases List.mem_cons.1 hc with rfl | hc
        · exact i2
        · exact i3 c hc
    · rename_i hge
      obtain ⟨i1, i2, i3⟩ := ih b0 e0 h0
      refine ⟨i1.imp_right (List.mem_cons_of_mem _), i2, fun c hc => ?_⟩
      rcases List.mem_cons.1 hc with rfl | hc
      · rw [h0] at hge
        exact i2.trans (not_lt.1 hge)
      · exact i3 c hc

theorem mem_biValues {b : ℝ} : b ∈ biValues ↔ (∃ k : ℕ, b = Real.exp 1 + (k : ℝ) / 100) ∧ b ≤ 100 := by
  unfold biValues
  simp only [List.mem_filter, List.mem_map, List.mem_range, decide_eq_true_eq]
  constructor
  · rintro ⟨⟨k, -, rfl⟩, h⟩
    exact ⟨⟨k, rfl⟩, h⟩
  · rintro ⟨⟨k, rfl⟩, h⟩
    refine ⟨⟨k, ?_, rfl⟩, h⟩
    have h1 : 0 < Real.exp 1 := Real.exp_pos 1
    have h2 : (k : ℝ) < 10000 := by linarith
    exact_mod_cast h2

theorem best_bi (C a x s2 b0 : ℝ) :
    let r := (biValues.foldl (biStep C a x s2) (b0, none)).1
    r ∈ biValues ∧ ∀ b ∈ biValues, |1 - s2 / extrapF x C a r| ≤ |1 - s2 / extrapF x C a b| := by
  have hne : Real.exp 1 ∈ biValues := mem_biValues.2 ⟨⟨0, by simp⟩, by linarith [exp_one_lt_30]⟩
  generalize biValues = L at hne ⊢
  cases L with
  | nil => simp at hne
  | cons b l =>
    rw [List.foldl_cons]
    obtain ⟨h1, h2, h3⟩ := foldl_biStep_min C a x s2 l b _ rfl
    refine ⟨?_, fun c hc => ?_⟩
    · rcases h1 with h | h
      · rw [show biStep C a x s2 (b0, none) b = (b, some (1 - s2 / extrapF x C a b)) from rfl, h]; simp
      · exact List.mem_cons_of_mem _ h
    · rcases List.mem_cons.1 hc with rfl | hc
      · exact h2
      · exact h3 c hc

/-- **C59**, shape of the extrapolation: it is `C b log(s)/s` with `s = a (v² - v₁²) + b`, where `C` and `a` are fixed
by the value and the mean slope at the last but one entry for `b = 30`, and `b` is the value among e, e + 0.01, ... up
to 100 for which the function misses the last entry least. -/
theorem C59_best_fit {mu : ℝ} {l : XTable} {d0 d1 d2 : ℝ × ℝ} {x : XSec}
    (ht : Increasing (l ++ [d0, d1, d2])) (h : mkData true mu (l ++ [d0, d1, d2]) = .ok x)
    (hd1 : 0 < d1.2) (hd2 : d2.2 ≠ 0) (hF : endSlope d0 d1 d2 < 0) :
    ∃ C a b : ℝ, let fit := fun (b v : ℝ) =>
        C * b * Real.log (a * (v ^ 2 - d1.1 ^ 2) + b) / (a * (v ^ 2 - d1.1 ^ 2) + b)
      (∀ v, d2.1 < v → x.sigma v = .ok (fit b v)) ∧
      C * Real.log 30 = d1.2 ∧ C * a * (1 - Real.log 30) / 30 = endSlope d0 d1 d2 / 2 ∧
      (∃ k : ℕ, b = Real.exp 1 + (k : ℝ) / 100) ∧ b ≤ 100 ∧
      ∀ k : ℕ, Real.exp 1 + (k : ℝ) / 100 ≤ 100 →
        |1 - d2.2 / fit b d2.1| ≤ |1 - d2.2 / fit (Real.exp 1 + (k : ℝ) / 100) d2.1| := by
  obtain ⟨l', hs, pre, hpre⟩ := trimmed_last3 h hd1.ne'
  obtain ⟨hC, ha, hb, h02⟩ := getCab_spec (d0 := d0) (d1 := d1) (d2 := d2) hd1 hF
  have hco : setCoeffs true (l' ++ [d0, d1, d2]).reverse = getCab d0 d1 d2 := by
    simp [setCoeffs, hd2]
  have hinc : Increasing ((l' ++ [d0, d1]) ++ [d2]) := by
    rw [hpre, List.append_assoc] at ht
    have := (List.pairwise_append.1 ht).2.1
    simpa [Increasing] using this
  have hn : ¬ (1 / 2 * ((d1.2 - d0.2) / (d1.1 ^ 2 - d0.1 ^ 2) + (d2.2 - d1.2) / (d2.1 ^ 2 - d1.1 ^ 2)) ≥ 0) := by
    intro h
    have : endSlope d0 d1 d2 < 0 := hF
    unfold endSlope at this
    linarith
  have h30 := one_lt_log30
  have hCe : (getCab d0 d1 d2).C = d1.2 / Real.log 30 := by
    unfold getCab; generalize biValues = L; dsimp only; rw [if_neg hn]
  have hae : (getCab d0 d1 d2).a = 30 * (1 / 2 * endSlope d0 d1 d2) / (d1.2 / Real.log 30 * (1 - Real.log 30)) := by
    unfold getCab endSlope; generalize biValues = L; dsimp only; rw [if_neg hn]
  have hbe : (getCab d0 d1 d2).b = (biValues.foldl (biStep (getCab d0 d1 d2).C (getCab d0 d1 d2).a
      (d2.1 ^ 2 - d1.1 ^ 2) d2.2) (30, none)).1 := by
    rw [hCe, hae]
    unfold getCab endSlope; generalize biValues = L; dsimp only; rw [if_neg hn]
  obtain ⟨m1, m2⟩ := best_bi (getCab d0 d1 d2).C (getCab d0 d1 d2).a (d2.1 ^ 2 - d1.1 ^ 2) d2.2 30
  rw [← hbe] at m1 m2
  obtain ⟨k1, k2⟩ := mem_biValues.1 m1
  refine ⟨(getCab d0 d1 d2).C, (getCab d0 d1 d2).a, (getCab d0 d1 d2).b, ?_, ?_, ?_, k1, k2, ?_⟩
  · intro w hw
    rw [hs, hco]
    have := dataSigma_beyond hinc (getCab d0 d1 d2) hw
    rw [if_neg hd2, if_neg hC.ne', h02] at this
    rw [show l' ++ [d0, d1, d2] = l' ++ [d0, d1] ++ [d2] by simp, this]
    rfl
  · rw [hCe]; field_simp
  · rw [hCe, hae]
    have h1 : 1 - Real.log 30 ≠ 0 := by linarith
    have h2 : Real.log 30 ≠ 0 := by linarith
    field_simp
  · intro k hk
    exact m2 _ (mem_biValues.2 ⟨⟨k, rfl⟩, hk⟩)

/-- **C59**: when it is not available (not allowed, fewer than three entries, or an end that does not fall) and the
last value is not zero, the evaluation is an error. -/
theorem C59_unavailable {allowed : Bool} {mu : ℝ} {l : XTable} {d : ℝ × ℝ} {x : XSec}
    (ht : Increasing (l ++ [d])) (h : mkData allowed mu (l ++ [d]) = .ok x) (hd : d.2 ≠ 0)
    (hav : allowed = false ∨ l.length < 2 ∨
      ∃ l0 d0 d1, l = l0 ++ [d0, d1] ∧ 0 ≤ endSlope d0 d1 d) {v : ℝ} (hv : d.1 < v) :
    x.sigma v = .error .outOfRange := by
  obtain ⟨pre, t', hpre, hinc, hzero, hne, hhead, hs, -⟩ := trim_view ht h
  rw [hs]
  -- the trimmed table ends with the same entry
  obtain ⟨l', hl', ⟨p, hp⟩⟩ : ∃ l', t' = l' ++ [d] ∧ ∃ p, l = p ++ l' := by
    rcases List.eq_nil_or_concat t' with rfl | ⟨l', e, rfl⟩
    · exact absurd rfl hne
    · rw [List.concat_eq_append, ← List.append_assoc] at hpre
      have := List.append_inj' hpre rfl
      refine ⟨l', ?_, pre, this.1⟩
      rw [List.concat_eq_append, this.2]
  rw [hl'] at hinc ⊢
  have hC : (setCoeffs allowed (l' ++ [d]).reverse).C = 0 := by
    rcases hav with rfl | hlen | ⟨l0, d0, d1, hl0, hF⟩
    · simp [setCoeffs]
    · have : l'.length < 2 := by
        have := congrArg List.length hp
        simp at this; omega
      match l', this with
      | [], _ => simp [setCoeffs]
      | [a], _ => simp [setCoeffs]
    · rw [hl0] at hp
      rcases List.eq_nil_or_concat l' with rfl | ⟨m, e, rfl⟩
      · simp [setCoeffs]
      · rw [List.concat_eq_append] at hp ⊢
        rcases List.eq_nil_or_concat m with rfl | ⟨m, e', rfl⟩
        · simp [setCoeffs]
        · rw [List.concat_eq_append] at hp ⊢
          have hp' : l0 ++ [d0, d1] = (p ++ m) ++ [e', e] := by rw [hp]; simp
          have := List.append_inj' hp' rfl
          have h2 := this.2
          injection h2 with e1 e2
          injection e2 with e2 _
          subst e1
          subst e2
          simp only [setCoeffs, List.reverse_append, List.reverse_cons, List.reverse_nil, List.nil_append,
            List.cons_append]
          split
          · exact getCab_rising hF
          · rfl
  rw [dataSigma_beyond hinc _ hv, if_neg hd, if_pos hC]

/-- **C59**: if the last value is zero the cross section stays zero. -/
theorem C59_zero {allowed : Bool} {mu : ℝ} {l : XTable} {d : ℝ × ℝ} {x : XSec}
    (ht : Increasing (l ++ [d])) (h : mkData allowed mu (l ++ [d]) = .ok x) (hd : d.2 = 0) {v : ℝ}
    (hv : d.1 < v) : x.sigma v = .ok 0 := by
  obtain ⟨pre, t', hpre, hinc, hzero, hne, hhead, hs, -⟩ := trim_view ht h
  rw [hs]
  rcases List.eq_nil_or_concat t' with rfl | ⟨l', e, rfl⟩
  · exact absurd rfl hne
  · rw [List.concat_eq_append] at hpre hinc ⊢
    rw [← List.append_assoc] at hpre
    have := List.append_inj' hpre rfl
    injection this.2 with e1 _
    subst e1
    rw [dataSigma_beyond hinc _ hv, if_pos hd]

/-- Non-vacuity: a falling end. -/
example : ∃ x, mkData true 2 [(1, 4), (2, 3), (3, 1)] = .ok x ∧
    (∃ s, x.sigma 5 = .ok s ∧ 0 < s) ∧
    ∃ C a b : ℝ, C * Real.log 30 = 3 ∧ b ≤ 100 ∧
      x.sigma 5 = .ok (C * b * Real.log (a * (5 ^ 2 - 2 ^ 2) + b) / (a * (5 ^ 2 - 2 ^ 2) + b)) := by
  have hinc : Increasing ([] ++ [((1 : ℝ), (4 : ℝ)), (2, 3), (3, 1)]) := by
    unfold Increasing
    simp only [List.nil_append, List.pairwise_cons, List.mem_cons, List.not_mem_nil, or_false, List.Pairwise.nil,
      and_true]
    refine ⟨?_, ?_, ?_⟩
    · rintro a (rfl | rfl) <;> norm_num
    · rintro a rfl; norm_num
    · rintro a h; exact absurd h (by simp)
  have hx : ∃ x, mkData true 2 [(1, 4), (2, 3), (3, 1)] = .ok x := by
    unfold mkData
    rw [show ([(1, 4), (2, 3), (3, 1)] : XTable) = [] ++ (1, 4) :: [(2, 3), (3, 1)] from rfl,
      checkThreshold_eq [] (by simp) (1, 4) (by norm_num) [(2, 3), (3, 1)]]
    exact ⟨_, rfl⟩
  obtain ⟨x, hx⟩ := hx
  obtain ⟨s, hs, hp, -⟩ := C59_extrapolates (l := []) hinc (by norm_num) hx (by norm_num) (by norm_num)
    (by norm_num [endSlope]) (v := 5) (by norm_num)
  obtain ⟨C, a, b, h1, h2, -, -, h3, -⟩ := C59_best_fit (l := []) hinc hx (by norm_num) (by norm_num)
    (by norm_num [endSlope])
  exact ⟨x, hx, ⟨s, hs, hp⟩, C, a, b, h2, h3, h1 5 (by norm_num)⟩

/-- Non-vacuity: no extrapolation. -/
example : ∃ x, mkData false 2 exTable = .ok x ∧ x.sigma 6 = .error .outOfRange := by
  obtain ⟨x, hx⟩ := exTable_ok
  exact ⟨x, hx, C59_unavailable (l := [(1, 0), (2, 0), (3, 4)]) (d := (5, 8)) exTable_inc hx (by norm_num) (.inl rfl)
    (by norm_num)⟩

/-! ### C60: trimming -/

/-- **C60**: zeros followed by a nonzero value: the construction is the same as with only the last zero, and that one
(or the first nonzero entry if there is no zero) gives the threshold energy. -/
theorem C60_trimmed (allowed : Bool) (mu : ℝ) (zs : XTable) (hz : ∀ e ∈ zs, e.2 = 0) (d : ℝ × ℝ) (hd : d.2 ≠ 0)
    (l : XTable) :
    ∃ x, mkData allowed mu (zs ++ d :: l) = .ok x ∧
      mkData allowed mu (zs.getLast?.toList ++ d :: l) = .ok x ∧
      x.thrE = 1 / 2 * mu * ((zs.getLast?.getD d).1) ^ 2 ∧
      (∀ v, 0 ≤ v → Increasing (zs ++ d :: l) → 0 < mu → (∀ e ∈ zs ++ d :: l, 0 ≤ e.1) →
        1 / 2 * mu * v ^ 2 < x.thrE → x.sigma v = .ok 0) := by
  have h1 := checkThreshold_eq zs hz d hd l
  have h2 := checkThreshold_eq zs.getLast?.toList (by
    intro e he
    rw [Option.mem_toList] at he
    exact hz e (List.mem_of_getLast? he)) d hd l
  have h3 : zs.getLast?.toList.getLast?.toList = zs.getLast?.toList := by
    cases zs.getLast? <;> simp
  rw [h3] at h2
  unfold mkData
  rw [h1, h2]
  refine ⟨_, rfl, rfl, ?_, ?_⟩
  · cases zs.getLast? <;> simp
  · intro v hv hinc hmu hsp hlt
    have hthr : (zs.getLast?.toList ++ d :: l) = (zs.getLast?.getD d) :: (zs.getLast?.toList ++ d :: l).tail := by
      cases zs.getLast? <;> simp
    have hmem : zs.getLast?.getD d ∈ zs ++ d :: l := by
      cases h : zs.getLast? with
      | none => simp
      | some e => simp [List.mem_of_getLast? h]
    have h0 := hsp _ hmem
    dsimp only at hlt ⊢
    rw [hthr] at hlt ⊢
    dsimp only at hlt
    have hlt' : v < (zs.getLast?.getD d).1 := by
      by_contra hc
      have : (zs.getLast?.getD d).1 ^ 2 ≤ v ^ 2 := by
        have := not_lt.1 hc
        gcongr
      nlinarith
    rw [dataSigma_first _ _ _ hlt'.le, if_neg hlt'.ne']

/-- **C60**: an empty table is an error. -/
theorem C60_empty (allowed : Bool) (mu : ℝ) : mkData allowed mu [] = .error .emptyTable := rfl

/-- **C60**: a table of zeros runs into undefined behaviour (an iterator is advanced beyond the end). -/
theorem C60_zeros (allowed : Bool) (mu : ℝ) (t : XTable) (hne : t ≠ []) (hz : ∀ d ∈ t, d.2 = 0) :
    mkData allowed mu t = .error .ub := by
  unfold mkData; rw [checkThreshold_zeros t hne hz]

/-- Non-vacuity: the example table starts at 2. -/
example : ∃ x, mkData false 2 exTable = .ok x ∧ x.thrE = 4 := by
  obtain ⟨x, hx, -, h, -⟩ := C60_trimmed false 2 [(1, 0), (2, 0)] (by simp) (3, 4) (by norm_num) [(5, 8)]
  refine ⟨x, hx, ?_⟩
  rw [h]; norm_num

example : mkData true 2 [(1, 0), (2, 0)] = .error .ub := C60_zeros _ _ _ (by simp) (by simp)

/-! ### C63: averages sampled into a table -/

/-- **C63**: for a positive step the loop ends and takes exactly the positive speeds `vmax + dv/2 - k dv`, each with
the average of the components.  The samples are `dv` apart, the first is at most `dv`, the last is above `vmax`, so
every speed in `[dv, vmax]` is covered. -/
theorem C63_samples {c0 c1 : XSec} {f0 f1 : ℝ → ℝ} {vmax dv : ℝ} (hv : 0 < vmax) (hdv : 0 < dv)
    (h0 : ∀ v, 0 < v → c0.sigma v = .ok (f0 v) ∧ 0 ≤ f0 v)
    (h1 : ∀ v, 0 < v → c1.sigma v = .ok (f1 v) ∧ 0 ≤ f1 v) :
    ∃ (n : ℕ) (t : XTable), 0 < n ∧ t.length = n ∧
      (∀ fuel, n < fuel → ∀ allowed mu, mkAveraged allowed c0 c1 vmax dv mu fuel = some (mkData allowed mu t)) ∧
      Increasing t ∧
      (∀ d, d ∈ t ↔ ∃ k : ℕ, d.1 = vmax + 1 / 2 * dv - k * dv ∧ 0 < d.1 ∧
        d.2 = 1 / 4 * (Real.sqrt (f0 d.1) + Real.sqrt (f1 d.1)) ^ 2) ∧
      (∀ l1 a b l2, t = l1 ++ a :: b :: l2 → b.1 - a.1 = dv) ∧
      (∀ d ∈ t.head?, d.1 ≤ dv) ∧ (∀ d ∈ t.getLast?, vmax < d.1) := by
  set f : ℝ → ℝ := fun v => 1 / 4 * (Real.sqrt (f0 v) + Real.sqrt (f1 v)) ^ 2 with hf
  have havg : ∀ v, 0 < v → avgSigma c0.sigma c1.sigma v = .ok (f v) := by
    intro v hv
    simp [hf, avgSigma, (h0 v hv).1, (h1 v hv).1, sqrtE, (h0 v hv).2, (h1 v hv).2, bind, Except.bind, pure,
      Except.pure]
  set s := vmax + 1 / 2 * dv with hs
  have hspos : 0 < s := by positivity
  -- the number of samples
  have hex : ∃ n : ℕ, s - n * dv ≤ 0 := by
    obtain ⟨n, hn⟩ := exists_nat_ge (s / dv)
    refine ⟨n, ?_⟩
    rw [div_le_iff₀ hdv] at hn
    linarith
  classical
  obtain ⟨n, hn, hmin⟩ : ∃ n : ℕ, s - n * dv ≤ 0 ∧ ∀ k < n, 0 < s - (k : ℕ) * dv :=
    ⟨Nat.find hex, Nat.find_spec hex, fun k hk => not_le.1 (Nat.find_min hex hk)⟩
  have hn0 : 0 < n := by
    rcases Nat.eq_zero_or_pos n with rfl | h
    · simp at hn; linarith
    · exact h
  have hlen : ∀ n, (samples f s dv n).length = n := by
    intro n
    induction n with
    | zero => rfl
    | succ n ih => simp [samples, ih]
  have hspace : ∀ n, ∀ l1 a b l2, samples f s dv n = l1 ++ a :: b :: l2 → b.1 - a.1 = dv := by
    intro n
    induction n with
    | zero => intro l1 a b l2 h; simp [samples] at h
    | succ n ih =>
      intro l1 a b l2 h
      cases l1 with
      | cons c l1 =>
        rw [samples, List.cons_append] at h
        injection h with _ h
        exact ih l1 a b l2 h
      | nil =>
        cases n with
        | zero => simp [samples] at h
        | succ n =>
          simp only [samples, List.nil_append] at h
          injection h with e1 h
          injection h with e2 h
          rw [← e1, ← e2]
          push_cast
          ring
  refine ⟨n, samples f s dv n, hn0, hlen n, ?_, samples_increasing hdv n, ?_, hspace n, ?_, ?_⟩
  · intro fuel hfuel allowed mu
    unfold mkAveraged
    have := sampleLoop_run (s0 := c0.sigma) (s1 := c1.sigma) (f := f) hdv n s [] (by simp) hn hmin
      (fun k hk => havg _ (hmin k hk)) fuel hfuel
    rw [this]
    simp
  · intro d
    rw [mem_samples]
    constructor
    · rintro ⟨k, hk, rfl⟩
      exact ⟨k, rfl, hmin k hk, rfl⟩
    · rintro ⟨k, hd1, hpos, hd2⟩
      refine ⟨k, ?_, ?_⟩
      · by_contra hc
        have : (n : ℝ) ≤ k := by exact_mod_cast not_lt.1 hc
        have : (n : ℝ) * dv ≤ k * dv := by gcongr
        linarith
      · rw [← hd1]
        exact Prod.ext rfl hd2
  · intro d hd
    obtain ⟨m, rfl⟩ : ∃ m, n = m + 1 := ⟨n - 1, by omega⟩
    simp [samples] at hd
    subst hd
    push_cast at hn
    dsimp only
    linarith
  · intro d hd
    have hlast : ∀ n, (samples f s dv (n + 1)).getLast? = some (s, f s) := by
      intro n
      rw [← samples_shift]
      simp
    obtain ⟨m, rfl⟩ : ∃ m, n = m + 1 := ⟨n - 1, by omega⟩
    rw [hlast m] at hd
    cases hd
    dsimp only
    linarith

/-- **C63**: the first sample (from the top) where a component cannot be evaluated stops the construction with that
error.  The highest sample lies above `vmax`, so this happens when a component is known only up to `vmax`. -/
theorem C63_failure {c0 c1 : XSec} {vmax dv : ℝ} (hv : 0 < vmax) (hdv : 0 < dv) {x : XErr}
    (h : avgSigma c0.sigma c1.sigma (vmax + 1 / 2 * dv) = .error x) (allowed : Bool) (mu : ℝ) (fuel : ℕ) (hf : 0 < fuel) :
    mkAveraged allowed c0 c1 vmax dv mu fuel = some (.error x) := by
  unfold mkAveraged
  rw [sampleLoop_error (f := fun _ => 0) 0 (vmax + 1 / 2 * dv) [] (by
    intro k hk
    obtain rfl : k = 0 := by omega
    simp; positivity) (by omega) (by simpa using h) fuel hf]

/-- **C63**: without a positive step the construction never ends. -/
theorem C63_needs_positive_step {c0 c1 : XSec} {f : ℝ → ℝ} {vmax dv : ℝ} (hdv : dv ≤ 0)
    (hv : 0 < vmax + 1 / 2 * dv) (h : ∀ v, 0 < v → avgSigma c0.sigma c1.sigma v = .ok (f v)) (allowed : Bool)
    (mu : ℝ) (fuel : ℕ) : mkAveraged allowed c0 c1 vmax dv mu fuel = none := by
  unfold mkAveraged
  rw [sampleLoop_none hdv h fuel _ _ hv]

/-- Non-vacuity: constants 1 and 9 with vmax 10 and step 3. -/
example : ∃ x y, mkConstant 1 2 0 = .ok x ∧ mkConstant 9 2 0 = .ok y ∧
    ∃ t : XTable, (∃ fuel, mkAveraged false x y 10 3 2 fuel = some (mkData false 2 t)) ∧
      ∃ s, (5.5, s) ∈ t := by
  obtain ⟨x, hx, -, h1⟩ := (C54_constant (mu := 2) (by norm_num) 1 0).2 le_rfl
  obtain ⟨y, hy, -, h2⟩ := (C54_constant (mu := 2) (by norm_num) 9 0).2 le_rfl
  obtain ⟨n, t, -, -, hrun, -, hmem, -⟩ := C63_samples (c0 := x) (c1 := y) (f0 := fun _ => 1) (f1 := fun _ => 9)
    (vmax := 10) (dv := 3) (by norm_num) (by norm_num)
    (fun v hv => ⟨(h1 v hv.le).2 (by positivity), by norm_num⟩)
    (fun v hv => ⟨(h2 v hv.le).2 (by positivity), by norm_num⟩)
  exact ⟨x, y, hx, hy, t, ⟨n + 1, hrun _ (by omega) _ _⟩, _, (hmem (5.5, _)).2 ⟨2, by norm_num, by norm_num, rfl⟩⟩

/-- Non-vacuity of the failure: a table that ends at 5, sampled up to `5 + dv/2`. -/
example : ∃ x, mkData false 2 exTable = .ok x ∧
    ∀ fuel, mkAveraged false x x 5 1 2 (fuel + 1) = some (.error .outOfRange) := by
  obtain ⟨x, hx⟩ := exTable_ok
  refine ⟨x, hx, fun fuel => C63_failure (by norm_num) (by norm_num) ?_ _ _ _ (by omega)⟩
  have := C59_unavailable (l := [(1, 0), (2, 0), (3, 4)]) (d := (5, 8)) exTable_inc hx (by norm_num) (.inl rfl)
    (v := 5 + 1 / 2 * 1) (by norm_num)
  simp only [avgSigma, this, bind, Except.bind]

end Chimp
