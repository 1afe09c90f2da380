import Verif.Model.Session
import Verif.Props.Whole
import Verif.Props.CreateMissing

/-! # Lemmas for `Model/Session.lean` -/

namespace Chimp

variable {W : Type}

/-! ### Specification vocabulary -/

/-- The first elastic equation of a list. -/
def FirstElasticW (l : List (WEq W)) (w : WEq W) : Prop :=
  ∃ pre post, l = pre ++ w :: post ∧ w.eq.isElastic = true ∧ ∀ x ∈ pre, x.eq.isElastic = false

/-- The equation was loaded from an `Interaction` of the document found for species `A` and `B` and kept by the
filter. -/
def FromDoc (T : Tools W) (D : SDoc) (f : Filter) (db : Registry ℝ) (A B : ℕ) (w : WEq W) : Prop :=
  ∃ k ∈ cellNodes D.doc f db A B, ∃ x, D.doc.nodes[k]? = some x ∧
    loadEq db csNames modelNames x.node = .ok w.eq ∧ completeEq T db w.eq (D.inter k) = .ok w

/-- The cross section of `w` is made of those of `w1` and `w2`. -/
def Averages (T : Tools W) (w w1 w2 : WEq W) : Prop :=
  (w1.eq.csModel ∈ easyLabels ∧ w2.eq.csModel ∈ easyLabels ∧ w.cs = mkAvgEasy w1.cs w2.cs) ∨
  (¬ (w1.eq.csModel ∈ easyLabels ∧ w2.eq.csModel ∈ easyLabels) ∧ ∃ vmax dv, 0 < vmax ∧ 0 < dv ∧
    mkAveraged T.extrapolate w1.cs w2.cs vmax dv w.mu.value (avgFuel vmax dv) = some (.ok w.cs))

/-- The equation was created from the elastic equations that stand for the species `A` and `B` in the table. -/
def MadeIn (T : Tools W) (db : Registry ℝ) (t : UTable (WSet W)) (A B : ℕ) (w : WEq W) : Prop :=
  A < B ∧ w.Created db A B ∧ ∃ wa wb, FirstElasticW (t.cell A A).rhs wa ∧ FirstElasticW (t.cell B B).rhs wb ∧
    (Averages T w wa wb ∨ Averages T w wb wa)

/-- As `Averages`, with the range and the resolution of the samples given. -/
def AveragesAt (T : Tools W) (vmax dv : ℝ) (w w1 w2 : WEq W) : Prop :=
  (w1.eq.csModel ∈ easyLabels ∧ w2.eq.csModel ∈ easyLabels ∧ w.cs = mkAvgEasy w1.cs w2.cs) ∨
  (¬ (w1.eq.csModel ∈ easyLabels ∧ w2.eq.csModel ∈ easyLabels) ∧ 0 < vmax ∧ 0 < dv ∧
    mkAveraged T.extrapolate w1.cs w2.cs vmax dv w.mu.value (avgFuel vmax dv) = some (.ok w.cs))

/-- As `MadeIn`, with the range and the resolution of the samples given. -/
def MadeAt (T : Tools W) (vmax dv : ℝ) (db : Registry ℝ) (t : UTable (WSet W)) (A B : ℕ) (w : WEq W) : Prop :=
  A < B ∧ w.Created db A B ∧ ∃ wa wb, FirstElasticW (t.cell A A).rhs wa ∧ FirstElasticW (t.cell B B).rhs wb ∧
    (AveragesAt T vmax dv w wa wb ∨ AveragesAt T vmax dv w wb wa)

/-- `t'` arises from `t` by adding equations at the ends of entries. -/
def Grows (t t' : UTable (WSet W)) : Prop :=
  t'.side = t.side ∧ ∀ A B, ∃ l, (t'.cell A B).rhs = (t.cell A B).rhs ++ l

/-- Every equation of the table is from a document (`P`) or created. -/
def AllFrom (T : Tools W) (P : ℕ → ℕ → WEq W → Prop) (db : Registry ℝ) (t : UTable (WSet W)) : Prop :=
  t.side = db.length ∧ ∀ A B, A ≤ B → B < db.length → ∀ w ∈ (t.cell A B).rhs, P A B w ∨ MadeIn T db t A B w

/-! ### Elementary facts -/

theorem Grows.refl (t : UTable (WSet W)) : Grows t t := ⟨rfl, fun _ _ => ⟨[], by simp⟩⟩

theorem Grows.trans {t t' t'' : UTable (WSet W)} (h : Grows t t') (h' : Grows t' t'') : Grows t t'' := by
  refine ⟨h'.1.trans h.1, fun A B => ?_⟩
  obtain ⟨l, hl⟩ := h.2 A B
  obtain ⟨l', hl'⟩ := h'.2 A B
  exact ⟨l ++ l', by rw [hl', hl, List.append_assoc]⟩

theorem FirstElasticW.append {l : List (WEq W)} {w : WEq W} (h : FirstElasticW l w) (m : List (WEq W)) :
    FirstElasticW (l ++ m) w := by
  obtain ⟨a, b, rfl, h1, h2⟩ := h
  exact ⟨a, b ++ m, by simp, h1, h2⟩

theorem FirstElasticW.mem {l : List (WEq W)} {w : WEq W} (h : FirstElasticW l w) :
    w ∈ l ∧ w.eq.isElastic = true := by
  obtain ⟨a, b, rfl, h1, -⟩ := h
  exact ⟨by simp, h1⟩

theorem AveragesAt.averages {T : Tools W} {vmax dv : ℝ} {w w1 w2 : WEq W} (h : AveragesAt T vmax dv w w1 w2) :
    Averages T w w1 w2 :=
  h.imp id fun ⟨h1, h2, h3, h4⟩ => ⟨h1, vmax, dv, h2, h3, h4⟩

theorem MadeAt.made {T : Tools W} {vmax dv : ℝ} {db : Registry ℝ} {t : UTable (WSet W)} {A B : ℕ} {w : WEq W}
    (h : MadeAt T vmax dv db t A B w) : MadeIn T db t A B w := by
  obtain ⟨h1, h2, wa, wb, h3, h4, h5⟩ := h
  exact ⟨h1, h2, wa, wb, h3, h4, h5.imp AveragesAt.averages AveragesAt.averages⟩

theorem MadeAt.mono {T : Tools W} {vmax dv : ℝ} {db : Registry ℝ} {t t' : UTable (WSet W)} (hg : Grows t t') {A B : ℕ}
    {w : WEq W} (h : MadeAt T vmax dv db t A B w) : MadeAt T vmax dv db t' A B w := by
  obtain ⟨h1, h2, wa, wb, h3, h4, h5⟩ := h
  obtain ⟨la, hla⟩ := hg.2 A A
  obtain ⟨lb, hlb⟩ := hg.2 B B
  exact ⟨h1, h2, wa, wb, by rw [hla]; exact h3.append la, by rw [hlb]; exact h4.append lb, h5⟩

theorem MadeIn.mono {T : Tools W} {db : Registry ℝ} {t t' : UTable (WSet W)} (hg : Grows t t') {A B : ℕ} {w : WEq W}
    (h : MadeIn T db t A B w) : MadeIn T db t' A B w := by
  obtain ⟨h1, h2, wa, wb, h3, h4, h5⟩ := h
  obtain ⟨la, hla⟩ := hg.2 A A
  obtain ⟨lb, hlb⟩ := hg.2 B B
  exact ⟨h1, h2, wa, wb, by rw [hla]; exact h3.append la, by rw [hlb]; exact h4.append lb, h5⟩

theorem getElastic_iff (s : WSet W) (w : WEq W) : s.getElastic = some w ↔ FirstElasticW s.rhs w := by
  unfold WSet.getElastic FirstElasticW
  rw [List.find?_eq_some_iff_append]
  constructor
  · rintro ⟨h, as, bs, h1, h2⟩
    exact ⟨as, bs, h1, h, fun x hx => by simpa using h2 x hx⟩
  · rintro ⟨as, bs, h1, h, h2⟩
    exact ⟨h, as, bs, h1, fun x hx => by simpa using h2 x hx⟩

theorem FirstElasticW.unique {l : List (WEq W)} {w w' : WEq W} (h : FirstElasticW l w) (h' : FirstElasticW l w') :
    w = w' := by
  have h1 := (getElastic_iff ⟨(Term.single 0, Term.single 0), l⟩ w).2 h
  have h2 := (getElastic_iff ⟨(Term.single 0, Term.single 0), l⟩ w').2 h'
  exact Option.some.inj (h1.symm.trans h2)

theorem pushEq_grows (t : UTable (WSet W)) (a b : ℕ) (w : WEq W) : Grows t (pushEq t a b w) := by
  refine ⟨rfl, fun A B => ?_⟩
  unfold pushEq UTable.modify
  dsimp only
  split
  · exact ⟨[w], rfl⟩
  · exact ⟨[], by simp⟩

theorem pushEq_cell (t : UTable (WSet W)) {a b : ℕ} (w : WEq W) {A B : ℕ} {x : WEq W}
    (h : x ∈ ((pushEq t a b w).cell A B).rhs) :
    x ∈ (t.cell A B).rhs ∨ (x = w ∧ A = min a b ∧ B = max a b) := by
  unfold pushEq UTable.modify at h
  dsimp only at h
  split at h
  · rename_i hc
    rcases List.mem_append.1 h with h | h
    · exact .inl h
    · exact .inr ⟨List.mem_singleton.1 h, hc⟩
  · exact .inl h

theorem sortProps_of_sorted {r : Registry ℝ} (hs : r.Pairwise MassNameBefore) : sortProps r = r := by
  unfold sortProps
  refine List.Pairwise.insertionSort_eq (hs.imp fun {a b} hab => ?_)
  exact Props.lt_asymm ((Props.lt_iff a b).2 hab)

theorem sorted_mass {r : Registry ℝ} (hs : r.Pairwise MassNameBefore) {i j : ℕ} (hij : i < j) {p q : Props ℝ}
    (hi : r[i]? = some p) (hj : r[j]? = some q) : p.mass ≤ q.mass := by
  obtain ⟨li, ei⟩ := List.getElem?_eq_some_iff.1 hi
  obtain ⟨lj, ej⟩ := List.getElem?_eq_some_iff.1 hj
  rcases List.pairwise_iff_getElem.1 hs i j li lj hij with h | ⟨h, -⟩
  · rw [ei, ej] at h; exact h.le
  · rw [ei, ej] at h; exact h.le

/-- The bound on the number of rounds is never reached. -/
theorem sampleLoop_enough (s0 s1 : ℝ → Except XErr ℝ) {dv : ℝ} : ∀ (fuel : ℕ) (v : ℝ) (t : XTable),
    v ≤ fuel * dv → sampleLoop s0 s1 dv (fuel + 1) v t ≠ none
  | 0, v, t, h => by
    unfold sampleLoop
    rw [if_neg (by simpa using h)]
    simp
  | fuel + 1, v, t, h => by
    unfold sampleLoop
    split
    · split
      · simp
      · exact sampleLoop_enough s0 s1 fuel _ _ (by push_cast at h; linarith)
    · simp

theorem avgFuel_enough (allowed : Bool) (c0 c1 : XSec) {vmax dv : ℝ} (hdv : 0 < dv) (mu : ℝ) :
    mkAveraged allowed c0 c1 vmax dv mu (avgFuel vmax dv) ≠ none := by
  have h := sampleLoop_enough c0.sigma c1.sigma (dv := dv) ⌈(vmax + 1 / 2 * dv) / dv⌉₊ (vmax + 1 / 2 * dv) [] (by
    have := Nat.le_ceil ((vmax + 1 / 2 * dv) / dv)
    rwa [div_le_iff₀ hdv] at this)
  unfold mkAveraged avgFuel
  cases hs : sampleLoop c0.sigma c1.sigma dv (⌈(vmax + 1 / 2 * dv) / dv⌉₊ + 1) (vmax + 1 / 2 * dv) [] with
  | none => exact absurd hs h
  | some r => cases r <;> simp

/-! ### Averaged tables -/

theorem sampleLoop_outcome {s0 s1 : ℝ → Except XErr ℝ} {dv : ℝ} (hdv : 0 < dv) : ∀ (fuel : ℕ) (v : ℝ) (t : XTable)
    (r : Except XErr XTable), Increasing t → (∀ e ∈ t, v < e.1) → sampleLoop s0 s1 dv fuel v t = some r →
    (∀ x, r = .error x → ∃ k : ℕ, 0 < v - k * dv ∧ avgSigma s0 s1 (v - k * dv) = .error x) ∧
    ∀ u, r = .ok u → Increasing u ∧ (∀ d ∈ t, d ∈ u) ∧
      (∀ k : ℕ, 0 < v - k * dv → ∃ s, avgSigma s0 s1 (v - k * dv) = .ok s ∧ (v - k * dv, s) ∈ u) ∧
      ∀ d ∈ u, d ∈ t ∨ ∃ k : ℕ, 0 < v - k * dv ∧ d.1 = v - k * dv ∧ avgSigma s0 s1 d.1 = .ok d.2
  | 0, v, t, r, _, _, h => by cases h
  | fuel + 1, v, t, r, hi, ht, h => by
    unfold sampleLoop at h
    by_cases hv : v > 0
    · rw [if_pos hv] at h
      cases ha : avgSigma s0 s1 v with
      | error x =>
        rw [ha] at h
        cases h
        refine ⟨fun y hy => ?_, fun u hu => by cases hu⟩
        cases hy
        exact ⟨0, by simpa using hv, by simpa using ha⟩
      | ok s =>
        rw [ha] at h
        have hins : XTable.insert t (v, s) = (v, s) :: t := by
          refine insert_front t (v, s) fun e he => ht e (List.mem_of_mem_head? he)
        dsimp only at h
        rw [hins] at h
        obtain ⟨i1, i2⟩ := sampleLoop_outcome hdv fuel (v - dv) ((v, s) :: t) r
          (List.pairwise_cons.2 ⟨fun e he => ht e he, hi⟩)
          (fun e he => by
            rcases List.mem_cons.1 he with rfl | he
            · simpa using hdv
            · have := ht e he; linarith) h
        have hk : ∀ k : ℕ, v - dv - k * dv = v - ((k + 1 : ℕ) : ℝ) * dv := by intro k; push_cast; ring
        refine ⟨fun x hx => ?_, fun u hu => ?_⟩
        · obtain ⟨k, h1, h2⟩ := i1 x hx
          rw [hk] at h1 h2
          exact ⟨k + 1, h1, h2⟩
        · obtain ⟨j1, j2, j3, j4⟩ := i2 u hu
          refine ⟨j1, fun d hd => j2 d (List.mem_cons_of_mem _ hd), fun k h1 => ?_, fun d hd => ?_⟩
          · cases k with
            | zero => exact ⟨s, by simpa using ha, by simpa using j2 (v, s) List.mem_cons_self⟩
            | succ k =>
              have := j3 k (by rw [hk]; exact h1)
              rwa [hk] at this
          · rcases j4 d hd with hd' | ⟨k, h1, h2, h3⟩
            · rcases List.mem_cons.1 hd' with rfl | hd'
              · exact .inr ⟨0, by simpa using hv, by simp, ha⟩
              · exact .inl hd'
            · exact .inr ⟨k + 1, by rw [← hk]; exact h1, by rw [← hk]; exact h2, h3⟩
    · rw [if_neg hv] at h
      cases h
      refine ⟨fun y hy => (by cases hy), fun u hu => ?_⟩
      cases hu
      refine ⟨hi, fun _ hd => hd, fun k hk => ?_, fun d hd => .inl hd⟩
      have : (0 : ℝ) ≤ k * dv := by positivity
      linarith

theorem averaged_ok {allowed : Bool} {c0 c1 x : XSec} {vmax dv mu : ℝ} {fuel : ℕ} (hdv : 0 < dv)
    (h : mkAveraged allowed c0 c1 vmax dv mu fuel = some (.ok x)) (k : ℕ) (hk : 0 < vmax + 1 / 2 * dv - k * dv) :
    ∃ s, avgSigma c0.sigma c1.sigma (vmax + 1 / 2 * dv - k * dv) = .ok s ∧
      x.sigma (vmax + 1 / 2 * dv - k * dv) = .ok s := by
  unfold mkAveraged at h
  cases hs : sampleLoop c0.sigma c1.sigma dv fuel (vmax + 1 / 2 * dv) [] with
  | none => rw [hs] at h; cases h
  | some r =>
    rw [hs] at h
    cases r with
    | error e => cases h
    | ok t =>
      obtain ⟨j1, -, j3, -⟩ := (sampleLoop_outcome hdv fuel _ [] _ List.Pairwise.nil (by simp) hs).2 t rfl
      obtain ⟨s, h1, h2⟩ := j3 k hk
      exact ⟨s, h1, C57_points j1 (Option.some.inj h) h2⟩

theorem averaged_error {allowed : Bool} {c0 c1 : XSec} {vmax dv mu : ℝ} {fuel : ℕ} (hv : 0 < vmax) (hdv : 0 < dv)
    {x : XErr} (h : mkAveraged allowed c0 c1 vmax dv mu fuel = some (.error x)) :
    (∃ k : ℕ, 0 < vmax + 1 / 2 * dv - k * dv ∧
      avgSigma c0.sigma c1.sigma (vmax + 1 / 2 * dv - k * dv) = .error x) ∨
    (x = .ub ∧ ∀ k : ℕ, 0 < vmax + 1 / 2 * dv - k * dv →
      avgSigma c0.sigma c1.sigma (vmax + 1 / 2 * dv - k * dv) = .ok 0) := by
  unfold mkAveraged at h
  cases hs : sampleLoop c0.sigma c1.sigma dv fuel (vmax + 1 / 2 * dv) [] with
  | none => rw [hs] at h; cases h
  | some r =>
    rw [hs] at h
    have hout := sampleLoop_outcome hdv fuel _ [] _ List.Pairwise.nil (by simp) hs
    cases r with
    | error e =>
      cases h
      exact .inl (hout.1 _ rfl)
    | ok t =>
      obtain ⟨j1, -, j3, j4⟩ := hout.2 t rfl
      right
      have hm : mkData allowed mu t = .error x := Option.some.inj h
      have hne : t ≠ [] := by
        obtain ⟨s, -, h2⟩ := j3 0 (by simp; positivity)
        rintro rfl
        cases h2
      unfold mkData at hm
      rcases table_cases t with rfl | ⟨-, hz⟩ | ⟨zs, d, l, rfl, hz, hd⟩
      · exact absurd rfl hne
      · rw [checkThreshold_zeros t hne hz] at hm
        cases hm
        refine ⟨rfl, fun k hk => ?_⟩
        obtain ⟨s, h1, h2⟩ := j3 k hk
        rw [h1, show s = 0 from hz _ h2]
      · rw [checkThreshold_eq zs hz d hd l] at hm
        cases hm

/-! ### Filling the table -/

theorem loadNode_ok {T : Tools W} {d : SDoc} {db : Registry ℝ} {k : ℕ} {w : WEq W} (h : loadNode T d db k = .ok w) :
    ∃ x, d.doc.nodes[k]? = some x ∧ loadEq db csNames modelNames x.node = .ok w.eq ∧
      completeEq T db w.eq (d.inter k) = .ok w := by
  unfold loadNode at h
  split at h
  · cases h
  rename_i x hx
  split at h
  · cases h
  rename_i e he
  split at h
  · cases h
  rename_i w' hw
  cases h
  obtain ⟨_, _, _, _, hwe, _⟩ := completeEq_ok hw
  exact ⟨x, hx, by rw [hwe]; exact he, by rw [hwe]; exact hw⟩

theorem pushAll_spec {T : Tools W} {d : SDoc} {db : Registry ℝ} : ∀ (ks : List ℕ) (l : List (WEq W)),
    ∃ es, (pushAll T d db ks l).1 = l ++ es ∧ (∀ w ∈ es, ∃ k ∈ ks, loadNode T d db k = .ok w) ∧
      ((pushAll T d db ks l).2 = none → List.Forall₂ (fun k w => loadNode T d db k = .ok w) ks es) ∧
      (∀ e, (pushAll T d db ks l).2 = some e → ∃ k ∈ ks, loadNode T d db k = .error e)
  | [], l => ⟨[], by simp [pushAll], by simp, fun _ => .nil, by simp [pushAll]⟩
  | k :: ks, l => by
    cases hk : loadNode T d db k with
    | error e =>
      refine ⟨[], ?_, by simp, ?_, ?_⟩
      · simp [pushAll, hk]
      · simp [pushAll, hk]
      · intro e' he'
        simp only [pushAll, hk, Option.some.injEq] at he'
        exact ⟨k, List.mem_cons_self, by rw [hk, he']⟩
    | ok w =>
      obtain ⟨es, h1, h2, h3, h4⟩ := pushAll_spec ks (l ++ [w]) (T := T) (d := d) (db := db)
      refine ⟨w :: es, ?_, ?_, ?_, ?_⟩
      · simp [pushAll, hk, h1]
      · intro x hx
        rcases List.mem_cons.1 hx with rfl | hx
        · exact ⟨k, List.mem_cons_self, hk⟩
        · obtain ⟨j, hj, hj'⟩ := h2 x hx
          exact ⟨j, List.mem_cons_of_mem _ hj, hj'⟩
      · simp only [pushAll, hk]
        exact fun h => .cons hk (h3 h)
      · simp only [pushAll, hk]
        intro e he
        obtain ⟨j, hj, hj'⟩ := h4 e he
        exact ⟨j, List.mem_cons_of_mem _ hj, hj'⟩

theorem fillW_spec {T : Tools W} {d : SDoc} {f : Filter} {db : Registry ℝ} :
    ∀ (l : List (ℕ × ℕ)) (t : UTable (WSet W)), l.Nodup → (∀ A B, (A, B) ∈ l → A ≤ B ∧ B < db.length) →
    (fillW T d f db l t).1.side = t.side ∧
    (∀ A B, ∃ es, ((fillW T d f db l t).1.cell A B).rhs = (t.cell A B).rhs ++ es ∧
      ∀ w ∈ es, ∃ k ∈ cellNodes d.doc f db A B, loadNode T d db k = .ok w) ∧
    ((fillW T d f db l t).2 = none → ∀ A B, (A, B) ∈ l → ∃ es,
      List.Forall₂ (fun k w => loadNode T d db k = .ok w) (cellNodes d.doc f db A B) es ∧
      (fillW T d f db l t).1.cell A B = ⟨(Term.single A, Term.single B), (t.cell A B).rhs ++ es⟩) ∧
    (∀ A B, (A, B) ∉ l → (fillW T d f db l t).1.cell A B = t.cell A B) ∧
    (∀ e, (fillW T d f db l t).2 = some e → ∃ A B, (A, B) ∈ l ∧ ∃ k ∈ cellNodes d.doc f db A B,
      loadNode T d db k = .error e)
  | [], t, _, _ => by
    simp only [fillW, List.not_mem_nil, not_false_eq_true, false_imp_iff, implies_true, true_and,
      reduceCtorEq, and_true]
    exact fun A B => ⟨[], by simp, by simp⟩
  | (A, B) :: l, t, hnd, hr => by
    rw [List.nodup_cons] at hnd
    obtain ⟨hAB, hB⟩ := hr A B List.mem_cons_self
    have ha : db[A]? = some (db[A]'(by omega)) := List.getElem?_eq_getElem (by omega)
    have hb : db[B]? = some (db[B]'hB) := List.getElem?_eq_getElem hB
    have hcn : cellNodes d.doc f db A B =
        f.apply d.doc (queryNodes d.doc db A B (db[A]'(by omega)).name (db[B]'hB).name) := by
      simp only [cellNodes, ha, hb]
    have hmin : min A B = A := min_eq_left hAB
    have hmax : max A B = B := max_eq_right hAB
    simp only [fillW, ha, hb, ← hcn, hmin, hmax]
    obtain ⟨es, p1, p2, p3, p4⟩ := pushAll_spec (T := T) (d := d) (db := db) (cellNodes d.doc f db A B) (t.cell A B).rhs
    generalize hr' : pushAll T d db (cellNodes d.doc f db A B) (t.cell A B).rhs = r at p1 p3 p4
    set t' : UTable (WSet W) := t.modify A B fun _ => ⟨(Term.single A, Term.single B), r.1⟩ with ht'
    have hne : ∀ a b, (a, b) ≠ (A, B) → t'.cell a b = t.cell a b := by
      intro a b hab
      simp only [ht', UTable.modify, hmin, hmax]
      rw [if_neg (by rintro ⟨rfl, rfl⟩; exact hab rfl)]
    have hself : t'.cell A B = ⟨(Term.single A, Term.single B), (t.cell A B).rhs ++ es⟩ := by
      simp [ht', UTable.modify, hmin, hmax, p1]
    cases hr2 : r.2 with
    | some e =>
      dsimp only
      refine ⟨rfl, fun a b => ?_, by simp, fun a b hab => ?_, fun e' he' => ?_⟩
      · by_cases hab : (a, b) = (A, B)
        · cases hab
          exact ⟨es, by rw [hself], p2⟩
        · exact ⟨[], by rw [hne a b hab]; simp, by simp⟩
      · rw [List.mem_cons, not_or] at hab
        exact hne a b hab.1
      · cases he'
        exact ⟨A, B, List.mem_cons_self, p4 e hr2⟩
    | none =>
      dsimp only
      obtain ⟨i1, i2, i3, i4, i5⟩ := fillW_spec l t' hnd.2 (fun a b hab => hr a b (List.mem_cons_of_mem _ hab))
        (T := T) (d := d) (f := f) (db := db)
      refine ⟨i1, fun a b => ?_, fun hn a b hab => ?_, fun a b hab => ?_, fun e he => ?_⟩
      · by_cases hab : (a, b) = (A, B)
        · cases hab
          exact ⟨es, by rw [i4 A B hnd.1, hself], p2⟩
        · obtain ⟨es', j1, j2⟩ := i2 a b
          exact ⟨es', by rw [j1, hne a b hab], j2⟩
      · rcases List.mem_cons.1 hab with h' | h'
        · cases h'
          exact ⟨es, p3 hr2, by rw [i4 A B hnd.1, hself]⟩
        · obtain ⟨es', j1, j2⟩ := i3 hn a b h'
          refine ⟨es', j1, ?_⟩
          rw [j2, hne a b (by rintro hc; exact hnd.1 (hc ▸ h'))]
      · rw [List.mem_cons, not_or] at hab
        rw [i4 a b hab.2, hne a b hab.1]
      · obtain ⟨a, b, h1, h2⟩ := i5 e he
        exact ⟨a, b, List.mem_cons_of_mem _ h1, h2⟩

/-! ### Creating -/

/-- The equations of single species have that species twice. -/
def DiagOK (db : Registry ℝ) (t : UTable (WSet W)) : Prop :=
  t.side = db.length ∧ ∀ a, a < db.length → ∀ w ∈ (t.cell a a).rhs, w.eq.A = Term.single a ∧ w.eq.B = Term.single a

theorem get?W_of_lt {t : UTable (WSet W)} {a b : ℕ} (ha : a < t.side) (hb : b < t.side) :
    t.get? a b = some (t.cell (min a b) (max a b)) := by
  unfold UTable.get?; rw [if_pos ⟨ha, hb⟩]

/-- Averaging the elastic equations that stand for `a` and `b` throws `x`. -/
def AverageFails (T : Tools W) (t : UTable (WSet W)) (vmax dv : ℝ) (a b : ℕ) (x : XErr) : Prop :=
  ∃ wa wb mu, FirstElasticW (t.cell a a).rhs wa ∧ FirstElasticW (t.cell b b).rhs wb ∧ 0 < vmax ∧ 0 < dv ∧
    mkAveraged T.extrapolate wa.cs wb.cs vmax dv mu (avgFuel vmax dv) = some (.error x)

/-- One step: nothing is added, or averaging throws, or one equation is added. -/
theorem cmStepW_cases {T : Tools W} {db : Registry ℝ} (hs : db.Pairwise MassNameBefore) {vmax dv : ℝ}
    {t : UTable (WSet W)} (ok : DiagOK db t) {a b : ℕ} (ha : a < db.length) (hb : b < db.length) :
    cmStepW T db vmax dv t a b = .ok (t, false) ∨
    (∃ x, cmStepW T db vmax dv t a b = .error (.average x) ∧ a ≠ b ∧ AverageFails T t vmax dv a b x) ∨
    ∃ w, cmStepW T db vmax dv t a b = .ok (pushEq t a b w, true) ∧ MadeAt T vmax dv db t (min a b) (max a b) w := by
  have haa : t.get? a a = some (t.cell a a) := by
    have := get?W_of_lt (t := t) (ok.1 ▸ ha) (ok.1 ▸ ha); simpa using this
  have hbb : t.get? b b = some (t.cell b b) := by
    have := get?W_of_lt (t := t) (ok.1 ▸ hb) (ok.1 ▸ hb); simpa using this
  have hab : t.get? a b = some (t.cell (min a b) (max a b)) := get?W_of_lt (ok.1 ▸ ha) (ok.1 ▸ hb)
  unfold cmStepW
  rw [haa, hbb, hab]
  dsimp only
  by_cases hc : (!(t.cell (min a b) (max a b)).hasElastic && (t.cell a a).hasElastic && (t.cell b b).hasElastic) = true
  swap
  · rw [if_neg hc]; exact .inl rfl
  rw [if_pos hc]
  simp only [Bool.and_eq_true, Bool.not_eq_eq_eq_not, Bool.not_true] at hc
  obtain ⟨⟨h1, h2⟩, h3⟩ := hc
  have get : ∀ s : WSet W, s.hasElastic = true → ∃ w, s.getElastic = some w := by
    intro s h
    unfold WSet.hasElastic at h
    rw [List.any_eq_true] at h
    obtain ⟨x, hx, hx'⟩ := h
    cases hg : s.getElastic with
    | some w => exact ⟨w, rfl⟩
    | none =>
      unfold WSet.getElastic at hg
      rw [List.find?_eq_none] at hg
      exact absurd hx' (hg x hx)
  obtain ⟨wa, ga⟩ := get _ h2
  obtain ⟨wb, gb⟩ := get _ h3
  rw [ga, gb]
  have fa := (getElastic_iff _ _).1 ga
  have fb := (getElastic_iff _ _).1 gb
  obtain ⟨a1, a2⟩ := ok.2 a ha wa fa.mem.1
  obtain ⟨b1, b2⟩ := ok.2 b hb wb fb.mem.1
  have hne : a ≠ b := by
    rintro rfl
    rw [min_self, max_self, h2] at h1
    cases h1
  dsimp only
  simp only [a1, a2, b1, b2, single_eqv, Bool.not_true, Bool.false_or]
  rw [if_neg (by simp [Term.single])]
  have hpa : db[a]? = some (db[a]'ha) := List.getElem?_eq_getElem ha
  have hpb : db[b]? = some (db[b]'hb) := List.getElem?_eq_getElem hb
  obtain ⟨A, B, p, q, hord, hA, hB, hcr⟩ : ∃ A B p q, orderByMass db (Term.single a) (Term.single b) = some (A, B) ∧
      db[A.species.toNat]? = some p ∧ db[B.species.toNat]? = some q ∧
      ∀ c m cs, (⟨⟨A, B, [A, B], c, m⟩, ReducedMass.mk' p.mass q.mass, cs, .elastic, none⟩ : WEq W).Created db
        (min a b) (max a b) := by
    unfold orderByMass
    simp only [Term.single, Int.toNat_natCast, hpa, hpb]
    rw [if_neg (by omega)]
    rcases lt_or_gt_of_ne hne with hlt | hgt
    · have hm := sorted_mass hs hlt hpa hpb
      rw [if_pos hm, min_eq_left hlt.le, max_eq_right hlt.le]
      refine ⟨_, _, _, _, rfl, by simp only [Int.toNat_natCast]; exact hpa, by simp only [Int.toNat_natCast]; exact hpb,
        fun c m cs => ⟨rfl, rfl, rfl, _, _, hpa, hpb, rfl, .inl ⟨rfl, rfl⟩⟩⟩
    · have hm := sorted_mass hs hgt hpb hpa
      rw [min_eq_right hgt.le, max_eq_left hgt.le]
      by_cases hle : (db[a]'ha).mass ≤ (db[b]'hb).mass
      · have he := le_antisymm hle hm
        rw [if_pos hle]
        refine ⟨_, _, _, _, rfl, by simp only [Int.toNat_natCast]; exact hpa, by simp only [Int.toNat_natCast]; exact hpb,
          fun c m cs => ⟨rfl, rfl, rfl, _, _, hpb, hpa, by rw [he], .inr ⟨he.symm, rfl, rfl⟩⟩⟩
      · rw [if_neg hle]
        refine ⟨_, _, _, _, rfl, by simp only [Int.toNat_natCast]; exact hpb, by simp only [Int.toNat_natCast]; exact hpa,
          fun c m cs => ⟨rfl, rfl, rfl, _, _, hpb, hpa, rfl, .inl ⟨rfl, rfl⟩⟩⟩
  rw [hord]
  dsimp only
  rw [hA, hB]
  dsimp only
  have made : ∀ w : WEq W, w.Created db (min a b) (max a b) → AveragesAt T vmax dv w wa wb →
      MadeAt T vmax dv db t (min a b) (max a b) w := by
    intro w hw hav
    refine ⟨by omega, hw, ?_⟩
    rcases lt_or_gt_of_ne hne with hlt | hgt
    · rw [min_eq_left hlt.le, max_eq_right hlt.le]
      exact ⟨wa, wb, fa, fb, .inl hav⟩
    · rw [min_eq_right hgt.le, max_eq_left hgt.le]
      exact ⟨wb, wa, fb, fa, .inr hav⟩
  by_cases heasy : wa.eq.csModel ∈ easyLabels ∧ wb.eq.csModel ∈ easyLabels
  · rw [if_pos heasy]
    exact .inr (.inr ⟨_, rfl, made _ (hcr _ _ _) (.inl ⟨heasy.1, heasy.2, rfl⟩)⟩)
  · rw [if_neg heasy]
    by_cases hr : 0 < vmax ∧ 0 < dv
    · rw [if_pos hr]
      cases hm : mkAveraged T.extrapolate wa.cs wb.cs vmax dv (ReducedMass.mk' p.mass q.mass).value (avgFuel vmax dv) with
      | none => exact absurd hm (avgFuel_enough _ _ _ hr.2 _)
      | some r =>
        cases r with
        | error x => exact .inr (.inl ⟨x, rfl, hne, wa, wb, _, fa, fb, hr.1, hr.2, hm⟩)
        | ok cs => exact .inr (.inr ⟨_, rfl, made _ (hcr _ _ _) (.inr ⟨heasy, hr.1, hr.2, hm⟩)⟩)
    · rw [if_neg hr]; exact .inl rfl

theorem DiagOK.push {db : Registry ℝ} {t : UTable (WSet W)} (ok : DiagOK db t) {a b : ℕ} (hne : a ≠ b) (w : WEq W) :
    DiagOK db (pushEq t a b w) := by
  refine ⟨ok.1, fun c hc x hx => ?_⟩
  rcases pushEq_cell t w hx with h | ⟨-, h1, h2⟩
  · exact ok.2 c hc x h
  · omega

theorem cmLoopW_spec {T : Tools W} {db : Registry ℝ} (hs : db.Pairwise MassNameBefore) {vmax dv : ℝ} :
    ∀ (l : List (ℕ × ℕ)) (t : UTable (WSet W)) (n : ℕ), DiagOK db t →
    (∀ p ∈ l, p.1 < db.length ∧ p.2 < db.length) →
    DiagOK db (cmLoopW T db vmax dv l t n).1 ∧ Grows t (cmLoopW T db vmax dv l t n).1 ∧
    (∀ A B, ∃ new, (cmLoopW T db vmax dv l t n).1.cell A B = ⟨(t.cell A B).lhs, (t.cell A B).rhs ++ new⟩ ∧
      ∀ w ∈ new, MadeAt T vmax dv db (cmLoopW T db vmax dv l t n).1 A B w) ∧
    ((∃ k, (cmLoopW T db vmax dv l t n).2 = .ok k) ∨ ∃ x, (cmLoopW T db vmax dv l t n).2 = .error (.average x) ∧
      ∃ p ∈ l, p.1 ≠ p.2 ∧ AverageFails T t vmax dv p.1 p.2 x)
  | [], t, n, ok, _ => ⟨ok, Grows.refl t, fun _ _ => ⟨[], by simp [cmLoopW], by simp⟩, .inl ⟨n, rfl⟩⟩
  | (a, b) :: l, t, n, ok, hl => by
    obtain ⟨ha, hb⟩ := hl (a, b) List.mem_cons_self
    have hl' : ∀ p ∈ l, p.1 < db.length ∧ p.2 < db.length := fun p hp => hl p (List.mem_cons_of_mem _ hp)
    simp only [cmLoopW]
    rcases cmStepW_cases (T := T) hs (vmax := vmax) (dv := dv) ok ha hb with h | ⟨x, h, hx⟩ | ⟨w, h, hw⟩
    · rw [h]
      obtain ⟨i1, i2, i3, i5⟩ := cmLoopW_spec hs l t (if false = true then n + 1 else n) ok hl' (T := T)
        (vmax := vmax) (dv := dv)
      exact ⟨i1, i2, i3, i5.imp id fun ⟨x, h1, p, hp, h2⟩ => ⟨x, h1, p, List.mem_cons_of_mem _ hp, h2⟩⟩
    · rw [h]
      exact ⟨ok, Grows.refl t, fun _ _ => ⟨[], by simp, by simp⟩, .inr ⟨x, rfl, (a, b), List.mem_cons_self, hx⟩⟩
    · rw [h]
      have hne : a ≠ b := by have := hw.1; omega
      obtain ⟨i1, i2, i3, i5⟩ := cmLoopW_spec hs l (pushEq t a b w) (n + 1) (ok.push hne w) hl' (T := T)
        (vmax := vmax) (dv := dv)
      have hg := pushEq_grows t a b w
      have hdiag : ∀ c, (pushEq t a b w).cell c c = t.cell c c := by
        intro c
        unfold pushEq UTable.modify
        dsimp only
        rw [if_neg (by omega)]
      refine ⟨i1, hg.trans i2, fun A B => ?_, i5.imp id fun ⟨x, h1, p, hp, h2, h3⟩ =>
        ⟨x, h1, p, List.mem_cons_of_mem _ hp, h2, by unfold AverageFails at h3 ⊢; simpa only [hdiag] using h3⟩⟩
      obtain ⟨new, n1, n2⟩ := i3 A B
      dsimp only
      rw [if_pos rfl]
      by_cases hAB : A = min a b ∧ B = max a b
      · refine ⟨w :: new, ?_, fun x hx => ?_⟩
        · rw [n1]
          unfold pushEq UTable.modify
          dsimp only
          rw [if_pos hAB]
          simp
        · rcases List.mem_cons.1 hx with rfl | hx
          · rw [hAB.1, hAB.2]; exact hw.mono (hg.trans i2)
          · exact n2 x hx
      · refine ⟨new, ?_, n2⟩
        rw [n1]
        unfold pushEq UTable.modify
        dsimp only
        rw [if_neg hAB]

/-! ### Relation to `Model/CreateMissing.lean` -/

/-- Forgetting masses, cross sections and models. -/
def WSet.erase (s : WSet W) : ISet := ⟨s.lhs, s.rhs.map WEq.eq⟩

def eraseT (t : UTable (WSet W)) : UTable ISet := ⟨t.side, fun a b => (t.cell a b).erase⟩

/-- Whether averaging succeeds for the two equations, which are those that stand for their species. -/
noncomputable def avgOkOf (T : Tools W) (db : Registry ℝ) (t : UTable (WSet W)) (vmax dv : ℝ) (e e' : LEq) : Bool :=
  match (t.cell e.A.species.toNat e.A.species.toNat).getElastic,
    (t.cell e'.A.species.toNat e'.A.species.toNat).getElastic, db[e.A.species.toNat]?, db[e'.A.species.toNat]? with
  | some wa, some wb, some p, some q =>
    match mkAveraged T.extrapolate wa.cs wb.cs vmax dv
      (if p.mass ≤ q.mass then ReducedMass.mk' p.mass q.mass else ReducedMass.mk' q.mass p.mass).value
      (avgFuel vmax dv) with
    | some (.ok _) => true
    | _ => false
  | _, _, _, _ => false

/-- The exceptions of `Model/CreateMissing.lean`. -/
def SErr.toCM : SErr → CMErr
  | .create e => e
  | _ => .averaging

theorem erase_hasElastic (s : WSet W) : hasElastic s.erase = s.hasElastic := by
  unfold hasElastic WSet.erase WSet.hasElastic
  rw [List.any_map]; rfl

theorem erase_getElastic (s : WSet W) : getElastic s.erase = s.getElastic.map WEq.eq := by
  unfold getElastic WSet.erase WSet.getElastic
  rw [List.find?_map]; rfl

theorem erase_get? (t : UTable (WSet W)) (a b : ℕ) : (eraseT t).get? a b = (t.get? a b).map WSet.erase := by
  unfold UTable.get? eraseT
  split <;> rfl

theorem erase_push (t : UTable (WSet W)) (a b : ℕ) (w : WEq W) :
    eraseT (pushEq t a b w) = (eraseT t).modify a b fun s => { s with rhs := s.rhs ++ [w.eq] } := by
  unfold eraseT pushEq UTable.modify
  congr 1
  funext c d
  dsimp only
  split
  · simp [WSet.erase]
  · rfl

theorem cmStep_erase {T : Tools W} {db : Registry ℝ} {vmax dv : ℝ} {t0 t : UTable (WSet W)} (ok : DiagOK db t)
    (h0 : ∀ a, t.cell a a = t0.cell a a) {a b : ℕ} (ha : a < db.length) (hb : b < db.length) :
    cmStep db (avgOkOf T db t0 vmax dv) (decide (0 < vmax) && decide (0 < dv)) (eraseT t) a b =
      match cmStepW T db vmax dv t a b with
      | .ok (t', f) => .ok (eraseT t', f)
      | .error e => .error e.toCM := by
  have haa : t.get? a a = some (t.cell a a) := by
    have := get?W_of_lt (t := t) (ok.1 ▸ ha) (ok.1 ▸ ha); simpa using this
  have hbb : t.get? b b = some (t.cell b b) := by
    have := get?W_of_lt (t := t) (ok.1 ▸ hb) (ok.1 ▸ hb); simpa using this
  have hab : t.get? a b = some (t.cell (min a b) (max a b)) := get?W_of_lt (ok.1 ▸ ha) (ok.1 ▸ hb)
  have hpa : db[a]? = some (db[a]'ha) := List.getElem?_eq_getElem ha
  have hpb : db[b]? = some (db[b]'hb) := List.getElem?_eq_getElem hb
  unfold cmStep cmStepW
  simp only [erase_get?, haa, hbb, hab, Option.map_some, erase_hasElastic, erase_getElastic]
  by_cases hc : (!(t.cell (min a b) (max a b)).hasElastic && (t.cell a a).hasElastic && (t.cell b b).hasElastic) = true
  swap
  · rw [if_neg hc, if_neg hc]
  rw [if_pos hc, if_pos hc]
  cases ga : (t.cell a a).getElastic with
  | none => rfl
  | some wa =>
  cases gb : (t.cell b b).getElastic with
  | none => rfl
  | some wb =>
  have fa := (getElastic_iff _ _).1 ga
  have fb := (getElastic_iff _ _).1 gb
  obtain ⟨a1, a2⟩ := ok.2 a ha wa fa.mem.1
  obtain ⟨b1, b2⟩ := ok.2 b hb wb fb.mem.1
  simp only [Option.map_some, a1, a2, b1, b2, single_eqv, Bool.not_true, Bool.false_or]
  rw [if_neg (by simp [Term.single]), if_neg (by simp [Term.single])]
  have hav : avgOkOf T db t0 vmax dv wa.eq wb.eq =
      match mkAveraged T.extrapolate wa.cs wb.cs vmax dv
        (if (db[a]'ha).mass ≤ (db[b]'hb).mass then ReducedMass.mk' (db[a]'ha).mass (db[b]'hb).mass
          else ReducedMass.mk' (db[b]'hb).mass (db[a]'ha).mass).value (avgFuel vmax dv) with
      | some (.ok _) => true
      | _ => false := by
    unfold avgOkOf
    simp only [a1, b1, Term.single, Int.toNat_natCast, ← h0, ga, gb, hpa, hpb]
  obtain ⟨A, B, p, q, hord, hA, hB, hmu⟩ : ∃ A B p q, orderByMass db (Term.single a) (Term.single b) = some (A, B) ∧
      db[A.species.toNat]? = some p ∧ db[B.species.toNat]? = some q ∧
      (if (db[a]'ha).mass ≤ (db[b]'hb).mass then ReducedMass.mk' (db[a]'ha).mass (db[b]'hb).mass
          else ReducedMass.mk' (db[b]'hb).mass (db[a]'ha).mass) = ReducedMass.mk' p.mass q.mass := by
    unfold orderByMass
    simp only [Term.single, Int.toNat_natCast, hpa, hpb]
    rw [if_neg (by omega)]
    by_cases hle : (db[a]'ha).mass ≤ (db[b]'hb).mass
    · rw [if_pos hle, if_pos hle]
      exact ⟨_, _, _, _, rfl, by simp only [Int.toNat_natCast]; exact hpa, by simp only [Int.toNat_natCast]; exact hpb, rfl⟩
    · rw [if_neg hle, if_neg hle]
      exact ⟨_, _, _, _, rfl, by simp only [Int.toNat_natCast]; exact hpb, by simp only [Int.toNat_natCast]; exact hpa, rfl⟩
  rw [hmu] at hav
  simp only [hord, hA, hB, hav]
  by_cases heasy : wa.eq.csModel ∈ easyLabels ∧ wb.eq.csModel ∈ easyLabels
  · rw [if_pos heasy, if_pos heasy]
    simp only [erase_push]
  · rw [if_neg heasy, if_neg heasy]
    by_cases hr : 0 < vmax ∧ 0 < dv
    · rw [if_pos hr, if_pos (by simp [hr])]
      cases hm : mkAveraged T.extrapolate wa.cs wb.cs vmax dv (ReducedMass.mk' p.mass q.mass).value (avgFuel vmax dv) with
      | none => rfl
      | some r =>
        cases r with
        | error x => rfl
        | ok cs => simp only [if_true, erase_push]
    · rw [if_neg hr, if_neg (by simpa using hr)]

theorem cmLoop_erase {T : Tools W} {db : Registry ℝ} (hs : db.Pairwise MassNameBefore) {vmax dv : ℝ}
    {t0 : UTable (WSet W)} : ∀ (l : List (ℕ × ℕ)) (t : UTable (WSet W)) (n : ℕ), DiagOK db t →
    (∀ a, t.cell a a = t0.cell a a) → (∀ p ∈ l, p.1 < db.length ∧ p.2 < db.length) →
    cmLoop db (avgOkOf T db t0 vmax dv) (decide (0 < vmax) && decide (0 < dv)) l (eraseT t) n =
      (eraseT (cmLoopW T db vmax dv l t n).1, match (cmLoopW T db vmax dv l t n).2 with
        | .ok k => .ok k
        | .error e => .error e.toCM)
  | [], t, n, _, _, _ => rfl
  | (a, b) :: l, t, n, ok, h0, hl => by
    obtain ⟨ha, hb⟩ := hl (a, b) List.mem_cons_self
    have hl' : ∀ p ∈ l, p.1 < db.length ∧ p.2 < db.length := fun p hp => hl p (List.mem_cons_of_mem _ hp)
    simp only [cmLoop, cmLoopW, cmStep_erase (T := T) (vmax := vmax) (dv := dv) ok h0 ha hb]
    rcases cmStepW_cases (T := T) hs (vmax := vmax) (dv := dv) ok ha hb with h | ⟨x, h, -⟩ | ⟨w, h, hw⟩
    · rw [h]
      exact cmLoop_erase hs l t _ ok h0 hl'
    · rw [h]
    · rw [h]
      have hne : a ≠ b := by have := hw.1; omega
      refine cmLoop_erase hs l (pushEq t a b w) (n + 1) (ok.push hne w) (fun c => ?_) hl'
      rw [← h0 c]
      unfold pushEq UTable.modify
      dsimp only
      rw [if_neg (by omega)]

end Chimp
