import Verif.Model.CreateMissing
import Verif.Props.Table

/-! # Lemmas on creating missing elastic cross sections -/

namespace Chimp

variable {K : Type}

/-! ### Specification vocabulary -/

/-- The entry for species `a` and `b`. -/
def UTable.entry (t : UTable ISet) (a b : ℕ) : ISet := t.cell (min a b) (max a b)

/-- The entry has an elastic equation. -/
def ElasticIn (t : UTable ISet) (a b : ℕ) : Prop := ∃ e ∈ (t.entry a b).rhs, e.isElastic = true

/-- `e` is the first elastic equation of a list. -/
def FirstElastic (l : List LEq) (e : LEq) : Prop :=
  ∃ pre post, l = pre ++ e :: post ∧ e.isElastic = true ∧ ∀ x ∈ pre, x.isElastic = false

/-- The elastic cross section that stands for species `a` is of an easily averaged kind. -/
def EasySpecies (t : UTable ISet) (a : ℕ) : Prop :=
  ∃ e, FirstElastic (t.entry a a).rhs e ∧
    (e.csModel = "vhs" ∨ e.csModel = "log" ∨ e.csModel = "constant" ∨ e.csModel = "inverse")

/-- The pair lacks an elastic equation and one can be made. -/
def Missing (t : UTable ISet) (ranged : Prop) (a b : ℕ) : Prop :=
  ¬ ElasticIn t a b ∧ ElasticIn t a a ∧ ElasticIn t b b ∧ (ranged ∨ (EasySpecies t a ∧ EasySpecies t b))

/-- The equation made for species `a` and `b`: an elastic collision of one particle of each, the lighter
first, with the simple average if both cross sections are of the easy kinds and a table otherwise. -/
def NewEquation (db : Registry K) [LE K] (t : UTable ISet) (a b : ℕ) (e : LEq) : Prop :=
  e.products = [e.A, e.B] ∧ e.model = "elastic" ∧
  (EasySpecies t a ∧ EasySpecies t b → e.csModel = "averaged_diameters_easy") ∧
  (¬ (EasySpecies t a ∧ EasySpecies t b) → e.csModel = "averaged_diameters") ∧
  ((e.A = Term.single a ∧ e.B = Term.single b) ∨ (e.A = Term.single b ∧ e.B = Term.single a)) ∧
  ∃ p q, db[e.A.species.toNat]? = some p ∧ db[e.B.species.toNat]? = some q ∧ p.mass ≤ q.mass

/-- What initialisation guarantees (C07) and the call needs: the table covers the species, and equations of
a single species entry have twice that species as reactants. -/
structure TableOK (db : Registry K) (t : UTable ISet) : Prop where
  side : t.side = db.length
  diag : ∀ a, a < db.length → ∀ e ∈ (t.cell a a).rhs, e.A = Term.single a ∧ e.B = Term.single a

/-! ### Elementary facts -/

theorem entry_comm (t : UTable ISet) (a b : ℕ) : t.entry a b = t.entry b a := by
  unfold UTable.entry; rw [min_comm, max_comm]

theorem elasticIn_comm (t : UTable ISet) (a b : ℕ) : ElasticIn t a b ↔ ElasticIn t b a := by
  unfold ElasticIn; rw [entry_comm]

theorem missing_comm (t : UTable ISet) (r : Prop) (a b : ℕ) : Missing t r a b ↔ Missing t r b a := by
  unfold Missing; rw [elasticIn_comm]; tauto

theorem missing_ne {t : UTable ISet} {r : Prop} {a b : ℕ} (h : Missing t r a b) : a ≠ b := by
  rintro rfl; exact h.1 h.2.1

theorem hasElastic_iff (t : UTable ISet) (a b : ℕ) : hasElastic (t.entry a b) = true ↔ ElasticIn t a b := by
  unfold hasElastic ElasticIn; rw [List.any_eq_true]

theorem firstElastic_iff (l : List LEq) (e : LEq) : l.find? LEq.isElastic = some e ↔ FirstElastic l e := by
  unfold FirstElastic
  rw [List.find?_eq_some_iff_append]
  constructor
  · rintro ⟨h, as, bs, h1, h2⟩
    exact ⟨as, bs, h1, h, fun x hx => by simpa using h2 x hx⟩
  · rintro ⟨as, bs, h1, h, h2⟩
    exact ⟨h, as, bs, h1, fun x hx => by simpa using h2 x hx⟩

theorem firstElastic_mem {l : List LEq} {e : LEq} (h : FirstElastic l e) : e ∈ l ∧ e.isElastic = true := by
  obtain ⟨p, q, rfl, h, _⟩ := h; exact ⟨by simp, h⟩

theorem easySpecies_iff {t : UTable ISet} {a : ℕ} {e : LEq} (h : getElastic (t.entry a a) = some e) :
    EasySpecies t a ↔ e.csModel ∈ easyLabels := by
  unfold EasySpecies easyLabels
  simp only [List.mem_cons, List.not_mem_nil, or_false]
  constructor
  · rintro ⟨e', he', h'⟩
    rw [← firstElastic_iff] at he'
    have : some e = some e' := h.symm.trans he'
    cases this; exact h'
  · intro h'
    exact ⟨e, (firstElastic_iff _ _).1 h, h'⟩

theorem setEq_refl : ∀ l : List Term, setEq l l = true := fun l => (setEq_iff l l).2 rfl

theorem new_isElastic (A B : Term) (c m : String) (h : A.species ≠ B.species) :
    (⟨A, B, [A, B], c, m⟩ : LEq).isElastic = true := by
  unfold LEq.isElastic
  simp only [if_neg h, List.foldl_cons, List.foldl_nil]
  exact setEq_refl _

theorem get?_of_lt {t : UTable ISet} {a b : ℕ} (ha : a < t.side) (hb : b < t.side) :
    t.get? a b = some (t.entry a b) := by
  unfold UTable.get? UTable.entry; rw [if_pos ⟨ha, hb⟩]

theorem single_eqv (a : ℕ) : (Term.single (a : ℤ)).eqv (Term.single a) = true := by
  simp [Term.eqv]

theorem getElastic_of {t : UTable ISet} {a : ℕ} (h : ElasticIn t a a) :
    ∃ e, getElastic (t.entry a a) = some e ∧ e ∈ (t.entry a a).rhs := by
  obtain ⟨e, he, hel⟩ := h
  cases hg : getElastic (t.entry a a) with
  | none =>
    unfold getElastic at hg
    rw [List.find?_eq_none] at hg
    exact absurd hel (hg e he)
  | some e' => exact ⟨e', rfl, List.mem_of_find?_eq_some hg⟩

theorem entry_modify_self (t : UTable ISet) (a b : ℕ) (f : ISet → ISet) :
    (t.modify a b f).entry a b = f (t.entry a b) := by
  simp [UTable.modify, UTable.entry]

theorem cell_modify_of_ne (t : UTable ISet) (a b : ℕ) (f : ISet → ISet) (c d : ℕ)
    (h : (c, d) ≠ (min a b, max a b)) : (t.modify a b f).cell c d = t.cell c d := by
  simp only [UTable.modify]
  rw [if_neg (by rintro ⟨rfl, rfl⟩; exact h rfl)]

/-! ### One step -/

theorem cmStep_spec [LinearOrder K] {db : Registry K} {avgOk : LEq → LEq → Bool} {ranged : Bool} {t : UTable ISet}
    (ok : TableOK db t) {a b : ℕ} (ha : a < db.length) (hb : b < db.length) :
    (¬ Missing t (ranged = true) a b → cmStep db avgOk ranged t a b = .ok (t, false)) ∧
    (Missing t (ranged = true) a b →
      (cmStep db avgOk ranged t a b = .error .averaging ∧ ranged = true ∧
        ∃ ea eb, FirstElastic (t.entry a a).rhs ea ∧ FirstElastic (t.entry b b).rhs eb ∧ avgOk ea eb = false) ∨
      ∃ e, NewEquation db t a b e ∧ e.isElastic = true ∧
        cmStep db avgOk ranged t a b =
          .ok (t.modify a b (fun s => { s with rhs := s.rhs ++ [e] }), true)) := by
  have haa : t.get? a a = some (t.entry a a) := get?_of_lt (ok.side ▸ ha) (ok.side ▸ ha)
  have hbb : t.get? b b = some (t.entry b b) := get?_of_lt (ok.side ▸ hb) (ok.side ▸ hb)
  have hab : t.get? a b = some (t.entry a b) := get?_of_lt (ok.side ▸ ha) (ok.side ▸ hb)
  unfold cmStep
  rw [haa, hbb, hab]
  simp only
  by_cases hc : (!hasElastic (t.entry a b) && hasElastic (t.entry a a) && hasElastic (t.entry b b)) = true
  · rw [if_pos hc]
    simp only [Bool.and_eq_true, Bool.not_eq_eq_eq_not, Bool.not_true] at hc
    obtain ⟨⟨h1, h2⟩, h3⟩ := hc
    have h1' : ¬ ElasticIn t a b := fun h => by
      rw [(hasElastic_iff t a b).2 h] at h1; cases h1
    rw [hasElastic_iff] at h2 h3
    obtain ⟨ea, ga, ma⟩ := getElastic_of h2
    obtain ⟨eb, gb, mb⟩ := getElastic_of h3
    rw [ga, gb]
    have ea1 : t.entry a a = t.cell a a := by simp [UTable.entry]
    have eb1 : t.entry b b = t.cell b b := by simp [UTable.entry]
    obtain ⟨a1, a2⟩ := ok.diag a ha ea (ea1 ▸ ma)
    obtain ⟨b1, b2⟩ := ok.diag b hb eb (eb1 ▸ mb)
    have hne : a ≠ b := by rintro rfl; exact h1' h2
    have hmiss : Missing t (ranged = true) a b ↔
        (ranged = true ∨ (ea.csModel ∈ easyLabels ∧ eb.csModel ∈ easyLabels)) := by
      unfold Missing
      rw [easySpecies_iff ga, easySpecies_iff gb]
      tauto
    simp only [a1, a2, b1, b2, single_eqv, Bool.not_true, Bool.false_or]
    rw [if_neg (by simp [Term.single])]
    have hpa : db[a]? = some (db[a]'ha) := List.getElem?_eq_getElem ha
    have hpb : db[b]? = some (db[b]'hb) := List.getElem?_eq_getElem hb
    obtain ⟨A, B, hord, hAB, hmass⟩ : ∃ A B, orderByMass db (Term.single a) (Term.single b) = some (A, B) ∧
        ((A = Term.single a ∧ B = Term.single b) ∨ (A = Term.single b ∧ B = Term.single a)) ∧
        ∃ p q, db[A.species.toNat]? = some p ∧ db[B.species.toNat]? = some q ∧ p.mass ≤ q.mass := by
      unfold orderByMass
      simp only [Term.single, Int.toNat_natCast, hpa, hpb]
      rw [if_neg (by omega)]
      by_cases hm : (db[a]'ha).mass ≤ (db[b]'hb).mass
      · rw [if_pos hm]
        exact ⟨_, _, rfl, .inl ⟨rfl, rfl⟩, _, _, by simp only [Int.toNat_natCast]; exact hpa,
          by simp only [Int.toNat_natCast]; exact hpb, hm⟩
      · rw [if_neg hm]
        exact ⟨_, _, rfl, .inr ⟨rfl, rfl⟩, _, _, by simp only [Int.toNat_natCast]; exact hpb,
          by simp only [Int.toNat_natCast]; exact hpa, (not_le.1 hm).le⟩
    rw [hord]
    simp only
    have hsp : A.species ≠ B.species := by
      rcases hAB with ⟨rfl, rfl⟩ | ⟨rfl, rfl⟩ <;> simp only [Term.single] <;> omega
    have heasy_iff : EasySpecies t a ∧ EasySpecies t b ↔ ea.csModel ∈ easyLabels ∧ eb.csModel ∈ easyLabels := by
      rw [easySpecies_iff ga, easySpecies_iff gb]
    by_cases heasy : ea.csModel ∈ easyLabels ∧ eb.csModel ∈ easyLabels
    · rw [if_pos heasy]
      refine ⟨fun h => absurd (hmiss.2 (.inr heasy)) h, fun _ => .inr
        ⟨_, ⟨rfl, rfl, fun _ => rfl, fun h => absurd (heasy_iff.2 heasy) h, hAB, hmass⟩, ?_, rfl⟩⟩
      exact new_isElastic A B _ _ hsp
    · rw [if_neg heasy]
      by_cases hr : ranged = true
      · rw [if_pos hr]
        refine ⟨fun h => absurd (hmiss.2 (.inl hr)) h, fun _ => ?_⟩
        by_cases hav : avgOk ea eb = true
        · rw [if_pos hav]
          exact .inr ⟨_, ⟨rfl, rfl, fun h => absurd (heasy_iff.1 h) heasy, fun _ => rfl, hAB, hmass⟩,
            new_isElastic A B _ _ hsp, rfl⟩
        · rw [if_neg hav]
          exact .inl ⟨rfl, hr, ea, eb, (firstElastic_iff _ _).1 ga, (firstElastic_iff _ _).1 gb, by simpa using hav⟩
      · rw [if_neg hr]
        refine ⟨fun _ => rfl, fun h => ?_⟩
        exact absurd (hmiss.1 h) (by tauto)
  · rw [if_neg hc]
    refine ⟨fun _ => rfl, fun h => absurd ?_ hc⟩
    simp only [Bool.and_eq_true, Bool.not_eq_eq_eq_not, Bool.not_true]
    refine ⟨⟨?_, (hasElastic_iff _ _ _).2 h.2.1⟩, (hasElastic_iff _ _ _).2 h.2.2.1⟩
    cases hh : hasElastic (t.entry a b) with
    | false => rfl
    | true => exact absurd ((hasElastic_iff _ _ _).1 hh) h.1

/-! ### The effect of adding an equation -/

theorem tableOK_add {db : Registry K} {t : UTable ISet} (ok : TableOK db t) {a b : ℕ} (hne : a ≠ b) (e : LEq) :
    TableOK db (t.modify a b (fun s => { s with rhs := s.rhs ++ [e] })) := by
  refine ⟨ok.side, fun c hc x hx => ?_⟩
  rw [cell_modify_of_ne _ _ _ _ _ _ (by intro h; simp only [Prod.mk.injEq] at h; omega)] at hx
  exact ok.diag c hc x hx

theorem diag_entry_add {t : UTable ISet} {a b : ℕ} (hne : a ≠ b) (e : LEq) (c : ℕ) :
    (t.modify a b (fun s => { s with rhs := s.rhs ++ [e] })).entry c c = t.entry c c := by
  unfold UTable.entry
  exact cell_modify_of_ne _ _ _ _ _ _ (by intro h; simp only [Prod.mk.injEq] at h; omega)

theorem easySpecies_add {t : UTable ISet} {a b : ℕ} (hne : a ≠ b) (e : LEq) (c : ℕ) :
    EasySpecies (t.modify a b (fun s => { s with rhs := s.rhs ++ [e] })) c ↔ EasySpecies t c := by
  unfold EasySpecies; rw [diag_entry_add hne]

theorem newEquation_add [LE K] {db : Registry K} {t : UTable ISet} {a b : ℕ} (hne : a ≠ b) (e : LEq) {c d : ℕ} {x : LEq}
    (h : NewEquation db (t.modify a b (fun s => { s with rhs := s.rhs ++ [e] })) c d x) :
    NewEquation db t c d x := by
  unfold NewEquation at h ⊢
  rwa [easySpecies_add hne, easySpecies_add hne] at h

theorem missing_add {t : UTable ISet} {a b : ℕ} (hne : a ≠ b) {e : LEq} (he : e.isElastic = true) (r : Prop)
    (c d : ℕ) :
    Missing (t.modify a b (fun s => { s with rhs := s.rhs ++ [e] })) r c d ↔
      Missing t r c d ∧ (min c d, max c d) ≠ (min a b, max a b) := by
  have hd := diag_entry_add (t := t) hne e
  have h1 : ∀ c, ElasticIn (t.modify a b (fun s => { s with rhs := s.rhs ++ [e] })) c c ↔ ElasticIn t c c := by
    intro c; unfold ElasticIn; rw [hd]
  have h2 : ∀ c, EasySpecies (t.modify a b (fun s => { s with rhs := s.rhs ++ [e] })) c ↔ EasySpecies t c := by
    intro c; unfold EasySpecies; rw [hd]
  unfold Missing
  rw [h1, h1, h2, h2]
  by_cases hcd : (min c d, max c d) = (min a b, max a b)
  · have : ElasticIn (t.modify a b (fun s => { s with rhs := s.rhs ++ [e] })) c d := by
      have hent : (t.modify a b (fun s => { s with rhs := s.rhs ++ [e] })).entry c d =
          (t.modify a b (fun s => { s with rhs := s.rhs ++ [e] })).entry a b := by
        simp only [Prod.mk.injEq] at hcd
        unfold UTable.entry; rw [hcd.1, hcd.2]
      unfold ElasticIn
      rw [hent, entry_modify_self]
      exact ⟨e, by simp, he⟩
    simp [this, hcd]
  · have : ElasticIn (t.modify a b (fun s => { s with rhs := s.rhs ++ [e] })) c d ↔ ElasticIn t c d := by
      unfold ElasticIn UTable.entry
      rw [cell_modify_of_ne _ _ _ _ _ _ hcd]
    rw [this]
    simp [hcd]

/-! ### The loops -/

theorem cmLoop_spec [LinearOrder K] {db : Registry K} {avgOk : LEq → LEq → Bool} {ranged : Bool} :
    ∀ (l : List (ℕ × ℕ)) (t : UTable ISet) (n : ℕ), TableOK db t →
    (∀ p ∈ l, p.1 < db.length ∧ p.2 < db.length) →
    ∃ L : List (ℕ × ℕ), L.Nodup ∧ TableOK db (cmLoop db avgOk ranged l t n).1 ∧
      (∀ a b, (a, b) ∈ L → a < b ∧ ((a, b) ∈ l ∨ (b, a) ∈ l) ∧ Missing t (ranged = true) a b ∧
        ∃ e, NewEquation db t a b e ∧ e.isElastic = true ∧
          (cmLoop db avgOk ranged l t n).1.cell a b = ⟨(t.cell a b).lhs, (t.cell a b).rhs ++ [e]⟩) ∧
      (∀ a b, (a, b) ∉ L → (cmLoop db avgOk ranged l t n).1.cell a b = t.cell a b) ∧
      ((cmLoop db avgOk ranged l t n).2 = .ok (n + L.length) ∧
        (∀ a b, (a, b) ∈ l → Missing t (ranged = true) a b → (min a b, max a b) ∈ L) ∨
       (cmLoop db avgOk ranged l t n).2 = .error .averaging ∧ ranged = true ∧
        ∃ a b, (a, b) ∈ l ∧ Missing t (ranged = true) a b ∧ (min a b, max a b) ∉ L ∧
          ∃ ea eb, FirstElastic (t.entry a a).rhs ea ∧ FirstElastic (t.entry b b).rhs eb ∧ avgOk ea eb = false)
  | [], t, n, ok, _ => by
    refine ⟨[], List.nodup_nil, ok, by simp, by simp [cmLoop], .inl ⟨by simp [cmLoop], by simp⟩⟩
  | (a, b) :: l, t, n, ok, hl => by
    obtain ⟨ha, hb⟩ := hl (a, b) List.mem_cons_self
    obtain ⟨s1, s2⟩ := cmStep_spec (avgOk := avgOk) (ranged := ranged) ok ha hb
    have hl' : ∀ p ∈ l, p.1 < db.length ∧ p.2 < db.length := fun p hp => hl p (List.mem_cons_of_mem _ hp)
    simp only [cmLoop]
    by_cases hm : Missing t (ranged = true) a b
    · rcases s2 hm with ⟨h, hr, ea, eb, h1, h2, h3⟩ | ⟨e, hnew, hel, h⟩
      · rw [h]
        simp only
        exact ⟨[], List.nodup_nil, ok, by simp, by simp, .inr ⟨trivial, hr, a, b, List.mem_cons_self, hm, by simp,
          ea, eb, h1, h2, h3⟩⟩
      · rw [h]
        simp only [if_true]
        have hne := missing_ne hm
        obtain ⟨L, l1, l2, l3, l4, l5⟩ := cmLoop_spec l _ (n + 1) (tableOK_add ok hne e) hl' (avgOk := avgOk)
          (ranged := ranged)
        have hnotin : (min a b, max a b) ∉ L := by
          intro hin
          have := (l3 _ _ hin).2.2.1
          rw [missing_add hne hel] at this
          exact this.2 (by rw [min_eq_left (by omega), max_eq_right (by omega)])
        have hother : ∀ c d, (c, d) ∈ L → (c, d) ≠ (min a b, max a b) := fun c d hcd hc => hnotin (hc ▸ hcd)
        refine ⟨(min a b, max a b) :: L, List.nodup_cons.2 ⟨hnotin, l1⟩, l2, ?_, ?_, ?_⟩
        · intro c d hcd
          rcases List.mem_cons.1 hcd with h' | h'
          · simp only [Prod.mk.injEq] at h'
            obtain ⟨rfl, rfl⟩ := h'
            refine ⟨by omega, ?_, ?_, e, ?_, hel, ?_⟩
            · rcases le_total a b with hab | hab
              · left; rw [min_eq_left hab, max_eq_right hab]; exact List.mem_cons_self
              · right; rw [min_eq_right hab, max_eq_left hab]; exact List.mem_cons_self
            · rcases le_total a b with hab | hab
              · rwa [min_eq_left hab, max_eq_right hab]
              · rw [min_eq_right hab, max_eq_left hab]; exact (missing_comm _ _ _ _).1 hm
            · rcases le_total a b with hab | hab
              · rwa [min_eq_left hab, max_eq_right hab]
              · rw [min_eq_right hab, max_eq_left hab]
                exact ⟨hnew.1, hnew.2.1, fun h => hnew.2.2.1 h.symm, fun h => hnew.2.2.2.1 (fun h' => h h'.symm),
                  hnew.2.2.2.2.1.symm, hnew.2.2.2.2.2⟩
            · rw [l4 _ _ hnotin]
              exact entry_modify_self t a b _
          · obtain ⟨q1, q2, q3, e', q4, q5, q6⟩ := l3 c d h'
            have hcell := cell_modify_of_ne t a b (fun s => { s with rhs := s.rhs ++ [e] }) c d (hother c d h')
            rw [missing_add hne hel] at q3
            refine ⟨q1, q2.imp (List.mem_cons_of_mem _) (List.mem_cons_of_mem _), q3.1, e', newEquation_add hne e q4, q5, ?_⟩
            rw [q6, hcell]
        · intro c d hcd
          rw [List.mem_cons, not_or] at hcd
          rw [l4 c d hcd.2, cell_modify_of_ne _ _ _ _ _ _ hcd.1]
        · rcases l5 with ⟨r1, r2⟩ | ⟨r1, r2, c, d, r3, r4, r5, r6⟩
          · left
            refine ⟨by rw [r1, List.length_cons]; congr 1; omega, ?_⟩
            intro c d hcd hmiss
            by_cases hcd' : (min c d, max c d) = (min a b, max a b)
            · rw [hcd']; exact List.mem_cons_self
            · rcases List.mem_cons.1 hcd with h' | h'
              · cases h'; exact absurd rfl hcd'
              · exact List.mem_cons_of_mem _ (r2 c d h' ((missing_add hne hel _ _ _).2 ⟨hmiss, hcd'⟩))
          · right
            rw [missing_add hne hel] at r4
            rw [diag_entry_add hne, diag_entry_add hne] at r6
            refine ⟨r1, r2, c, d, List.mem_cons_of_mem _ r3, r4.1, ?_, r6⟩
            rw [List.mem_cons, not_or]
            exact ⟨r4.2, r5⟩
    · rw [s1 hm]
      simp only [Bool.false_eq_true, if_false]
      obtain ⟨L, l1, l2, l3, l4, l5⟩ := cmLoop_spec l t n ok hl' (avgOk := avgOk) (ranged := ranged)
      refine ⟨L, l1, l2, fun c d hcd => ?_, l4, ?_⟩
      · obtain ⟨q1, q2, q3⟩ := l3 c d hcd
        exact ⟨q1, q2.imp (List.mem_cons_of_mem _) (List.mem_cons_of_mem _), q3⟩
      · rcases l5 with ⟨r1, r2⟩ | ⟨r1, r2, c, d, r3, r4⟩
        · left
          refine ⟨r1, fun c d hcd hmiss => ?_⟩
          rcases List.mem_cons.1 hcd with h' | h'
          · cases h'; exact absurd hmiss hm
          · exact r2 c d h' hmiss
        · exact .inr ⟨r1, r2, c, d, List.mem_cons_of_mem _ r3, r4⟩

theorem mem_cmRange (n : ℕ) (i : ℤ) (x : ℕ) : x ∈ cmRange n i ↔ x < n ∧ (i < 0 ∨ i = x) := by
  unfold cmRange
  simp only
  by_cases hi : i ≥ 0
  · rw [if_pos hi]
    obtain ⟨k, rfl⟩ := Int.eq_ofNat_of_zero_le hi
    rw [max_eq_left (by omega), Int.toNat_natCast]
    by_cases hk : k < n
    · rw [List.drop_eq_getElem_cons (by simpa using hk)]
      simp only [List.getElem_range, List.take_succ_cons, List.take_zero, List.mem_singleton]
      omega
    · rw [List.drop_eq_nil_of_le (by simp; omega)]
      simp only [List.take_nil, List.not_mem_nil, false_iff]
      omega
  · rw [if_neg hi, max_eq_right (by omega)]
    simp only [Int.toNat_zero, List.drop_zero, List.mem_range]
    omega

theorem mem_cmPairs (n : ℕ) (i j : ℤ) (a b : ℕ) :
    (a, b) ∈ cmPairs n i j ↔ (a < n ∧ (i < 0 ∨ i = a)) ∧ b < n ∧ (j < 0 ∨ j = b) := by
  unfold cmPairs
  simp only [List.mem_flatMap, List.mem_map, Prod.mk.injEq, mem_cmRange]
  constructor
  · rintro ⟨a', h1, b', h2, rfl, rfl⟩; exact ⟨h1, h2⟩
  · rintro ⟨h1, h2⟩; exact ⟨a, h1, b, h2, rfl, rfl⟩

theorem effectiveRange_iff [Field K] [LinearOrder K] [IsStrictOrderedRing K] (dvmax ddv vmax dv : K) :
    (decide (0 < (effectiveRange dvmax ddv vmax dv).1) && decide (0 < (effectiveRange dvmax ddv vmax dv).2)) = true ↔
      0 < vmax ∨ 0 < dvmax := by
  unfold effectiveRange
  rw [Bool.and_eq_true, decide_eq_true_eq, decide_eq_true_eq]
  simp only
  have hcase : ∀ v : K, 0 < v →
      0 < (if (if dv ≤ 0 then ddv else dv) ≤ 0 then v / 100 else if dv ≤ 0 then ddv else dv) := by
    intro v hv
    by_cases hx : (if dv ≤ 0 then ddv else dv) ≤ 0
    · rw [if_pos hx]; exact div_pos hv (by norm_num)
    · rw [if_neg hx]; exact not_le.1 hx
  by_cases h : vmax ≤ 0
  · simp only [if_pos h]
    have h' : ¬ 0 < vmax := not_lt.2 h
    by_cases h2 : 0 < dvmax
    · rw [if_pos h2]
      simp only [h2, hcase _ h2, and_self, or_true]
    · simp [h2, h']
  · have h' := not_le.1 h
    simp only [if_neg h]
    rw [if_pos h']
    simp only [h', hcase _ h', and_self, true_or]

end Chimp
