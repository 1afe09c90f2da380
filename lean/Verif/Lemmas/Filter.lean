import Verif.Model.Filter
import Mathlib.Data.List.Sort
import Mathlib.Data.List.TakeWhile
import Mathlib.Data.List.Induction
import Mathlib.Order.Basic

/-! # Lemmas on sets of nodes and filters -/

namespace Chimp

/-- Strictly increasing. -/
abbrev Incr (l : List ℕ) : Prop := l.Pairwise (· < ·)

theorem mem_dropWhile_lt {bs : List ℕ} (h : Incr bs) (a k : ℕ) :
    k ∈ bs.dropWhile (· < a) ↔ k ∈ bs ∧ a ≤ k := by
  induction bs with
  | nil => simp
  | cons b bs ih =>
    obtain ⟨h1, h2⟩ := List.pairwise_cons.1 h
    rw [List.dropWhile_cons]
    by_cases hb : b < a
    · simp only [hb, decide_true, if_true, ih h2, List.mem_cons]
      constructor
      · rintro ⟨x, y⟩; exact ⟨.inr x, y⟩
      · rintro ⟨rfl | x, y⟩
        · omega
        · exact ⟨x, y⟩
    · simp only [hb, decide_false, Bool.false_eq_true, if_false]
      constructor
      · intro hk
        refine ⟨hk, ?_⟩
        rcases List.mem_cons.1 hk with rfl | hk
        · omega
        · have := h1 k hk; omega
      · exact fun x => x.1

theorem incr_dropWhile {bs : List ℕ} (h : Incr bs) (p : ℕ → Bool) : Incr (bs.dropWhile p) :=
  List.Pairwise.sublist (List.dropWhile_sublist _) h

theorem setInter_eq : ∀ (l m : List ℕ), Incr l → Incr m → setInter l m = l.filter (fun k => k ∈ m)
  | [], m, _, _ => by simp [setInter]
  | a :: as, bs, hl, hm => by
    obtain ⟨h1, h2⟩ := List.pairwise_cons.1 hl
    have hD := mem_dropWhile_lt hm a
    have hDs := incr_dropWhile hm (fun x => decide (x < a))
    simp only [setInter]
    rcases hd : bs.dropWhile (fun x => decide (x < a)) with _ | ⟨b, t⟩
    · rw [hd] at hD
      symm
      rw [List.filter_eq_nil_iff]
      intro k hk
      simp only [decide_eq_true_eq]
      intro hkb
      have : a ≤ k := by
        rcases List.mem_cons.1 hk with rfl | hk
        · exact le_rfl
        · exact (h1 k hk).le
      exact absurd ((hD k).2 ⟨hkb, this⟩) (by simp)
    · rw [hd] at hD hDs
      obtain ⟨g1, g2⟩ := List.pairwise_cons.1 hDs
      by_cases hba : b = a
      · subst hba
        have hb : b ∈ bs := ((hD b).1 List.mem_cons_self).1
        simp only [if_true]
        rw [List.filter_cons_of_pos (by simpa using hb), setInter_eq as t h2 g2]
        congr 1
        apply List.filter_congr
        intro k hk
        have hkb := h1 k hk
        have := hD k
        rw [List.mem_cons] at this
        simp only [decide_eq_decide]
        constructor
        · intro ht; exact (this.1 (.inr ht)).1
        · intro hb'
          rcases this.2 ⟨hb', hkb.le⟩ with rfl | h
          · omega
          · exact h
      · have ha : a ∉ bs := by
          intro hc
          have := (hD a).2 ⟨hc, le_rfl⟩
          rcases List.mem_cons.1 this with h | h
          · exact hba h.symm
          · have h3 := g1 a h
            have h4 := ((hD b).1 List.mem_cons_self).2
            omega
        simp only [if_neg hba]
        rw [List.filter_cons_of_neg (by simpa using ha), setInter_eq as (b :: t) h2 hDs]
        apply List.filter_congr
        intro k hk
        have hkb := h1 k hk
        simp only [decide_eq_decide]
        rw [hD k]
        exact ⟨fun h => h.1, fun h => ⟨h, hkb.le⟩⟩

theorem setDiff_eq : ∀ (l m : List ℕ), Incr l → Incr m → setDiff l m = l.filter (fun k => k ∉ m)
  | [], m, _, _ => by simp [setDiff]
  | a :: as, bs, hl, hm => by
    obtain ⟨h1, h2⟩ := List.pairwise_cons.1 hl
    have hD := mem_dropWhile_lt hm a
    have hDs := incr_dropWhile hm (fun x => decide (x < a))
    simp only [setDiff]
    rcases hd : bs.dropWhile (fun x => decide (x < a)) with _ | ⟨b, t⟩
    · rw [hd] at hD
      have hno : ∀ k, a ≤ k → k ∉ bs := fun k hk hkb => absurd ((hD k).2 ⟨hkb, hk⟩) (by simp)
      rw [List.filter_cons_of_pos (by simpa using hno a le_rfl), setDiff_eq as [] h2 List.Pairwise.nil]
      simp only
      congr 1
      apply List.filter_congr
      intro k hk
      simp [hno k (h1 k hk).le]
    · rw [hd] at hD hDs
      obtain ⟨g1, g2⟩ := List.pairwise_cons.1 hDs
      by_cases hba : b = a
      · subst hba
        have hb : b ∈ bs := ((hD b).1 List.mem_cons_self).1
        simp only [if_true]
        rw [List.filter_cons_of_neg (by simpa using hb), setDiff_eq as t h2 g2]
        apply List.filter_congr
        intro k hk
        have hkb := h1 k hk
        have := hD k
        rw [List.mem_cons] at this
        simp only [decide_eq_decide]
        apply not_congr
        constructor
        · intro ht; exact (this.1 (.inr ht)).1
        · intro hb'
          rcases this.2 ⟨hb', hkb.le⟩ with rfl | h
          · omega
          · exact h
      · have ha : a ∉ bs := by
          intro hc
          have := (hD a).2 ⟨hc, le_rfl⟩
          rcases List.mem_cons.1 this with h | h
          · exact hba h.symm
          · have h3 := g1 a h
            have h4 := ((hD b).1 List.mem_cons_self).2
            omega
        simp only [if_neg hba]
        rw [List.filter_cons_of_pos (by simpa using ha), setDiff_eq as (b :: t) h2 hDs]
        congr 1
        apply List.filter_congr
        intro k hk
        have hkb := h1 k hk
        simp only [decide_eq_decide]
        rw [hD k]
        apply not_congr
        exact ⟨fun h => h.1, fun h => ⟨h, hkb.le⟩⟩

theorem setUnion_spec : ∀ (l m : List ℕ), Incr l → Incr m →
    Incr (setUnion l m) ∧ ∀ k, k ∈ setUnion l m ↔ k ∈ l ∨ k ∈ m
  | [], m, _, hm => by simp [setUnion, hm]
  | a :: as, bs, hl, hm => by
    obtain ⟨h1, h2⟩ := List.pairwise_cons.1 hl
    have hD := mem_dropWhile_lt hm a
    have hDs := incr_dropWhile hm (fun x => decide (x < a))
    have hsplit := List.takeWhile_append_dropWhile (p := fun x => decide (x < a)) (l := bs)
    have hT : ∀ k ∈ bs.takeWhile (fun x => decide (x < a)), k < a := fun k hk => by
      simpa using List.mem_takeWhile_imp hk
    have hTs : Incr (bs.takeWhile (fun x => decide (x < a))) :=
      List.Pairwise.sublist (List.takeWhile_sublist _) hm
    have hmem : ∀ k, k ∈ bs ↔ k ∈ bs.takeWhile (fun x => decide (x < a)) ∨
        k ∈ bs.dropWhile (fun x => decide (x < a)) := by
      intro k
      conv_lhs => rw [← hsplit]
      exact List.mem_append
    simp only [setUnion]
    have hR : ∃ R, dropEq a (bs.dropWhile (fun x => decide (x < a))) = R ∧ Incr R ∧
        ∀ k, k ∈ R ↔ k ∈ bs.dropWhile (fun x => decide (x < a)) ∧ k ≠ a := by
      refine ⟨_, rfl, ?_⟩
      rcases hd : bs.dropWhile (fun x => decide (x < a)) with _ | ⟨b, t⟩
      · simp [dropEq]
      · rw [hd] at hD hDs
        simp only [dropEq]
        obtain ⟨g1, g2⟩ := List.pairwise_cons.1 hDs
        have hab := ((hD b).1 List.mem_cons_self).2
        by_cases hba : b = a
        · subst hba
          simp only [if_true]
          refine ⟨g2, fun k => ?_⟩
          constructor
          · intro hk; exact ⟨List.mem_cons_of_mem _ hk, (g1 k hk).ne'⟩
          · rintro ⟨hk, hne⟩
            rcases List.mem_cons.1 hk with h | h
            · exact absurd h hne
            · exact h
        · simp only [if_neg hba]
          refine ⟨hDs, fun k => ⟨fun hk => ⟨hk, ?_⟩, fun h => h.1⟩⟩
          rcases List.mem_cons.1 hk with h | h
          · exact h ▸ hba
          · have := g1 k h; omega
    obtain ⟨R, e, R1, R2⟩ := hR
    rw [e]
    obtain ⟨ih1, ih2⟩ := setUnion_spec as R h2 R1
    constructor
    · refine List.pairwise_append.2 ⟨hTs, List.pairwise_cons.2 ⟨?_, ih1⟩, ?_⟩
      · intro k hk
        rcases (ih2 k).1 hk with h | h
        · exact h1 k h
        · obtain ⟨x, y⟩ := (R2 k).1 h
          have := ((hD k).1 x).2
          omega
      · intro x hx y hy
        have hxa := hT x hx
        rcases List.mem_cons.1 hy with rfl | hy
        · exact hxa
        · rcases (ih2 y).1 hy with h | h
          · have := h1 y h; omega
          · have := ((hD y).1 ((R2 y).1 h).1).2; omega
    · intro k
      rw [List.mem_append, List.mem_cons, ih2, R2, hmem k, List.mem_cons]
      by_cases hk : k = a
      · simp [hk]
      · simp only [hk, ne_eq, not_false_eq_true, and_true, false_or]
        tauto

theorem natInsert_spec (k : ℕ) : ∀ l : List ℕ, Incr l →
    Incr (natInsert k l) ∧ ∀ j, j ∈ natInsert k l ↔ j = k ∨ j ∈ l
  | [], _ => by simp [natInsert]
  | a :: l, h => by
    obtain ⟨h1, h2⟩ := List.pairwise_cons.1 h
    obtain ⟨i1, i2⟩ := natInsert_spec k l h2
    simp only [natInsert]
    by_cases hka : k < a
    · rw [if_pos hka]
      refine ⟨List.pairwise_cons.2 ⟨?_, h⟩, by simp⟩
      intro j hj
      rcases List.mem_cons.1 hj with rfl | hj
      · exact hka
      · have := h1 j hj; omega
    · rw [if_neg hka]
      by_cases hak : a < k
      · rw [if_pos hak]
        refine ⟨List.pairwise_cons.2 ⟨?_, i1⟩, ?_⟩
        · intro j hj
          rcases (i2 j).1 hj with rfl | hj
          · exact hak
          · exact h1 j hj
        · intro j; rw [List.mem_cons, i2, List.mem_cons]; tauto
      · rw [if_neg hak]
        have : k = a := by omega
        subst this
        exact ⟨h, by simp⟩

theorem incr_filter {l : List ℕ} (h : Incr l) (p : ℕ → Bool) : Incr (l.filter p) :=
  List.Pairwise.sublist List.filter_sublist h

theorem incr_range_filter (n : ℕ) (p : ℕ → Bool) : Incr ((List.range n).filter p) :=
  incr_filter List.pairwise_lt_range p

/-! ### The map of PREFERRED sections -/

/-- The text of node `k`. -/
def textOf (doc : Doc) (k : ℕ) : Option (List Char) := (doc.nodes[k]?).map eqText

/-- Last element with a property. -/
def lastWhere (l : List ℕ) (p : ℕ → Bool) : Option ℕ := (l.filter p).getLast?

theorem lastWhere_snoc (l : List ℕ) (k : ℕ) (p : ℕ → Bool) :
    lastWhere (l ++ [k]) p = if p k then some k else lastWhere l p := by
  unfold lastWhere
  rw [List.filter_append]
  by_cases h : p k
  · simp [h]
  · simp [h]

theorem lastWhere_none {l : List ℕ} {p : ℕ → Bool} : lastWhere l p = none ↔ ∀ k ∈ l, p k = false := by
  unfold lastWhere
  rw [List.getLast?_eq_none_iff, List.filter_eq_nil_iff]
  simp

theorem lastWhere_some {l : List ℕ} (h : Incr l) {p : ℕ → Bool} {k : ℕ} :
    lastWhere l p = some k ↔ k ∈ l ∧ p k = true ∧ ∀ j ∈ l, p j = true → j ≤ k := by
  unfold lastWhere
  have hs := incr_filter h p
  constructor
  · intro hl
    have hk := List.mem_filter.1 (List.mem_of_getLast? hl)
    refine ⟨hk.1, hk.2, ?_⟩
    intro j hj hpj
    obtain ⟨ys, hys⟩ := List.getLast?_eq_some_iff.1 hl
    have hj' : j ∈ l.filter p := List.mem_filter.2 ⟨hj, hpj⟩
    rw [hys] at hj' hs
    rcases List.mem_append.1 hj' with h1 | h1
    · exact ((List.pairwise_append.1 hs).2.2 j h1 k (by simp)).le
    · simp at h1; omega
  · rintro ⟨h1, h2, h3⟩
    have hk : k ∈ l.filter p := List.mem_filter.2 ⟨h1, h2⟩
    cases hl : (l.filter p).getLast? with
    | none => rw [List.getLast?_eq_none_iff] at hl; rw [hl] at hk; simp at hk
    | some j =>
      obtain ⟨ys, hys⟩ := List.getLast?_eq_some_iff.1 hl
      have hj := List.mem_filter.1 (List.mem_of_getLast? hl)
      rw [hys] at hk hs
      have h4 := h3 j hj.1 hj.2
      rcases List.mem_append.1 hk with h5 | h5
      · have := (List.pairwise_append.1 hs).2.2 k h5 j (by simp); omega
      · simp at h5; rw [h5]

/-- Class of a node: 0 in the preferred section, 1 in the standard section, 2 elsewhere. -/
def secRank (doc : Doc) (name : String) (k : ℕ) : ℕ :=
  if doc.inSection name k then 0 else if doc.inSection "standard" k then 1 else 2

/-- Node `k` has text `key` and class `r`. -/
def hasKeyRank (doc : Doc) (name : String) (key : List Char) (r : ℕ) (k : ℕ) : Bool :=
  decide (textOf doc k = some key) && decide (secRank doc name k = r)

/-- The entry of the map for `key` after processing `l`. -/
def entryFor (doc : Doc) (name : String) (l : List ℕ) (key : List Char) : EqSet :=
  ⟨lastWhere l (hasKeyRank doc name key 0), lastWhere l (hasKeyRank doc name key 1),
    lastWhere l (hasKeyRank doc name key 2)⟩

theorem eqMapUpdate_mem (key : List Char) (f : EqSet → EqSet) : ∀ (m : List (List Char × EqSet)),
    (m.map Prod.fst).Nodup → ∀ k e, (k, e) ∈ eqMapUpdate key f m ↔
      (k ≠ key ∧ (k, e) ∈ m) ∨ (k = key ∧ ((∃ e0, (key, e0) ∈ m ∧ e = f e0) ∨
        ((∀ e0, (key, e0) ∉ m) ∧ e = f {})))
  | [], _, k, e => by simp [eqMapUpdate]
  | (k0, e0) :: m, hnd, k, e => by
    rw [List.map_cons, List.nodup_cons] at hnd
    have hno : ∀ e, (k0, e) ∉ m := fun e he => hnd.1 (List.mem_map.2 ⟨_, he, rfl⟩)
    simp only [eqMapUpdate]
    by_cases hk : k0 = key
    · subst hk
      rw [if_pos rfl]
      simp only [List.mem_cons, Prod.mk.injEq]
      constructor
      · rintro (⟨rfl, rfl⟩ | h)
        · exact .inr ⟨rfl, .inl ⟨e0, .inl ⟨trivial, rfl⟩, rfl⟩⟩
        · refine .inl ⟨?_, .inr h⟩
          rintro rfl; exact hno _ h
      · rintro (⟨hne, ⟨rfl, rfl⟩ | h⟩ | ⟨rfl, ⟨e1, ⟨_, rfl⟩ | h, rfl⟩ | ⟨h, rfl⟩⟩)
        · exact absurd rfl hne
        · exact .inr h
        · exact .inl ⟨rfl, rfl⟩
        · exact absurd h (hno _)
        · exact absurd (Or.inl ⟨trivial, rfl⟩) (h e0)
    · rw [if_neg hk]
      rw [List.mem_cons, eqMapUpdate_mem key f m hnd.2 k e]
      simp only [List.mem_cons, Prod.mk.injEq]
      constructor
      · rintro (⟨rfl, rfl⟩ | ⟨h1, h2⟩ | ⟨rfl, ⟨e1, h, rfl⟩ | ⟨h, rfl⟩⟩)
        · exact .inl ⟨hk, .inl ⟨rfl, rfl⟩⟩
        · exact .inl ⟨h1, .inr h2⟩
        · exact .inr ⟨rfl, .inl ⟨e1, .inr h, rfl⟩⟩
        · refine .inr ⟨rfl, .inr ⟨?_, rfl⟩⟩
          rintro e2 (⟨rfl, _⟩ | h2)
          · exact hk rfl
          · exact h e2 h2
      · rintro (⟨h1, ⟨rfl, rfl⟩ | h⟩ | ⟨rfl, ⟨e1, ⟨rfl, _⟩ | h, rfl⟩ | ⟨h, rfl⟩⟩)
        · exact .inl ⟨rfl, rfl⟩
        · exact .inr (.inl ⟨h1, h⟩)
        · exact absurd rfl hk
        · exact .inr (.inr ⟨rfl, .inl ⟨e1, h, rfl⟩⟩)
        · exact .inr (.inr ⟨rfl, .inr ⟨fun e2 h2 => h e2 (.inr h2), rfl⟩⟩)

theorem eqMapUpdate_keys (key : List Char) (f : EqSet → EqSet) : ∀ (m : List (List Char × EqSet)),
    (m.map Prod.fst).Nodup → ((eqMapUpdate key f m).map Prod.fst).Nodup
  | [], _ => by simp [eqMapUpdate]
  | (k0, e0) :: m, hnd => by
    have hnd' := List.nodup_cons.1 hnd
    simp only [eqMapUpdate]
    by_cases hk : k0 = key
    · rw [if_pos hk]; exact hnd
    · rw [if_neg hk, List.map_cons, List.nodup_cons]
      refine ⟨?_, eqMapUpdate_keys key f m hnd'.2⟩
      intro hc
      obtain ⟨⟨k, e⟩, he, hke⟩ := List.mem_map.1 hc
      simp only at hke
      subst hke
      rcases (eqMapUpdate_mem key f m hnd'.2 k e).1 he with ⟨_, h⟩ | ⟨h, _⟩
      · exact hnd'.1 (List.mem_map.2 ⟨_, h, rfl⟩)
      · exact hk h

theorem sectionMap_spec (doc : Doc) (name : String) (l : List ℕ) :
    ((sectionMap doc name l).map Prod.fst).Nodup ∧
    ∀ key e, (key, e) ∈ sectionMap doc name l ↔
      (∃ k ∈ l, textOf doc k = some key) ∧ e = entryFor doc name l key := by
  induction l using List.reverseRecOn with
  | nil => simp [sectionMap]
  | append_singleton l k ih =>
    obtain ⟨ih1, ih2⟩ := ih
    have hfold : sectionMap doc name (l ++ [k]) =
        match doc.nodes[k]? with
        | none => sectionMap doc name l
        | some x => eqMapUpdate (eqText x) (fun e =>
            if doc.inSection name k then { e with matched := some k }
            else if doc.inSection "standard" k then { e with standard := some k }
            else { e with unmatched := some k }) (sectionMap doc name l) := by
      simp only [sectionMap, List.foldl_append, List.foldl_cons, List.foldl_nil]
      all_goals (cases doc.nodes[k]? <;> rfl)
    rw [hfold]
    cases hx : doc.nodes[k]? with
    | none =>
      have ht : textOf doc k = none := by simp [textOf, hx]
      refine ⟨ih1, fun key e => ?_⟩
      simp only
      rw [ih2]
      have : entryFor doc name (l ++ [k]) key = entryFor doc name l key := by
        simp [entryFor, lastWhere_snoc, hasKeyRank, ht]
      rw [this]
      simp [ht]
    | some x =>
      have ht : textOf doc k = some (eqText x) := by simp [textOf, hx]
      refine ⟨eqMapUpdate_keys _ _ _ ih1, fun key e => ?_⟩
      simp only
      rw [eqMapUpdate_mem _ _ _ ih1]
      have hstep : ∀ e0, e0 = entryFor doc name l (eqText x) →
          (if doc.inSection name k then { e0 with matched := some k }
            else if doc.inSection "standard" k then { e0 with standard := some k }
            else { e0 with unmatched := some k } : EqSet) = entryFor doc name (l ++ [k]) (eqText x) := by
        rintro e0 rfl
        simp only [entryFor, lastWhere_snoc, hasKeyRank, ht, decide_true, Bool.true_and, secRank]
        by_cases h1 : doc.inSection name k = true
        · simp [h1]
        · by_cases h2 : doc.inSection "standard" k = true
          · simp [h1, h2]
          · simp [h1, h2]
      have hother : key ≠ eqText x → entryFor doc name (l ++ [k]) key = entryFor doc name l key := by
        intro hne
        simp [entryFor, lastWhere_snoc, hasKeyRank, ht, Ne.symm hne]
      constructor
      · rintro (⟨hne, hm⟩ | ⟨rfl, ⟨e0, hm, rfl⟩ | ⟨hm, rfl⟩⟩)
        · obtain ⟨⟨j, hj, hjt⟩, rfl⟩ := (ih2 _ _).1 hm
          exact ⟨⟨j, by simp [hj], hjt⟩, (hother hne).symm⟩
        · obtain ⟨_, he0⟩ := (ih2 _ _).1 hm
          exact ⟨⟨k, by simp, ht⟩, hstep e0 he0⟩
        · refine ⟨⟨k, by simp, ht⟩, hstep {} ?_⟩
          have hno : ∀ j ∈ l, textOf doc j ≠ some (eqText x) := by
            intro j hj hc
            exact hm _ ((ih2 _ _).2 ⟨⟨j, hj, hc⟩, rfl⟩)
          have hl : ∀ r, lastWhere l (hasKeyRank doc name (eqText x) r) = none := by
            intro r
            rw [lastWhere_none]
            intro j hj
            simp [hasKeyRank, hno j hj]
          simp [entryFor, hl]
      · rintro ⟨⟨j, hj, hjt⟩, rfl⟩
        by_cases hk : key = eqText x
        · subst hk
          right
          refine ⟨rfl, ?_⟩
          by_cases hex : ∃ j ∈ l, textOf doc j = some (eqText x)
          · exact .inl ⟨_, (ih2 _ _).2 ⟨hex, rfl⟩, (hstep _ rfl).symm⟩
          · push Not at hex
            right
            refine ⟨?_, ?_⟩
            · intro e0 he0
              obtain ⟨⟨i, hi, hit⟩, _⟩ := (ih2 _ _).1 he0
              exact hex i hi hit
            · symm
              apply hstep
              have hl : ∀ r, lastWhere l (hasKeyRank doc name (eqText x) r) = none := by
                intro r
                rw [lastWhere_none]
                intro j hj
                simp [hasKeyRank, hex j hj]
              simp [entryFor, hl]
        · left
          refine ⟨hk, (ih2 _ _).2 ⟨⟨j, ?_, hjt⟩, hother hk⟩⟩
          rcases List.mem_append.1 hj with h | h
          · exact h
          · rw [List.mem_singleton] at h
            subst h
            rw [ht] at hjt
            exact absurd (Option.some.inj hjt).symm hk

theorem foldl_choose_spec (m : List (List Char × EqSet)) : ∀ acc : List ℕ, Incr acc →
    Incr (m.foldl (fun acc e => match e.2.choose with | none => acc | some k => natInsert k acc) acc) ∧
    ∀ j, j ∈ m.foldl (fun acc e => match e.2.choose with | none => acc | some k => natInsert k acc) acc ↔
      j ∈ acc ∨ ∃ e ∈ m, e.2.choose = some j := by
  induction m with
  | nil => intro acc h; simp [h]
  | cons e m ih =>
    intro acc h
    rw [List.foldl_cons]
    cases hc : e.2.choose with
    | none =>
      obtain ⟨a, b⟩ := ih acc h
      refine ⟨a, fun j => ?_⟩
      rw [b]
      simp [hc]
    | some k =>
      obtain ⟨c, d⟩ := natInsert_spec k acc h
      obtain ⟨a, b⟩ := ih _ c
      refine ⟨a, fun j => ?_⟩
      rw [b, d]
      simp only [List.mem_cons, exists_eq_or_imp, hc, Option.some.injEq]
      constructor
      · rintro ((rfl | h) | h)
        · exact .inr (.inl rfl)
        · exact .inl h
        · exact .inr (.inr h)
      · rintro (h | rfl | h)
        · exact .inl (.inr h)
        · exact .inl (.inl rfl)
        · exact .inr h

/-- `k` is the node PREFERRED should keep among those of the same text: of the best class available and
last in it. -/
def IsPreferred (doc : Doc) (name : String) (s : List ℕ) (k : ℕ) : Prop :=
  k ∈ s ∧ ∀ j ∈ s, textOf doc j = textOf doc k →
    secRank doc name k < secRank doc name j ∨ (secRank doc name k = secRank doc name j ∧ j ≤ k)

theorem sectionPreferred_spec (doc : Doc) (name : String) {s : List ℕ} (hs : Incr s)
    (hr : ∀ k ∈ s, k < doc.nodes.length) :
    Incr (sectionPreferred doc name s) ∧
    ∀ k, k ∈ sectionPreferred doc name s ↔ IsPreferred doc name s k := by
  obtain ⟨_, hm⟩ := sectionMap_spec doc name s
  obtain ⟨h1, h2⟩ := foldl_choose_spec (sectionMap doc name s) [] List.Pairwise.nil
  refine ⟨h1, fun k => ?_⟩
  have hrank : ∀ j, secRank doc name j = 0 ∨ secRank doc name j = 1 ∨ secRank doc name j = 2 := by
    intro j; unfold secRank; split
    · exact .inl rfl
    · split
      · exact .inr (.inl rfl)
      · exact .inr (.inr rfl)
  have htext : ∀ j ∈ s, ∃ key, textOf doc j = some key := by
    intro j hj
    exact ⟨eqText (doc.nodes[j]'(hr j hj)), by simp [textOf, List.getElem?_eq_getElem (hr j hj)]⟩
  have hpk : ∀ key r j, hasKeyRank doc name key r j = true ↔ textOf doc j = some key ∧ secRank doc name j = r := by
    intro key r j; simp [hasKeyRank]
  rw [show (k ∈ sectionPreferred doc name s) = _ from propext (h2 k)]
  simp only [List.not_mem_nil, false_or]
  constructor
  · rintro ⟨⟨key, e⟩, he, hch⟩
    obtain ⟨_, rfl⟩ := (hm key e).1 he
    simp only [EqSet.choose, entryFor] at hch
    split at hch
    · rename_i k0 hk0
      cases hch
      obtain ⟨a, b, c⟩ := (lastWhere_some hs).1 hk0
      rw [hpk] at b
      refine ⟨a, fun j hj hjt => ?_⟩
      rw [b.1] at hjt
      rw [b.2]
      rcases hrank j with h | h | h
      · exact .inr ⟨h.symm, c j hj ((hpk _ _ _).2 ⟨hjt, h⟩)⟩
      · left; omega
      · left; omega
    · rename_i hn0
      rw [lastWhere_none] at hn0
      split at hch
      · rename_i k0 hk0
        cases hch
        obtain ⟨a, b, c⟩ := (lastWhere_some hs).1 hk0
        rw [hpk] at b
        refine ⟨a, fun j hj hjt => ?_⟩
        rw [b.1] at hjt
        rw [b.2]
        rcases hrank j with h | h | h
        · have := hn0 j hj
          rw [(hpk _ _ _).2 ⟨hjt, h⟩] at this; cases this
        · exact .inr ⟨h.symm, c j hj ((hpk _ _ _).2 ⟨hjt, h⟩)⟩
        · left; omega
      · rename_i hn1
        rw [lastWhere_none] at hn1
        obtain ⟨a, b, c⟩ := (lastWhere_some hs).1 hch
        rw [hpk] at b
        refine ⟨a, fun j hj hjt => ?_⟩
        rw [b.1] at hjt
        rw [b.2]
        rcases hrank j with h | h | h
        · have := hn0 j hj
          rw [(hpk _ _ _).2 ⟨hjt, h⟩] at this; cases this
        · have := hn1 j hj
          rw [(hpk _ _ _).2 ⟨hjt, h⟩] at this; cases this
        · exact .inr ⟨h.symm, c j hj ((hpk _ _ _).2 ⟨hjt, h⟩)⟩
  · rintro ⟨hk, hbest⟩
    obtain ⟨key, hkey⟩ := htext k hk
    refine ⟨(key, entryFor doc name s key), (hm _ _).2 ⟨⟨k, hk, hkey⟩, rfl⟩, ?_⟩
    have hlast : lastWhere s (hasKeyRank doc name key (secRank doc name k)) = some k := by
      rw [lastWhere_some hs]
      refine ⟨hk, (hpk _ _ _).2 ⟨hkey, rfl⟩, ?_⟩
      intro j hj hjp
      rw [hpk] at hjp
      rcases hbest j hj (by rw [hjp.1, hkey]) with h | h
      · omega
      · exact h.2
    have hnone : ∀ r, r < secRank doc name k → lastWhere s (hasKeyRank doc name key r) = none := by
      intro r hr'
      rw [lastWhere_none]
      intro j hj
      cases hb : hasKeyRank doc name key r j with
      | false => rfl
      | true =>
        rw [hpk] at hb
        rcases hbest j hj (by rw [hb.1, hkey]) with h | h <;> omega
    simp only [EqSet.choose, entryFor]
    rcases hrank k with h | h | h
    · rw [h] at hlast; rw [hlast]
    · rw [h] at hlast hnone
      rw [hnone 0 (by omega), hlast]
    · rw [h] at hlast hnone
      rw [hnone 0 (by omega), hnone 1 (by omega), hlast]

end Chimp
