import Verif.Lemmas.Filter
import Mathlib.Data.List.Basic
import Std.Data.String.ToNat

/-! # Lemmas on specification sets and on the equation text -/

namespace Chimp

/-! ### `EqTermSet` -/

/-- Strictly increasing by name. -/
abbrev NameSorted (l : List EqTerm) : Prop := l.Pairwise (fun a b => a.name < b.name)

theorem eqTermInsert_spec (t : EqTerm) : ∀ l : List EqTerm, NameSorted l →
    NameSorted (eqTermInsert t l) ∧
    ∀ u, u ∈ eqTermInsert t l ↔ u ∈ l ∨ (u = t ∧ ∀ v ∈ l, v.name ≠ t.name)
  | [], _ => by simp [eqTermInsert]
  | a :: l, h => by
    obtain ⟨h1, h2⟩ := List.pairwise_cons.1 h
    obtain ⟨i1, i2⟩ := eqTermInsert_spec t l h2
    simp only [eqTermInsert]
    by_cases hka : t.name < a.name
    · rw [if_pos hka]
      have hlt : ∀ j ∈ a :: l, t.name < j.name := by
        intro j hj
        rcases List.mem_cons.1 hj with rfl | hj
        · exact hka
        · exact lt_trans hka (h1 j hj)
      refine ⟨List.pairwise_cons.2 ⟨hlt, h⟩, fun u => ?_⟩
      rw [List.mem_cons]
      constructor
      · rintro (rfl | h)
        · exact .inr ⟨rfl, fun v hv => (hlt v hv).ne'⟩
        · exact .inl h
      · rintro (h | ⟨rfl, _⟩)
        · exact .inr h
        · exact .inl rfl
    · rw [if_neg hka]
      by_cases hak : a.name < t.name
      · rw [if_pos hak]
        refine ⟨List.pairwise_cons.2 ⟨?_, i1⟩, fun u => ?_⟩
        · intro j hj
          rcases (i2 j).1 hj with hj | ⟨rfl, _⟩
          · exact h1 j hj
          · exact hak
        · rw [List.mem_cons, i2, List.mem_cons]
          constructor
          · rintro (rfl | h | ⟨rfl, h⟩)
            · exact .inl (.inl rfl)
            · exact .inl (.inr h)
            · refine .inr ⟨rfl, fun v hv => ?_⟩
              rcases List.mem_cons.1 hv with rfl | hv
              · exact hak.ne
              · exact h v hv
          · rintro ((rfl | h) | ⟨rfl, h⟩)
            · exact .inl rfl
            · exact .inr (.inl h)
            · exact .inr (.inr ⟨rfl, fun v hv => h v (List.mem_cons_of_mem _ hv)⟩)
      · rw [if_neg hak]
        have : a.name = t.name := le_antisymm (not_lt.1 hka) (not_lt.1 hak)
        refine ⟨h, fun u => ⟨.inl, ?_⟩⟩
        rintro (h | ⟨_, h⟩)
        · exact h
        · exact absurd this (h a List.mem_cons_self)

/-- The first entry of that name. -/
def firstNamed (l : List EqTerm) (x : String) : Option EqTerm := l.find? (fun t => t.name == x)

theorem firstNamed_name {l : List EqTerm} {x : String} {t : EqTerm} (h : firstNamed l x = some t) :
    t.name = x := by
  simpa using List.find?_some h

theorem firstNamed_none {l : List EqTerm} {x : String} :
    firstNamed l x = none ↔ ∀ t ∈ l, t.name ≠ x := by
  simp [firstNamed]

theorem eqTermSet_spec (l : List EqTerm) :
    NameSorted (eqTermSet l) ∧ ∀ t, t ∈ eqTermSet l ↔ firstNamed l t.name = some t := by
  induction l using List.reverseRecOn with
  | nil => simp [eqTermSet, firstNamed]
  | append_singleton l t ih =>
    obtain ⟨ih1, ih2⟩ := ih
    have e : eqTermSet (l ++ [t]) = eqTermInsert t (eqTermSet l) := by
      simp [eqTermSet, List.foldl_append]
    obtain ⟨a, b⟩ := eqTermInsert_spec t _ ih1
    rw [e]
    refine ⟨a, fun u => ?_⟩
    rw [b]
    have hex : (∀ v ∈ eqTermSet l, v.name ≠ t.name) ↔ firstNamed l t.name = none := by
      constructor
      · intro h
        cases hf : firstNamed l t.name with
        | none => rfl
        | some v =>
          have hn := firstNamed_name hf
          exact absurd hn (h v ((ih2 v).2 (by rw [hn]; exact hf)))
      · intro h v hv hvn
        have := (ih2 v).1 hv
        rw [hvn, h] at this; cases this
    rw [hex, ih2]
    unfold firstNamed
    rw [List.find?_append]
    constructor
    · rintro (h | ⟨rfl, h⟩)
      · rw [h]; rfl
      · rw [h]; simp
    · intro h
      cases hf : l.find? (fun v => v.name == u.name) with
      | some v => rw [hf] at h; left; simpa using h
      | none =>
        rw [hf] at h
        right
        by_cases htu : t.name = u.name
        · have : u = t := by simpa [htu] using h.symm
          subst this
          exact ⟨rfl, hf⟩
        · simp [htu] at h

theorem nameSorted_unique {l m : List EqTerm} (hl : NameSorted l) (hm : NameSorted m)
    (h : ∀ t, t ∈ l ↔ t ∈ m) : l = m := by
  have nd : ∀ {m : List EqTerm}, NameSorted m → m.Nodup := by
    intro m hm
    refine List.Pairwise.imp ?_ hm
    rintro a b hab rfl
    exact lt_irrefl _ hab
  have hp : l.Perm m := (List.perm_ext_iff_of_nodup (nd hl) (nd hm)).2 h
  refine List.Perm.eq_of_pairwise ?_ hl hm hp
  intro a b _ _ hab hba
  exact absurd (lt_trans hab hba) (lt_irrefl _)

theorem firstNamed_of_sorted {l : List EqTerm} (h : NameSorted l) (t : EqTerm) :
    firstNamed l t.name = some t ↔ t ∈ l := by
  constructor
  · exact fun h => List.mem_of_find?_eq_some h
  · intro ht
    induction l with
    | nil => simp at ht
    | cons a l ih =>
      obtain ⟨h1, h2⟩ := List.pairwise_cons.1 h
      rcases List.mem_cons.1 ht with rfl | ht
      · simp [firstNamed]
      · have hne := (h1 t ht).ne
        have := ih h2 ht
        unfold firstNamed at this ⊢
        rw [List.find?_cons_of_neg (by simpa using hne), this]

theorem eqTermSet_of_sorted {l : List EqTerm} (h : NameSorted l) : eqTermSet l = l := by
  obtain ⟨a, b⟩ := eqTermSet_spec l
  exact nameSorted_unique a h (fun t => (b t).trans (firstNamed_of_sorted h t))

/-! ### Equation text -/

/-- Names for which the text is unambiguous. -/
def PlainName (s : String) : Prop :=
  s.toList ≠ [] ∧ ' ' ∉ s.toList ∧ s.toList.getLast? ≠ some ']'

/-- The name part of a term: species and source index. -/
def nameTok (t : TNode) : List Char :=
  t.P.toList ++ (if t.src ≥ 0 then '[' :: (Nat.repr t.src.toNat).toList ++ [']'] else [])

/-- The blank-separated words of a term. -/
def termToks (t : TNode) : List (List Char) :=
  if t.mult > 1 then [(Nat.repr t.mult.toNat).toList, nameTok t] else [nameTok t]

/-- Words separated by single blanks, followed by a blank and `r`. -/
def joinToks : List (List Char) → List Char → List Char
  | [], r => r
  | w :: ws, r => w ++ ' ' :: joinToks ws r

theorem joinToks_append (a b : List (List Char)) (r : List Char) :
    joinToks (a ++ b) r = joinToks a (joinToks b r) := by
  induction a with
  | nil => rfl
  | cons w ws ih => simp [joinToks, ih]

theorem append_sep_inj (z : Char) {a b r s : List Char} (ha : z ∉ a) (hb : z ∉ b)
    (h : a ++ z :: r = b ++ z :: s) : a = b ∧ r = s := by
  induction a generalizing b with
  | nil =>
    cases b with
    | nil => simpa using h
    | cons c b => simp only [List.nil_append, List.cons_append, List.cons.injEq] at h; exact absurd (by rw [h.1]; exact List.mem_cons_self) hb
  | cons c a ih =>
    cases b with
    | nil => simp only [List.nil_append, List.cons_append, List.cons.injEq] at h; exact absurd (by rw [h.1]; exact List.mem_cons_self) ha
    | cons d b =>
      simp only [List.cons_append, List.cons.injEq] at h
      obtain ⟨rfl, h⟩ := h
      obtain ⟨rfl, h2⟩ := ih (fun x => ha (List.mem_cons_of_mem _ x))
        (fun x => hb (List.mem_cons_of_mem _ x)) h
      exact ⟨rfl, h2⟩

theorem joinToks_inj {a b : List (List Char)} (ha : ∀ w ∈ a, ' ' ∉ w) (hb : ∀ w ∈ b, ' ' ∉ w)
    (h : joinToks a [] = joinToks b []) : a = b := by
  induction a generalizing b with
  | nil => cases b with
    | nil => rfl
    | cons w b => simp [joinToks] at h
  | cons w a ih =>
    cases b with
    | nil => simp [joinToks] at h
    | cons v b =>
      obtain ⟨rfl, h2⟩ := append_sep_inj ' ' (ha w List.mem_cons_self) (hb v List.mem_cons_self) h
      rw [ih (fun x hx => ha x (List.mem_cons_of_mem _ hx)) (fun x hx => hb x (List.mem_cons_of_mem _ hx)) h2]

/-- Words of a side followed by an empty word and `r`. -/
def sideToks : List TNode → List (List Char) → List (List Char)
  | [], r => [] :: [] :: r
  | [t], r => termToks t ++ [] :: r
  | t :: ts, r => termToks t ++ ['+'] :: sideToks ts r

theorem termText_toks (t : TNode) (r : List Char) :
    termText t ++ ' ' :: r = joinToks (termToks t) r := by
  unfold termText termToks nameTok
  split <;> simp [joinToks]

theorem sideText_toks (l : List TNode) (r : List (List Char)) (q : List Char) :
    sideText l ++ [' ', ' '] ++ joinToks r q = joinToks (sideToks l r) q := by
  induction l with
  | nil => simp [sideText, sideToks, joinToks]
  | cons t ts ih =>
    cases ts with
    | nil =>
      simp only [sideText, sideToks, joinToks_append]
      rw [← termText_toks]
      simp [joinToks]
    | cons u us =>
      simp only [sideText, sideToks, joinToks_append]
      rw [← termText_toks]
      simp only [joinToks]
      rw [← ih]
      simp

theorem eqText_toks (x : XInter) :
    eqText x ++ [' ', ' '] = joinToks (sideToks x.ins (['-', '-', '>'] :: [] :: sideToks x.outs [])) [] := by
  rw [← sideText_toks]
  simp only [joinToks, eqText]
  rw [← sideText_toks]
  simp [joinToks]

theorem digits_clean (n : ℕ) {c : Char} (hc : c ∈ (Nat.repr n).toList) : c.isDigit = true := by
  rw [Nat.repr, String.toList_ofList] at hc
  exact Nat.isDigit_of_mem_toDigits (by decide) (by decide) hc

theorem digits_no {n : ℕ} {c : Char} (h : c.isDigit = false) : c ∉ (Nat.repr n).toList := by
  intro hc
  rw [digits_clean n hc] at h; cases h

theorem nameTok_no_blank {t : TNode} (h : PlainName t.P) : ' ' ∉ nameTok t := by
  unfold nameTok
  split
  · simp only [List.mem_append, List.mem_cons, not_or]
    refine ⟨h.2.1, ⟨by decide, digits_no (by decide)⟩, by decide, by simp⟩
  · simpa using h.2.1

theorem nameTok_ne_nil {t : TNode} (h : PlainName t.P) : nameTok t ≠ [] := by
  unfold nameTok
  have := h.1
  intro hc
  rw [List.append_eq_nil_iff] at hc
  exact this hc.1

theorem repr_toList_inj {m n : ℕ} (h : (Nat.repr m).toList = (Nat.repr n).toList) : m = n :=
  Nat.repr_inj.1 (String.toList_inj.1 h)

theorem nameTok_inj {t u : TNode} (ht : PlainName t.P) (hu : PlainName u.P)
    (h : nameTok t = nameTok u) : t.P = u.P ∧ max t.src (-1) = max u.src (-1) := by
  unfold nameTok at h
  have last1 : ∀ (a : List Char) (n : ℕ),
      (a ++ ('[' :: (Nat.repr n).toList ++ [']'])).getLast? = some ']' := by
    intro a n
    rw [← List.append_assoc, List.getLast?_concat]
  by_cases h1 : t.src ≥ 0
  · by_cases h2 : u.src ≥ 0
    · rw [if_pos h1, if_pos h2] at h
      rw [← List.append_assoc, ← List.append_assoc] at h
      have h3 := List.append_inj_left' h rfl
      have h4 := congrArg List.reverse h3
      simp only [List.reverse_append, List.reverse_cons, List.append_assoc, List.singleton_append] at h4
      obtain ⟨k1, k2⟩ := append_sep_inj '[' (by rw [List.mem_reverse]; exact digits_no (by decide))
        (by rw [List.mem_reverse]; exact digits_no (by decide)) h4
      have k3 := repr_toList_inj (List.reverse_injective k1)
      have k4 := String.toList_inj.1 (List.reverse_injective k2)
      exact ⟨k4, by omega⟩
    · rw [if_pos h1, if_neg h2, List.append_nil] at h
      exact absurd (by rw [← h]; exact last1 _ _) hu.2.2
  · by_cases h2 : u.src ≥ 0
    · rw [if_neg h1, if_pos h2, List.append_nil] at h
      exact absurd (by rw [h]; exact last1 _ _) ht.2.2
    · rw [if_neg h1, if_neg h2, List.append_nil, List.append_nil] at h
      exact ⟨String.toList_inj.1 h, by omega⟩

/-- Two terms agree in species, multiplicity and source. -/
def SameTerm (t u : TNode) : Prop :=
  t.P = u.P ∧ t.mult = u.mult ∧ max t.src (-1) = max u.src (-1)

theorem termToks_head (t : TNode) (h : PlainName t.P) : ∃ w ws, termToks t = w :: ws ∧ w ≠ [] := by
  unfold termToks
  split
  · refine ⟨_, _, rfl, ?_⟩
    intro hc
    rw [Nat.repr, String.toList_ofList] at hc
    exact Nat.toDigits_ne_nil hc
  · exact ⟨_, _, rfl, nameTok_ne_nil h⟩

/-- A side with unambiguous names and positive multiplicities. -/
def PlainSide (l : List TNode) : Prop := ∀ t ∈ l, PlainName t.P ∧ 1 ≤ t.mult

/-- What follows the first term of a side. -/
def tailToks : List TNode → List (List Char) → List (List Char)
  | [], r => [] :: r
  | ts, r => ['+'] :: sideToks ts r

theorem sideToks_cons (t : TNode) (ts : List TNode) (r : List (List Char)) :
    sideToks (t :: ts) r = termToks t ++ tailToks ts r := by
  cases ts <;> rfl

theorem repr_ne_nil (n : ℕ) : (Nat.repr n).toList ≠ [] := by
  intro hc
  rw [Nat.repr, String.toList_ofList] at hc
  exact Nat.toDigits_ne_nil hc

/-- The rest of a side and the beginning of a side are never equal: even if `+` is the name of a species,
the two readings of a run of `+` stay out of step until one of them ends. -/
theorem tail_ne_side : ∀ (n : ℕ) (ts us : List TNode) (r s : List (List Char)), ts.length + us.length ≤ n →
    PlainSide ts → PlainSide us → us ≠ [] → tailToks ts r ≠ sideToks us s
  | 0, ts, us, r, s, hn, _, _, hne, _ => by
    have : us = [] := List.length_eq_zero_iff.1 (by omega)
    exact hne this
  | n + 1, ts, [], r, s, hn, _, _, hne, _ => hne rfl
  | n + 1, ts, u :: us, r, s, hn, hts, hus, hne, h => by
    rw [sideToks_cons] at h
    cases ts with
    | nil =>
      obtain ⟨w, ws, e, hw⟩ := termToks_head u (hus u (by simp)).1
      rw [e] at h
      exact hw (List.cons.inj h).1.symm
    | cons t ts =>
      simp only [tailToks, termToks] at h
      split at h
      · have := (List.cons.inj h).1
        have hd : '+' ∈ (Nat.repr u.mult.toNat).toList := by rw [← this]; simp
        exact digits_no (by decide) hd
      · have h2 := (List.cons.inj h).2
        exact tail_ne_side n us (t :: ts) s r (by simp only [List.length_cons] at hn ⊢; omega)
          (fun x hx => hus x (List.mem_cons_of_mem _ hx)) hts (by simp) h2.symm

theorem sideToks_inj : ∀ (l m : List TNode) (r s : List (List Char)), PlainSide l → PlainSide m →
    sideToks l r = sideToks m s → List.Forall₂ SameTerm l m ∧ r = s
  | [], [], r, s, _, _, h => by simpa [sideToks] using h
  | [], u :: us, r, s, _, hm, h => by
    obtain ⟨w, ws, e, hw⟩ := termToks_head u (hm u (by simp)).1
    rw [sideToks_cons, sideToks, e] at h
    exact absurd (List.cons.inj h).1.symm hw
  | t :: ts, [], r, s, hl, _, h => by
    obtain ⟨w, ws, e, hw⟩ := termToks_head t (hl t (by simp)).1
    rw [sideToks_cons, sideToks, e] at h
    exact absurd (List.cons.inj h).1 hw
  | t :: ts, u :: us, r, s, hl, hm, h => by
    have a := hl t (by simp)
    have b := hm u (by simp)
    have hl' : PlainSide ts := fun x hx => hl x (List.mem_cons_of_mem _ hx)
    have hm' : PlainSide us := fun x hx => hm x (List.mem_cons_of_mem _ hx)
    rw [sideToks_cons, sideToks_cons] at h
    -- the first terms have the same shape
    have same : SameTerm t u ∧ tailToks ts r = tailToks us s := by
      unfold termToks at h
      by_cases h1 : t.mult > 1
      · by_cases h2 : u.mult > 1
        · simp only [if_pos h1, if_pos h2, List.cons_append, List.nil_append, List.cons.injEq] at h
          obtain ⟨e1, e2, e3⟩ := h
          have := repr_toList_inj e1
          obtain ⟨n1, n2⟩ := nameTok_inj a.1 b.1 e2
          exact ⟨⟨n1, by omega, n2⟩, e3⟩
        · simp only [if_pos h1, if_neg h2, List.cons_append, List.nil_append, List.cons.injEq] at h
          obtain ⟨_, h⟩ := h
          exfalso
          cases us with
          | nil => exact nameTok_ne_nil a.1 (List.cons.inj h).1
          | cons v us =>
            exact tail_ne_side _ ts (v :: us) r s le_rfl hl' hm' (by simp) (List.cons.inj h).2
      · by_cases h2 : u.mult > 1
        · simp only [if_neg h1, if_pos h2, List.cons_append, List.nil_append, List.cons.injEq] at h
          obtain ⟨_, h⟩ := h
          exfalso
          cases ts with
          | nil => exact nameTok_ne_nil b.1 (List.cons.inj h).1.symm
          | cons v ts =>
            exact tail_ne_side _ us (v :: ts) s r le_rfl hm' hl' (by simp) (List.cons.inj h).2.symm
        · simp only [if_neg h1, if_neg h2, List.cons_append, List.nil_append, List.cons.injEq] at h
          obtain ⟨e1, e2⟩ := h
          obtain ⟨n1, n2⟩ := nameTok_inj a.1 b.1 e1
          exact ⟨⟨n1, by have := a.2; have := b.2; omega, n2⟩, e2⟩
    obtain ⟨s1, s2⟩ := same
    cases ts with
    | nil =>
      cases us with
      | nil => exact ⟨by simp [s1], (List.cons.inj s2).2⟩
      | cons v us => cases (List.cons.inj s2).1
    | cons v ts =>
      cases us with
      | nil => cases (List.cons.inj s2).1
      | cons w us =>
        obtain ⟨i1, i2⟩ := sideToks_inj (v :: ts) (w :: us) r s hl' hm' (List.cons.inj s2).2
        exact ⟨List.Forall₂.cons s1 i1, i2⟩

theorem termToks_no_blank {t : TNode} (h : PlainName t.P) : ∀ w ∈ termToks t, ' ' ∉ w := by
  intro w hw
  unfold termToks at hw
  split at hw
  · rcases List.mem_cons.1 hw with rfl | hw
    · exact digits_no (by decide)
    · rw [List.mem_singleton] at hw; subst hw; exact nameTok_no_blank h
  · rw [List.mem_singleton] at hw; subst hw; exact nameTok_no_blank h

theorem sideToks_no_blank : ∀ (l : List TNode) (r : List (List Char)), PlainSide l →
    (∀ w ∈ r, ' ' ∉ w) → ∀ w ∈ sideToks l r, ' ' ∉ w
  | [], r, _, hr, w, hw => by
    simp only [sideToks, List.mem_cons] at hw
    rcases hw with rfl | rfl | hw
    · simp
    · simp
    · exact hr w hw
  | [t], r, hl, hr, w, hw => by
    simp only [sideToks, List.mem_append, List.mem_cons] at hw
    rcases hw with hw | rfl | hw
    · exact termToks_no_blank (hl t (by simp)).1 w hw
    · simp
    · exact hr w hw
  | t :: v :: ts, r, hl, hr, w, hw => by
    simp only [sideToks, List.mem_append, List.mem_cons] at hw
    rcases hw with hw | rfl | hw
    · exact termToks_no_blank (hl t (by simp)).1 w hw
    · decide
    · exact sideToks_no_blank (v :: ts) r (fun x hx => hl x (List.mem_cons_of_mem _ hx)) hr w hw

theorem termText_congr {t u : TNode} (h : SameTerm t u) : termText t = termText u := by
  obtain ⟨h1, h2, h3⟩ := h
  unfold termText
  rw [h1, h2]
  congr 1
  by_cases hs : t.src ≥ 0
  · have : t.src = u.src := by omega
    rw [this]
  · rw [if_neg hs, if_neg (by omega)]

theorem sideText_congr {l m : List TNode} (h : List.Forall₂ SameTerm l m) : sideText l = sideText m := by
  induction h with
  | nil => rfl
  | cons h1 h2 ih =>
    cases h2 with
    | nil => simpa [sideText] using termText_congr h1
    | cons h3 h4 => simp only [sideText] at ih ⊢; rw [ih, termText_congr h1]

end Chimp
