import Verif.Lemmas.FilterText
import Mathlib.Data.List.Perm.Subperm
import Mathlib.Data.Finset.Max
import Mathlib.Logic.Relation

/-!
# Properties C17-C25: interaction filters

The specification vocabulary: `Filter.Keeps` says, by recursion over the tree and without lists or
merging, which interactions a filter should keep; `SideMatches` says what an `EqIO` specification
asks of a side; `Denotes` is the grammar of filter descriptions.
-/

namespace Chimp

/-! ## Specification -/

/-- What a specification asks of a side of an equation. -/
def SideMatches (terms : List EqTerm) (side : List TNode) : Prop :=
  terms ≠ [] ∧ side.length = terms.length ∧
  ∀ t ∈ terms, t.n ≠ 0 → ∃ x ∈ side, x.P = t.name ∧ (t.n < 0 ∨ x.mult = t.n)

/-- Node `k` exists and has a property. -/
def NodeHas (doc : Doc) (p : XInter → Prop) (k : ℕ) : Prop := ∃ x, doc.nodes[k]? = some x ∧ p x

/-- Which interactions of `S` a filter should keep. -/
def Filter.Keeps (doc : Doc) (S : ℕ → Prop) : Filter → ℕ → Prop
  | .null, k => S k
  | .elastic, k => S k ∧ NodeHas doc (fun x => x.inText = x.outText) k
  | .label l, k => S k ∧ NodeHas doc (fun x => x.modelAttr = some l) k
  | .eqio out terms, k => S k ∧ NodeHas doc (fun x => SideMatches terms (if out then x.outs else x.ins)) k
  | .and l r, k => l.Keeps doc S k ∧ r.Keeps doc S k
  | .or l r, k => l.Keeps doc S k ∨ r.Keeps doc S k
  | .not p n, k => p.Keeps doc S k ∧ ¬ n.Keeps doc S k
  | .sect name required f, k =>
    if name = "" then S k
    else if required then f.Keeps doc S k ∧ doc.inSection name k = true
    else f.Keeps doc S k ∧ ∀ j, f.Keeps doc S j → textOf doc j = textOf doc k →
      secRank doc name k < secRank doc name j ∨ (secRank doc name k = secRank doc name j ∧ j ≤ k)

/-- A legal argument of a filter: nodes of the document, in document order, without repetition. -/
def NodeSet (doc : Doc) (s : List ℕ) : Prop := Incr s ∧ ∀ k ∈ s, k < doc.nodes.length

/-! ## Lemmas -/

theorem termMatches_iff {t : EqTerm} (ht : t.n ≠ 0) (x : TNode) :
    termMatches t x = true ↔ x.P = t.name ∧ (t.n < 0 ∨ x.mult = t.n) := by
  unfold termMatches TNode.mult
  rw [Bool.and_eq_true, beq_iff_eq]
  apply and_congr_right
  intro _
  by_cases h1 : t.n = 1
  · rw [if_pos h1, h1]
    cases x.n with
    | none => simp
    | some m => simp
  · rw [if_neg h1]
    by_cases h2 : t.n > 1
    · rw [if_pos h2]
      cases x.n with
      | none => simp only [beq_iff_eq, reduceCtorEq, false_iff, Option.getD_none]; omega
      | some m =>
        simp only [beq_iff_eq, Option.some.injEq, Option.getD_some]
        constructor
        · exact .inr
        · rintro (h | h)
          · omega
          · exact h
    · rw [if_neg h2]
      simp only [true_iff]
      left; omega

theorem eqioMatches_iff (terms : List EqTerm) (side : List TNode) :
    eqioMatches terms side = true ↔ SideMatches terms side := by
  unfold eqioMatches SideMatches
  by_cases h : terms.length = 0
  · rw [List.length_eq_zero_iff] at h; simp [h]
  · rw [if_neg h]
    have hne : terms ≠ [] := fun hc => h (by simp [hc])
    simp only [hne, ne_eq, not_false_eq_true, true_and, Bool.and_eq_true, beq_iff_eq, List.all_eq_true,
      Bool.or_eq_true, List.any_eq_true]
    apply and_congr_right
    intro _
    apply forall₂_congr
    intro t ht
    by_cases h0 : t.n = 0
    · simp [h0]
    · simp only [h0, false_or, not_false_eq_true, true_imp_iff]
      exact exists_congr fun x => and_congr_right fun _ => termMatches_iff h0 x

theorem mem_keepIf (doc : Doc) (p : XInter → Bool) (s : List ℕ) (k : ℕ) :
    k ∈ keepIf doc p s ↔ k ∈ s ∧ NodeHas doc (fun x => p x = true) k := by
  unfold keepIf NodeHas
  rw [List.mem_filter]
  apply and_congr_right
  intro _
  cases doc.nodes[k]? <;> simp

theorem apply_spec (doc : Doc) (f : Filter) (s : List ℕ) (hs : NodeSet doc s) :
    NodeSet doc (f.apply doc s) ∧ ∀ k, k ∈ f.apply doc s ↔ f.Keeps doc (· ∈ s) k := by
  have sub : ∀ {l : List ℕ}, Incr l → (∀ k ∈ l, k ∈ s) → NodeSet doc l := fun h1 h2 =>
    ⟨h1, fun k hk => hs.2 k (h2 k hk)⟩
  have keep : ∀ (p : XInter → Bool) (q : XInter → Prop), (∀ x, p x = true ↔ q x) →
      NodeSet doc (keepIf doc p s) ∧ ∀ k, k ∈ keepIf doc p s ↔ k ∈ s ∧ NodeHas doc q k := by
    intro p q hpq
    refine ⟨sub (incr_filter hs.1 _) (fun k hk => (List.mem_filter.1 hk).1), fun k => ?_⟩
    rw [mem_keepIf]
    simp only [hpq]
  induction f with
  | null => exact ⟨hs, fun k => Iff.rfl⟩
  | elastic => exact keep _ _ (fun x => by simp)
  | label l => exact keep _ _ (fun x => by simp)
  | eqio out terms => exact keep _ _ (fun x => eqioMatches_iff _ _)
  | and l r il ir =>
    rw [Filter.apply, setInter_eq _ _ il.1.1 ir.1.1]
    refine ⟨⟨incr_filter il.1.1 _, fun k hk => il.1.2 k (List.mem_filter.1 hk).1⟩, fun k => ?_⟩
    rw [List.mem_filter, il.2, decide_eq_true_eq, ir.2]; rfl
  | or l r il ir =>
    obtain ⟨u1, u2⟩ := setUnion_spec _ _ il.1.1 ir.1.1
    rw [Filter.apply]
    refine ⟨⟨u1, fun k hk => ((u2 k).1 hk).elim (il.1.2 k) (ir.1.2 k)⟩, fun k => ?_⟩
    rw [u2, il.2, ir.2]; rfl
  | not l r il ir =>
    rw [Filter.apply, setDiff_eq _ _ il.1.1 ir.1.1]
    refine ⟨⟨incr_filter il.1.1 _, fun k hk => il.1.2 k (List.mem_filter.1 hk).1⟩, fun k => ?_⟩
    rw [List.mem_filter, il.2, decide_eq_true_eq, ir.2]; rfl
  | sect name required f ih =>
    rw [Filter.apply]
    by_cases hn : name = ""
    · rw [if_pos hn]
      refine ⟨hs, fun k => ?_⟩
      rw [Filter.Keeps, if_pos hn]
    · rw [if_neg hn]
      simp only
      by_cases he : f.apply doc s = []
      · rw [if_pos he]
        refine ⟨ih.1, fun k => ?_⟩
        have hnone : ∀ j, ¬ f.Keeps doc (· ∈ s) j := fun j hj => by
          have := (ih.2 j).2 hj
          rw [he] at this; simp at this
        rw [Filter.Keeps, if_neg hn, ih.2]
        cases required <;> simp [hnone]
      · rw [if_neg he]
        cases required with
        | true =>
          rw [if_pos rfl, setInter_eq _ _ ih.1.1 (incr_range_filter _ _)]
          refine ⟨⟨incr_filter ih.1.1 _, fun k hk => ih.1.2 k (List.mem_filter.1 hk).1⟩, fun k => ?_⟩
          rw [List.mem_filter, decide_eq_true_eq, List.mem_filter, List.mem_range, Filter.Keeps, if_neg hn,
            if_pos rfl, ← ih.2]
          constructor
          · rintro ⟨a, _, b⟩; exact ⟨a, b⟩
          · rintro ⟨a, b⟩; exact ⟨a, ih.1.2 k a, b⟩
        | false =>
          obtain ⟨p1, p2⟩ := sectionPreferred_spec doc name ih.1.1 ih.1.2
          simp only [Bool.false_eq_true, if_false]
          refine ⟨⟨p1, fun k hk => ih.1.2 k ((p2 k).1 hk).1⟩, fun k => ?_⟩
          rw [p2, Filter.Keeps, if_neg hn]
          simp only [Bool.false_eq_true, if_false, ← ih.2]
          rfl

theorem keeps_sub (doc : Doc) (S : ℕ → Prop) (f : Filter) : ∀ k, f.Keeps doc S k → S k := by
  induction f with
  | null => exact fun k h => h
  | elastic => exact fun k h => h.1
  | label l => exact fun k h => h.1
  | eqio out terms => exact fun k h => h.1
  | and l r il ir => exact fun k h => il k h.1
  | or l r il ir => exact fun k h => h.elim (il k) (ir k)
  | not l r il ir => exact fun k h => il k h.1
  | sect name required f ih =>
    intro k h
    rw [Filter.Keeps] at h
    by_cases hn : name = ""
    · rw [if_pos hn] at h; exact h
    · rw [if_neg hn] at h
      cases required <;> exact ih k h.1

/-! ## C17, C18 -/

/-- **C17**  Whatever the tree, the result is again a set of nodes in document order without repetition,
and every one of them was given. -/
theorem C17_filters_only_remove (doc : Doc) (f : Filter) (s : List ℕ) (hs : NodeSet doc s) :
    (∀ k ∈ f.apply doc s, k ∈ s) ∧ (f.apply doc s).Pairwise (· < ·) ∧ (f.apply doc s).Sublist s := by
  obtain ⟨h1, h2⟩ := apply_spec doc f s hs
  have hsub : ∀ k ∈ f.apply doc s, k ∈ s := fun k hk => keeps_sub doc _ f k ((h2 k).1 hk)
  refine ⟨hsub, h1.1, ?_⟩
  have : f.apply doc s = s.filter (fun k => k ∈ f.apply doc s) := by
    refine List.Perm.eq_of_pairwise ?_ h1.1 (incr_filter hs.1 _) ?_
    · intro a b _ _ hab hba; exact absurd (lt_trans hab hba) (lt_irrefl _)
    · rw [List.perm_ext_iff_of_nodup (h1.1.imp (fun h => h.ne)) ((incr_filter hs.1 _).imp (fun h => h.ne))]
      intro k
      rw [List.mem_filter, decide_eq_true_eq]
      exact ⟨fun h => ⟨hsub k h, h⟩, fun h => h.2⟩
  rw [this]
  exact List.filter_sublist

/-- **C18**  And is intersection, Or union, Not difference, Null identity. -/
theorem C18_boolean (doc : Doc) (f g : Filter) (s : List ℕ) (hs : NodeSet doc s) (k : ℕ) :
    (k ∈ (Filter.and f g).apply doc s ↔ k ∈ f.apply doc s ∧ k ∈ g.apply doc s) ∧
    (k ∈ (Filter.or f g).apply doc s ↔ k ∈ f.apply doc s ∨ k ∈ g.apply doc s) ∧
    (k ∈ (Filter.not f g).apply doc s ↔ k ∈ f.apply doc s ∧ k ∉ g.apply doc s) ∧
    Filter.null.apply doc s = s := by
  have hf := apply_spec doc f s hs
  have hg := apply_spec doc g s hs
  refine ⟨?_, ?_, ?_, rfl⟩
  · rw [(apply_spec doc (.and f g) s hs).2, hf.2, hg.2]; rfl
  · rw [(apply_spec doc (.or f g) s hs).2, hf.2, hg.2]; rfl
  · rw [(apply_spec doc (.not f g) s hs).2, hf.2, hg.2]; rfl

/-- **C18**  For a tree of any shape, the merging algorithms compute the declarative meaning. -/
theorem C18_tree (doc : Doc) (f : Filter) (s : List ℕ) (hs : NodeSet doc s) (k : ℕ) :
    k ∈ f.apply doc s ↔ f.Keeps doc (· ∈ s) k := (apply_spec doc f s hs).2 k

/-! ### An example document -/

/-- Three ways to write an equation and some sections. -/
def exDoc : Doc where
  nodes := [
    ⟨[⟨"e", none, -1, ""⟩, ⟨"Ar", none, -1, ""⟩], [⟨"e", none, -1, ""⟩, ⟨"Ar", none, -1, ""⟩], "e Ar", "e Ar", true, "vhs", none⟩,
    ⟨[⟨"e", none, -1, ""⟩, ⟨"Ar", none, -1, ""⟩], [⟨"e", none, -1, ""⟩, ⟨"Ar", none, -1, ""⟩], "e Ar", "e Ar", true, "constant", some "vss_elastic"⟩,
    ⟨[⟨"e", none, -1, ""⟩, ⟨"Ar", none, -1, ""⟩], [⟨"e", some 2, -1, ""⟩, ⟨"Ar+", none, -1, ""⟩], "e Ar", "2 e Ar+", true, "lotz", none⟩,
    ⟨[⟨"Ar", some 2, -1, ""⟩], [⟨"Ar", some 2, -1, ""⟩], "2 Ar", "2 Ar", true, "vhs", none⟩,
    ⟨[⟨"e", none, -1, ""⟩, ⟨"Ar", none, -1, ""⟩], [⟨"e", none, -1, ""⟩, ⟨"Ar", none, -1, ""⟩], "e Ar", "e Ar", true, "vhs", none⟩]
  inSection := fun s k => (s == "standard" && (k == 0 || k == 2)) || (s == "mine" && (k == 1 || k == 3))

/-- A tree using every operator on it. -/
def exFilter : Filter :=
  .or (.not (.sect "mine" false .elastic) (.label "other")) (.and (.eqio true [⟨"Ar+", 1⟩, ⟨"e", 2⟩]) (.sect "standard" true .null))

example : NodeSet exDoc [0, 1, 2, 3, 4] := ⟨by decide, by decide⟩
example : exFilter.apply exDoc [0, 1, 2, 3, 4] = [1, 2, 3] := by decide +kernel
example : (Filter.not .elastic (.eqio false [⟨"Ar", 2⟩])).apply exDoc [0, 1, 2, 3, 4] = [0, 1, 4] := by
  decide +kernel

/-! ## C19, C24 -/

/-- **C19**  EqIO keeps exactly the interactions whose chosen side matches the specification; an empty
specification matches nothing. -/
theorem C19_eqio_iff (doc : Doc) (out : Bool) (terms : List EqTerm) (s : List ℕ) (k : ℕ) :
    k ∈ (Filter.eqio out terms).apply doc s ↔
      k ∈ s ∧ ∃ x, doc.nodes[k]? = some x ∧ SideMatches terms (if out then x.outs else x.ins) := by
  rw [Filter.apply, mem_keepIf]
  simp only [eqioMatches_iff]
  rfl

/-- **C19**  An empty specification keeps nothing. -/
theorem C19_empty_keeps_nothing (doc : Doc) (out : Bool) (s : List ℕ) :
    (Filter.eqio out []).apply doc s = [] := by
  rw [List.eq_nil_iff_forall_not_mem]
  intro k hk
  obtain ⟨_, x, _, hx⟩ := (C19_eqio_iff doc out [] s k).1 hk
  exact hx.1 rfl

/-- **C19**  For a side that writes every species once, matching means that the side consists of exactly
the specified species, each with a multiplicity allowed by its entry. -/
theorem C19_exact_side {terms : List EqTerm} {side : List TNode} (hne : terms ≠ [])
    (h0 : ∀ t ∈ terms, t.n ≠ 0) (hn : (terms.map EqTerm.name).Nodup) (hs : (side.map TNode.P).Nodup) :
    SideMatches terms side ↔ (side.map TNode.P).Perm (terms.map EqTerm.name) ∧
      ∀ x ∈ side, ∀ t ∈ terms, x.P = t.name → t.n < 0 ∨ x.mult = t.n := by
  have inj : ∀ x ∈ side, ∀ y ∈ side, x.P = y.P → x = y := by
    intro x hx y hy h
    exact List.inj_on_of_nodup_map hs hx hy h
  constructor
  · rintro ⟨_, hlen, hm⟩
    constructor
    · refine (List.Subperm.perm_of_length_le ?_ (by simp [hlen])).symm
      apply List.Nodup.subperm hn
      intro x hx
      obtain ⟨t, ht, rfl⟩ := List.mem_map.1 hx
      obtain ⟨y, hy, hyn, _⟩ := hm t ht (h0 t ht)
      exact List.mem_map.2 ⟨y, hy, hyn⟩
    · intro x hx t ht hxt
      obtain ⟨y, hy, hyn, hc⟩ := hm t ht (h0 t ht)
      rw [inj x hx y hy (by rw [hxt, hyn])]
      exact hc
  · rintro ⟨hp, hm⟩
    refine ⟨hne, by simpa using hp.length_eq, fun t ht _ => ?_⟩
    obtain ⟨x, hx, hxt⟩ := List.mem_map.1 (hp.mem_iff.2 (List.mem_map.2 ⟨t, ht, rfl⟩))
    exact ⟨x, hx, hxt, hm x hx t ht hxt⟩

example : (Filter.eqio true [⟨"Ar+", -1⟩, ⟨"e", 2⟩]).apply exDoc [0, 1, 2, 3, 4] = [2] := by decide +kernel
example : ([⟨"Ar+", -1⟩, ⟨"e", 2⟩] : List EqTerm).map EqTerm.name |>.Nodup := by decide +kernel
/-- A side writing a species twice can match a specification of other content: `A + A` is two terms and has
an `A`, so it would match `A + anything of multiplicity zero`. -/
example : SideMatches [⟨"A", 1⟩, ⟨"B", 0⟩] [⟨"A", none, -1, ""⟩, ⟨"A", none, -1, ""⟩] :=
  (eqioMatches_iff _ _).1 (by decide +kernel)

/-- **C24**  The set built from a list of terms holds, for every name, the first entry of that name, and
nothing else, in increasing order of names. -/
theorem C24_first_entry_wins (l : List EqTerm) :
    (eqTermSet l).Pairwise (fun a b => a.name < b.name) ∧
    ∀ t, t ∈ eqTermSet l ↔ l.find? (fun u => u.name == t.name) = some t := eqTermSet_spec l

/-- **C24**  A later entry for a species already present changes nothing, wherever it stands. -/
theorem C24_later_ignored (l m : List EqTerm) (t : EqTerm) (h : ∃ u ∈ l, u.name = t.name) :
    eqTermSet (l ++ t :: m) = eqTermSet (l ++ m) := by
  obtain ⟨a, b⟩ := eqTermSet_spec (l ++ t :: m)
  obtain ⟨c, d⟩ := eqTermSet_spec (l ++ m)
  refine nameSorted_unique a c (fun v => ?_)
  rw [b, d]
  unfold firstNamed
  rw [List.find?_append, List.find?_append, List.find?_cons]
  by_cases hv : t.name = v.name
  · obtain ⟨u, hu, hun⟩ := h
    have : (l.find? (fun w => w.name == v.name)).isSome := by
      rw [List.find?_isSome]
      exact ⟨u, hu, by simp [hun, hv]⟩
    cases hf : l.find? (fun w => w.name == v.name) with
    | none => rw [hf] at this; cases this
    | some w => simp
  · rw [show (t.name == v.name) = false by simpa using hv]

/-- **C24**  The constructor with three terms leaves out those of multiplicity zero; of the others an entry
is in force unless an earlier one has its name. -/
theorem C24_three_terms (A B C t : EqTerm) :
    t ∈ eqTermSetOf A B C ↔ t.n ≠ 0 ∧ (t = A ∨ (t = B ∧ (A.n ≠ 0 → A.name ≠ B.name)) ∨
      (t = C ∧ (A.n ≠ 0 → A.name ≠ C.name) ∧ (B.n ≠ 0 → B.name ≠ C.name))) := by
  have e : eqTermSetOf A B C = eqTermSet ([A, B, C].filter (fun t => t.n ≠ 0)) := rfl
  rw [e, (eqTermSet_spec _).2]
  unfold firstNamed
  rw [List.find?_filter, List.find?_eq_some_iff_append]
  constructor
  · rintro ⟨h, as, bs, hl, hno⟩
    simp only [ne_eq, decide_not, Bool.not_eq_eq_eq_not, Bool.not_true, decide_eq_false_iff_not,
      beq_self_eq_true, and_true] at h
    refine ⟨h, ?_⟩
    have hno' : ∀ a ∈ as, a.n ≠ 0 → a.name ≠ t.name := by
      intro a ha h1 h2
      have := hno a ha
      simp [h1, h2] at this
    rcases as with _ | ⟨a, _ | ⟨b, _ | ⟨c, as⟩⟩⟩
    · simp at hl; exact .inl hl.1.symm
    · simp at hl
      obtain ⟨rfl, rfl, _⟩ := hl
      refine .inr (.inl ⟨rfl, fun h1 => ?_⟩)
      exact hno' A (by simp) h1
    · simp at hl
      obtain ⟨rfl, rfl, rfl, _⟩ := hl
      refine .inr (.inr ⟨rfl, fun h1 => ?_, fun h1 => ?_⟩)
      · exact hno' A (by simp) h1
      · exact hno' B (by simp) h1
    · simp at hl
  · rintro ⟨h, h1⟩
    refine ⟨by simp [h], ?_⟩
    have imp : ∀ x : EqTerm, (x.n ≠ 0 → x.name ≠ t.name) → (!decide (decide (x.n ≠ 0) = true ∧ (x.name == t.name) = true)) = true := by
      intro x hx
      by_cases h0 : x.n = 0
      · simp [h0]
      · simp [h0, hx h0]
    rcases h1 with rfl | ⟨rfl, h1⟩ | ⟨rfl, h1, h2⟩
    · exact ⟨[], [B, C], rfl, by simp⟩
    · refine ⟨[A], [C], rfl, fun a ha => ?_⟩
      rw [List.mem_singleton] at ha; subst ha; exact imp _ h1
    · refine ⟨[A, B], [], rfl, fun a ha => ?_⟩
      simp only [List.mem_cons, List.not_mem_nil, or_false] at ha
      rcases ha with rfl | rfl
      · exact imp _ h1
      · exact imp _ h2

example : eqTermSetOf ⟨"e", 2⟩ ⟨"Ar", 0⟩ ⟨"e", 1⟩ = [⟨"e", 2⟩] := by decide +kernel
example : eqTermSet [⟨"e", 2⟩, ⟨"Ar", 1⟩, ⟨"e", 1⟩] = [⟨"Ar", 1⟩, ⟨"e", 2⟩] := by decide +kernel

/-! ## C20, C21, C22 -/

/-- **C20**  REQUIRED keeps what the sub-filter keeps and lies in the section. -/
theorem C20_required (doc : Doc) (name : String) (hn : name ≠ "") (f : Filter) (s : List ℕ)
    (hs : NodeSet doc s) (k : ℕ) :
    k ∈ (Filter.sect name true f).apply doc s ↔ k ∈ f.apply doc s ∧ doc.inSection name k = true := by
  rw [(apply_spec doc _ s hs).2, Filter.Keeps, if_neg hn, if_pos rfl, (apply_spec doc f s hs).2]

example : (Filter.sect "mine" true .elastic).apply exDoc [0, 1, 2, 3, 4] = [1, 3] := by decide +kernel

/-- Of the interactions kept by the sub-filter that write the same equation as `k`. -/
def SameText (doc : Doc) (s : List ℕ) (k j : ℕ) : Prop := j ∈ s ∧ textOf doc j = textOf doc k

/-- **C21**  PREFERRED keeps exactly one interaction for each equation text. -/
theorem C21_one_per_equation (doc : Doc) (name : String) (hn : name ≠ "") (f : Filter) (s : List ℕ)
    (hs : NodeSet doc s) :
    (∀ k ∈ (Filter.sect name false f).apply doc s, k ∈ f.apply doc s) ∧
    ∀ k ∈ f.apply doc s, ∃! j, j ∈ (Filter.sect name false f).apply doc s ∧ textOf doc j = textOf doc k := by
  have hf := apply_spec doc f s hs
  have hp := apply_spec doc (.sect name false f) s hs
  have iff : ∀ k, k ∈ (Filter.sect name false f).apply doc s ↔ IsPreferred doc name (f.apply doc s) k := by
    intro k
    rw [hp.2, Filter.Keeps, if_neg hn]
    simp only [Bool.false_eq_true, if_false, ← hf.2]
    rfl
  refine ⟨fun k hk => ((iff k).1 hk).1, fun k hk => ?_⟩
  -- existence: minimise the class, then maximise the position
  have hex : ∃ j, IsPreferred doc name (f.apply doc s) j ∧ textOf doc j = textOf doc k := by
    classical
    let c : Finset ℕ := (f.apply doc s).toFinset.filter (fun j => textOf doc j = textOf doc k)
    have hc : c.Nonempty := ⟨k, by simp [c, hk]⟩
    obtain ⟨m, hm, hmin⟩ := c.exists_min_image (secRank doc name) hc
    let d := c.filter (fun j => secRank doc name j = secRank doc name m)
    have hd : d.Nonempty := ⟨m, by simp [d, hm]⟩
    obtain ⟨j, hj, hmax⟩ := d.exists_max_image id hd
    simp only [d, c, Finset.mem_filter, List.mem_toFinset] at hj hm hmin hmax
    refine ⟨j, ⟨hj.1.1, fun i hi hit => ?_⟩, hj.1.2⟩
    have h1 := hmin i ⟨hi, hit.trans hj.1.2⟩
    rcases Nat.lt_or_eq_of_le h1 with h | h
    · left; omega
    · right
      refine ⟨hj.2.trans h, hmax i ⟨⟨hi, hit.trans hj.1.2⟩, h.symm⟩⟩
  obtain ⟨j, hj, hjt⟩ := hex
  refine ⟨j, ⟨(iff j).2 hj, hjt⟩, ?_⟩
  rintro i ⟨hi, hit⟩
  have hi' := (iff i).1 hi
  rcases hj.2 i hi'.1 (hit.trans hjt.symm) with h1 | ⟨h1, h2⟩ <;>
    rcases hi'.2 j hj.1 (hjt.trans hit.symm) with h3 | ⟨h3, h4⟩ <;> omega

open Classical in
/-- **C21**  The one kept is from the preferred section if the sub-filter leaves one of that text there,
else from the standard section if there is one, else from elsewhere; and it is the last such one in
document order. -/
theorem C21_best_class (doc : Doc) (name : String) (hn : name ≠ "") (f : Filter) (s : List ℕ)
    (hs : NodeSet doc s) (k : ℕ) (hk : k ∈ (Filter.sect name false f).apply doc s) :
    if ∃ j, SameText doc (f.apply doc s) k j ∧ doc.inSection name j then
      doc.inSection name k = true ∧
        ∀ j, SameText doc (f.apply doc s) k j → doc.inSection name j = true → j ≤ k
    else if ∃ j, SameText doc (f.apply doc s) k j ∧ doc.inSection "standard" j then
      doc.inSection "standard" k = true ∧
        ∀ j, SameText doc (f.apply doc s) k j → doc.inSection "standard" j = true → j ≤ k
    else ∀ j, SameText doc (f.apply doc s) k j → j ≤ k := by
  have hf := apply_spec doc f s hs
  rw [(apply_spec doc (.sect name false f) s hs).2, Filter.Keeps, if_neg hn] at hk
  simp only [Bool.false_eq_true, if_false, ← hf.2] at hk
  obtain ⟨hk1, hk2⟩ := hk
  have r0 : ∀ j, doc.inSection name j = true → secRank doc name j = 0 := fun j h => by simp [secRank, h]
  have r0' : ∀ j, secRank doc name j = 0 → doc.inSection name j = true := fun j h => by
    unfold secRank at h; split at h
    · assumption
    · split at h <;> simp at h
  have r1 : ∀ j, doc.inSection name j = false → doc.inSection "standard" j = true → secRank doc name j = 1 :=
    fun j h h' => by simp [secRank, h, h']
  have r2 : ∀ j, doc.inSection name j = false → doc.inSection "standard" j = false → secRank doc name j = 2 :=
    fun j h h' => by simp [secRank, h, h']
  split
  · rename_i h
    obtain ⟨j, ⟨hj, hjt⟩, hjs⟩ := h
    have hk0 : secRank doc name k = 0 := by
      have := r0 j hjs
      rcases hk2 j hj hjt with h | h <;> omega
    refine ⟨r0' k hk0, fun i hi his => ?_⟩
    have := r0 i his
    rcases hk2 i hi.1 hi.2 with h | h
    · omega
    · exact h.2
  · rename_i h
    push Not at h
    have hno : ∀ j, SameText doc (f.apply doc s) k j → doc.inSection name j = false := by
      intro j hj
      simpa using h j hj
    have hkk := hno k ⟨hk1, rfl⟩
    split
    · rename_i h'
      obtain ⟨j, hj, hjs⟩ := h'
      have h1 := r1 j (hno j hj) hjs
      have hks : doc.inSection "standard" k = true := by
        by_contra hc
        have h2 := r2 k hkk (by simpa using hc)
        rcases hk2 j hj.1 hj.2 with h | h <;> omega
      refine ⟨hks, fun i hi his => ?_⟩
      have h3 := r1 k hkk hks
      have h4 := r1 i (hno i hi) his
      rcases hk2 i hi.1 hi.2 with h | h
      · omega
      · exact h.2
    · rename_i h'
      push Not at h'
      intro i hi
      have h3 := r2 k hkk (by simpa using h' k ⟨hk1, rfl⟩)
      have h4 := r2 i (hno i hi) (by simpa using h' i hi)
      rcases hk2 i hi.1 hi.2 with h | h
      · omega
      · exact h.2

example : (Filter.sect "mine" false .elastic).apply exDoc [0, 1, 2, 3, 4] = [1, 3] := by decide +kernel
example : (Filter.sect "other" false .elastic).apply exDoc [0, 1, 2, 3, 4] = [0, 3] := by decide +kernel
example : (Filter.sect "other" false .null).apply exDoc [1, 2, 4] = [2, 4] := by decide +kernel

/-- **C22**  A section filter with an empty name returns its input, whatever its sub-filter says. -/
theorem C22_empty_name (doc : Doc) (required : Bool) (f : Filter) (s : List ℕ) :
    (Filter.sect "" required f).apply doc s = s := by
  rw [Filter.apply, if_pos rfl]

/-- **C22**  So such a filter can keep everything although its sub-filter rejects everything; with a
non-empty name the result is always within the sub-filter's. -/
theorem C22_subfilter_skipped :
    (∃ (doc : Doc) (f : Filter) (s : List ℕ) (required : Bool), NodeSet doc s ∧ s ≠ [] ∧ f.apply doc s = [] ∧
      (Filter.sect "" required f).apply doc s = s) ∧
    ∀ (doc : Doc) (f : Filter) (s : List ℕ) (name : String) (required : Bool), NodeSet doc s → name ≠ "" →
      ∀ k ∈ (Filter.sect name required f).apply doc s, k ∈ f.apply doc s := by
  constructor
  · exact ⟨exDoc, .label "nothing", [0, 1], true, ⟨by decide, by decide⟩, by decide, by decide +kernel,
      by decide +kernel⟩
  · intro doc f s name required hs hn k hk
    cases required with
    | true => exact ((C20_required doc name hn f s hs k).1 hk).1
    | false => exact (C21_one_per_equation doc name hn f s hs).1 k hk

/-! ## C23 -/

/-- The terms a specification set is made of: the first entry of each name, in order of names. -/
def IsTermSet (ts set : List EqTerm) : Prop :=
  set.Pairwise (fun a b => a.name < b.name) ∧ ∀ t, t ∈ set ↔ ts.find? (fun u => u.name == t.name) = some t

/-- A child of an EqIO node describes a term; an omitted multiplicity is one. -/
def DescribesTerm (c : FNode) (t : EqTerm) : Prop := c.P = some t.name ∧ t.n = c.n.getD 1

/-- The grammar of filter descriptions: which filter an XML element denotes. -/
inductive Denotes : FNode → Filter → Prop
  | null (x : FNode) : x.name = "Null" → Denotes x .null
  | elastic (x : FNode) : x.name = "Elastic" → Denotes x .elastic
  | label (x : FNode) : x.name = "Label" → Denotes x (.label x.text)
  | eqio (x : FNode) (d : String) (out : Bool) (ts set : List EqTerm) : x.name = "EqIO" →
      x.attr "dir" = some d → d.toLower = (if out then "out" else "in") → x.children ≠ [] →
      List.Forall₂ DescribesTerm x.children ts → IsTermSet ts set → Denotes x (.eqio out set)
  | and (x a b : FNode) (l r : Filter) : x.name = "And" → x.children = [a, b] → Denotes a l → Denotes b r →
      Denotes x (.and l r)
  | or (x a b : FNode) (l r : Filter) : x.name = "Or" → x.children = [a, b] → Denotes a l → Denotes b r →
      Denotes x (.or l r)
  | not (x a b : FNode) (l r : Filter) : x.name = "Not" → x.children = [a, b] → Denotes a l → Denotes b r →
      Denotes x (.not l r)
  | sect0 (x : FNode) : x.name = "Section" → x.children = [] →
      Denotes x (.sect ((x.attr "name").getD "standard")
        (containsChars "required".toList (((x.attr "preference").getD "preferred").toLower).toList) .null)
  | sect1 (x a : FNode) (f : Filter) : x.name = "Section" → x.children = [a] → Denotes a f →
      Denotes x (.sect ((x.attr "name").getD "standard")
        (containsChars "required".toList (((x.attr "preference").getD "preferred").toLower).toList) f)

theorem loadTerms_iff : ∀ (l : List FNode) (ts : List EqTerm),
    loadTerms l = .ok ts ↔ List.Forall₂ DescribesTerm l ts
  | [], ts => by
    simp only [loadTerms, Except.ok.injEq, List.forall₂_nil_left_iff]
    exact eq_comm
  | x :: xs, ts => by
    have ih := loadTerms_iff xs
    simp only [loadTerms, loadTerm]
    cases hP : x.P with
    | none =>
      simp only [reduceCtorEq, false_iff]
      intro h
      cases h with
      | cons h1 h2 => rw [DescribesTerm, hP] at h1; cases h1.1
    | some p =>
      simp only
      cases hl : loadTerms xs with
      | error e =>
        simp only [reduceCtorEq, false_iff]
        intro h
        cases h with
        | cons h1 h2 => rw [← ih, hl] at h2; cases h2
      | ok us =>
        simp only [Except.ok.injEq]
        constructor
        · rintro rfl
          exact .cons ⟨hP, rfl⟩ ((ih us).1 hl)
        · intro h
          cases h with
          | cons h1 h2 =>
            rename_i t ts'
            rw [← ih, hl] at h2
            cases h2
            obtain ⟨a, b⟩ := h1
            rw [hP] at a
            obtain ⟨nm, n⟩ := t
            cases a
            simp only at b
            rw [b]

theorem isTermSet_iff (ts set : List EqTerm) : IsTermSet ts set ↔ set = eqTermSet ts := by
  constructor
  · rintro ⟨a, b⟩
    exact nameSorted_unique a (eqTermSet_spec ts).1 (fun t => (b t).trans ((eqTermSet_spec ts).2 t).symm)
  · rintro rfl; exact eqTermSet_spec ts

theorem loadFilter_sound : ∀ (x : FNode) (f : Filter), loadFilter x = .ok f → Denotes x f
  | .mk name attr text P n children, f, h => by
    rw [loadFilter.eq_def] at h
    simp only at h
    split at h
    · cases h; exact .null _ (by assumption)
    split at h
    · cases h; exact .elastic _ (by assumption)
    split at h
    · cases h; exact .label (.mk name attr text P n children) (by assumption)
    split at h
    · rename_i hname
      split at h
      · cases h
      · rename_i d hd
        split at h
        · rename_i hdir
          split at h
          · cases h
          · rename_i hlen
            split at h
            · cases h
            · rename_i ts hts
              cases h
              refine .eqio _ d _ ts _ hname hd ?_ ?_ ((loadTerms_iff _ _).1 hts) ((isTermSet_iff _ _).2 rfl)
              · rcases hdir with hdir | hdir
                · rw [hdir]; simp
                · rw [hdir]; simp
              · intro hc; apply hlen; simp only [FNode.children] at hc; simp [hc]
        · cases h
    split at h
    · rename_i hname
      split at h
      · rename_i a b
        split at h
        · cases h
        · rename_i l hl
          split at h
          · cases h
          · rename_i r hr
            have dl := loadFilter_sound a l hl
            have dr := loadFilter_sound b r hr
            cases h
            rcases hname with hname | hname | hname
            · rw [if_pos hname]; exact .and _ a b l r hname rfl dl dr
            · rw [if_neg (by rw [hname]; decide), if_pos hname]; exact .or _ a b l r hname rfl dl dr
            · rw [if_neg (by rw [hname]; decide), if_neg (by rw [hname]; decide)]
              exact .not _ a b l r hname rfl dl dr
      · cases h
    split at h
    · rename_i hname
      split at h
      · cases h
        exact .sect0 (.mk name attr text P n []) hname rfl
      · rename_i a
        split at h
        · cases h
        · rename_i g hg
          have dg := loadFilter_sound a g hg
          cases h
          exact .sect1 (.mk name attr text P n [a]) a g hname rfl dg
      · cases h
    · cases h

theorem loadFilter_complete {x : FNode} {f : Filter} (h : Denotes x f) : loadFilter x = .ok f := by
  induction h with
  | null x h => obtain ⟨name, attr, text, P, n, c⟩ := x; cases h; rw [loadFilter.eq_def]; simp
  | elastic x h => obtain ⟨name, attr, text, P, n, c⟩ := x; cases h; rw [loadFilter.eq_def]; simp
  | label x h => obtain ⟨name, attr, text, P, n, c⟩ := x; cases h; rw [loadFilter.eq_def]; simp [FNode.text]
  | eqio x d out ts set h hd hdir hne hts hset =>
    obtain ⟨name, attr, text, P, n, c⟩ := x
    simp only [FNode.name, FNode.attr, FNode.children] at h hd hne hts
    subst h
    rw [(isTermSet_iff _ _).1 hset]
    have hlen : ¬ c.length < 1 := by
      intro hc
      exact hne (List.length_eq_zero_iff.1 (by omega))
    cases out
    · rw [loadFilter.eq_def]; simp [hd, hdir, (loadTerms_iff _ _).2 hts, hne]
    · rw [loadFilter.eq_def]; simp [hd, hdir, (loadTerms_iff _ _).2 hts, hne]
  | and x a b l r h hc _ _ ia ib =>
    obtain ⟨name, attr, text, P, n, c⟩ := x
    simp only [FNode.name, FNode.children] at h hc
    subst h hc
    rw [loadFilter.eq_def]; simp [ia, ib]
  | or x a b l r h hc _ _ ia ib =>
    obtain ⟨name, attr, text, P, n, c⟩ := x
    simp only [FNode.name, FNode.children] at h hc
    subst h hc
    rw [loadFilter.eq_def]; simp [ia, ib]
  | not x a b l r h hc _ _ ia ib =>
    obtain ⟨name, attr, text, P, n, c⟩ := x
    simp only [FNode.name, FNode.children] at h hc
    subst h hc
    rw [loadFilter.eq_def]; simp [ia, ib]
  | sect0 x h hc =>
    obtain ⟨name, attr, text, P, n, c⟩ := x
    simp only [FNode.name, FNode.children] at h hc
    subst h hc
    rw [loadFilter.eq_def]; simp [FNode.attr]
  | sect1 x a f h hc _ ia =>
    obtain ⟨name, attr, text, P, n, c⟩ := x
    simp only [FNode.name, FNode.children] at h hc
    subst h hc
    rw [loadFilter.eq_def]; simp [FNode.attr, ia]

/-- **C23**  A description loads exactly when the grammar gives it a meaning, and then to that meaning.
All other descriptions are errors. -/
theorem C23_load_iff (x : FNode) (f : Filter) : loadFilter x = .ok f ↔ Denotes x f :=
  ⟨loadFilter_sound x f, loadFilter_complete⟩

/-- A child describing a term. -/
def serTerm (t : EqTerm) : FNode := .mk "T" (fun _ => none) "" (some t.name) (some t.n) []

/-- The XML form of a filter. -/
def serFilter : Filter → FNode
  | .null => .mk "Null" (fun _ => none) "" none none []
  | .elastic => .mk "Elastic" (fun _ => none) "" none none []
  | .label l => .mk "Label" (fun _ => none) l none none []
  | .eqio out terms => .mk "EqIO" (fun a => if a = "dir" then some (if out then "Out" else "In") else none) "" none none
      (terms.map serTerm)
  | .and l r => .mk "And" (fun _ => none) "" none none [serFilter l, serFilter r]
  | .or l r => .mk "Or" (fun _ => none) "" none none [serFilter l, serFilter r]
  | .not l r => .mk "Not" (fun _ => none) "" none none [serFilter l, serFilter r]
  | .sect name req f => .mk "Section" (fun a => if a = "name" then some name else
      if a = "preference" then some (if req then "REQUIRED" else "PREFERRED") else none) "" none none [serFilter f]

/-- Every EqIO node of the tree holds a non-empty set of terms. -/
def Filter.ProperSets : Filter → Prop
  | .eqio _ terms => terms ≠ [] ∧ terms.Pairwise (fun a b => a.name < b.name)
  | .and l r => l.ProperSets ∧ r.ProperSets
  | .or l r => l.ProperSets ∧ r.ProperSets
  | .not l r => l.ProperSets ∧ r.ProperSets
  | .sect _ _ f => f.ProperSets
  | _ => True

/-- **C23**  Loading the XML form of a tree yields the tree. -/
theorem C23_roundtrip (f : Filter) (h : f.ProperSets) : loadFilter (serFilter f) = .ok f := by
  rw [C23_load_iff]
  induction f with
  | null => exact .null _ rfl
  | elastic => exact .elastic _ rfl
  | label l => exact .label (serFilter (.label l)) rfl
  | eqio out terms =>
    refine .eqio _ (if out then "Out" else "In") out terms terms rfl rfl ?_ ?_ ?_ ?_
    · cases out <;> decide +kernel
    · simpa [serFilter, FNode.children] using h.1
    · simp only [serFilter, FNode.children]
      rw [List.forall₂_map_left_iff]
      exact List.forall₂_same.2 (fun t _ => ⟨rfl, rfl⟩)
    · exact ⟨h.2, fun t => (firstNamed_of_sorted h.2 t).symm⟩
  | and l r il ir => exact .and _ _ _ _ _ rfl rfl (il h.1) (ir h.2)
  | or l r il ir => exact .or _ _ _ _ _ rfl rfl (il h.1) (ir h.2)
  | not l r il ir => exact .not _ _ _ _ _ rfl rfl (il h.1) (ir h.2)
  | sect name req f ih =>
    have := Denotes.sect1 (serFilter (.sect name req f)) (serFilter f) f rfl rfl (ih h)
    have e : containsChars "required".toList
        ((((serFilter (.sect name req f)).attr "preference").getD "preferred").toLower).toList = req := by
      cases req
      · exact (by decide +kernel : containsChars "required".toList ("PREFERRED".toLower).toList = false)
      · exact (by decide +kernel : containsChars "required".toList ("REQUIRED".toLower).toList = true)
    rw [e] at this
    exact this

/-- An operand of a combining node. -/
def Operand (y x : FNode) : Prop :=
  (x.name = "And" ∨ x.name = "Or" ∨ x.name = "Not" ∨ x.name = "Section") ∧ y ∈ x.children

/-- A node that is not a legal description by itself. -/
def IllFormed (x : FNode) : Prop :=
  ((x.name = "And" ∨ x.name = "Or" ∨ x.name = "Not") ∧ x.children.length ≠ 2) ∨
  (x.name = "Section" ∧ 1 < x.children.length) ∨
  (x.name = "EqIO" ∧ (x.children = [] ∨ x.attr "dir" = none ∨
    (∃ d, x.attr "dir" = some d ∧ d.toLower ≠ "in" ∧ d.toLower ≠ "out") ∨ ∃ c ∈ x.children, c.P = none)) ∨
  (x.name ∉ ["Null", "Elastic", "Label", "EqIO", "And", "Or", "Not", "Section"])

theorem not_illFormed {x : FNode} {f : Filter} (h : Denotes x f) : ¬ IllFormed x := by
  unfold IllFormed
  cases h with
  | null _ h => simp [h]
  | elastic _ h => simp [h]
  | label _ h => simp [h]
  | eqio _ d out ts set h hd hdir hne hts hset =>
    have hP : ¬ ∃ c ∈ x.children, c.P = none := by
      rintro ⟨c, hc, hP⟩
      obtain ⟨i, hi, rfl⟩ := List.getElem_of_mem hc
      have := hts.get (i := i) hi (by rw [← hts.length_eq]; exact hi)
      rw [DescribesTerm] at this
      simp only [List.get_eq_getElem] at this
      rw [hP] at this; cases this.1
    simp only [h, hd, hne, hP]
    cases out <;> simp [hdir]
  | and _ a b l r h hc _ _ => simp [h, hc]
  | or _ a b l r h hc _ _ => simp [h, hc]
  | not _ a b l r h hc _ _ => simp [h, hc]
  | sect0 _ h hc => simp [h, hc]
  | sect1 _ a f h hc _ => simp [h, hc]

theorem operand_denotes {y x : FNode} {f : Filter} (h : Denotes x f) (ho : Operand y x) :
    ∃ g, Denotes y g := by
  obtain ⟨hn, hy⟩ := ho
  cases h with
  | null _ h => simp [h] at hn
  | elastic _ h => simp [h] at hn
  | label _ h => simp [h] at hn
  | eqio _ d out ts set h hd hdir hne hts hset => simp [h] at hn
  | and _ a b l r h hc ha hb =>
    rw [hc] at hy
    rcases List.mem_cons.1 hy with rfl | hy
    · exact ⟨_, ha⟩
    · rw [List.mem_singleton] at hy; subst hy; exact ⟨_, hb⟩
  | or _ a b l r h hc ha hb =>
    rw [hc] at hy
    rcases List.mem_cons.1 hy with rfl | hy
    · exact ⟨_, ha⟩
    · rw [List.mem_singleton] at hy; subst hy; exact ⟨_, hb⟩
  | not _ a b l r h hc ha hb =>
    rw [hc] at hy
    rcases List.mem_cons.1 hy with rfl | hy
    · exact ⟨_, ha⟩
    · rw [List.mem_singleton] at hy; subst hy; exact ⟨_, hb⟩
  | sect0 _ h hc => rw [hc] at hy; simp at hy
  | sect1 _ a f h hc ha =>
    rw [hc, List.mem_singleton] at hy
    subst hy; exact ⟨_, ha⟩

/-- **C23**  An ill-formed node at any depth makes loading fail. -/
theorem C23_errors_at_any_depth (x y : FNode) (hy : Relation.ReflTransGen Operand y x) (hbad : IllFormed y) :
    ∃ e, loadFilter x = .error e := by
  cases hl : loadFilter x with
  | error e => exact ⟨e, rfl⟩
  | ok f =>
    exfalso
    have hx := (C23_load_iff x f).1 hl
    have : ∃ g, Denotes y g := by
      clear hl hbad
      induction hy generalizing f with
      | refl => exact ⟨f, hx⟩
      | tail h1 h2 ih =>
        obtain ⟨g, hg⟩ := operand_denotes hx h2
        exact ih g hg
    obtain ⟨g, hg⟩ := this
    exact not_illFormed hg hbad

/-- **C23**  Ill-formed nodes are the only reason for failure: a tree without one loads. -/
theorem C23_only_errors (x : FNode) (h : ∀ y, Relation.ReflTransGen Operand y x → ¬ IllFormed y) :
    ∃ f, loadFilter x = .ok f := by
  suffices ∃ f, Denotes x f from this.imp fun f => (C23_load_iff x f).2
  revert h
  apply FNode.rec (motive_1 := fun x => (∀ y, Relation.ReflTransGen Operand y x → ¬ IllFormed y) → ∃ f, Denotes x f)
    (motive_2 := fun l => ∀ c ∈ l, (∀ y, Relation.ReflTransGen Operand y c → ¬ IllFormed y) → ∃ f, Denotes c f)
  · intro name attr text P n c ih h
    have hx := h _ .refl
    have hc : ∀ a, Operand a (.mk name attr text P n c) → ∃ f, Denotes a f := by
      intro a ha
      exact ih a ha.2 (fun y hy => h y (hy.tail ha))
    unfold IllFormed at hx
    simp only [FNode.name, FNode.children, FNode.attr, not_or, not_and, not_exists] at hx
    obtain ⟨x1, x2, x3, x4⟩ := hx
    simp only [not_not] at x4
    simp only [List.mem_cons, List.not_mem_nil, or_false] at x4
    have two : ∀ (nm : String), name = nm → (nm = "And" ∨ nm = "Or" ∨ nm = "Not") →
        ∃ a b l r, c = [a, b] ∧ Denotes a l ∧ Denotes b r := by
      intro nm e hnm
      have hl := x1 (by rw [e]; exact hnm)
      rw [not_not, List.length_eq_two] at hl
      obtain ⟨a, b, rfl⟩ := hl
      have hop : name = "And" ∨ name = "Or" ∨ name = "Not" ∨ name = "Section" := by
        rw [e]; rcases hnm with h | h | h <;> simp [h]
      obtain ⟨l, hl⟩ := hc a ⟨hop, by simp [FNode.children]⟩
      obtain ⟨r, hr⟩ := hc b ⟨hop, by simp [FNode.children]⟩
      exact ⟨a, b, l, r, rfl, hl, hr⟩
    rcases x4 with e | e | e | e | e | e | e | e
    · exact ⟨_, .null _ e⟩
    · exact ⟨_, .elastic _ e⟩
    · exact ⟨_, .label _ e⟩
    · have y1 := x3 e
      obtain ⟨y1, y2, y3, y4⟩ := y1
      cases hd : attr "dir" with
      | none => exact absurd hd y2
      | some d =>
        have hP : ∃ ts, List.Forall₂ DescribesTerm c ts := by
          clear ih h hc x1 x2 x3 two y1
          induction c with
          | nil => exact ⟨[], .nil⟩
          | cons a c ihc =>
            obtain ⟨ts, hts⟩ := ihc (fun z hz => y4 z (List.mem_cons_of_mem _ hz))
            cases hP : a.P with
            | none => exact absurd hP (y4 a List.mem_cons_self)
            | some p => exact ⟨⟨p, a.n.getD 1⟩ :: ts, .cons ⟨hP, rfl⟩ hts⟩
        obtain ⟨ts, hts⟩ := hP
        have hdir : d.toLower = "in" ∨ d.toLower = "out" := by
          by_contra hcon
          rw [not_or] at hcon
          exact y3 d hd hcon.1 hcon.2
        rcases hdir with hdir | hdir
        · exact ⟨_, .eqio _ d false ts (eqTermSet ts) e hd (by simpa using hdir) y1 hts ((isTermSet_iff _ _).2 rfl)⟩
        · exact ⟨_, .eqio _ d true ts (eqTermSet ts) e hd (by simpa using hdir) y1 hts ((isTermSet_iff _ _).2 rfl)⟩
    · obtain ⟨a, b, l, r, rfl, hl, hr⟩ := two _ e (by simp)
      exact ⟨_, .and _ a b l r e rfl hl hr⟩
    · obtain ⟨a, b, l, r, rfl, hl, hr⟩ := two _ e (by simp)
      exact ⟨_, .or _ a b l r e rfl hl hr⟩
    · obtain ⟨a, b, l, r, rfl, hl, hr⟩ := two _ e (by simp)
      exact ⟨_, .not _ a b l r e rfl hl hr⟩
    · have hlen := x2 e
      match c, hlen, hc with
      | [], _, _ => exact ⟨_, .sect0 _ e rfl⟩
      | [a], _, hc =>
        obtain ⟨g, hg⟩ := hc a ⟨.inr (.inr (.inr e)), by simp [FNode.children]⟩
        exact ⟨_, .sect1 _ a g e rfl hg⟩
      | _ :: _ :: _, hlen, _ => simp at hlen
  · intro c hc; simp at hc
  · intro a l ha hl c hc
    rcases List.mem_cons.1 hc with rfl | hc
    · exact ha
    · exact hl c hc

/-- **C23**  The element holding the filter: no child means no filtering, one child is the filter, more are
an error. -/
theorem C23_equation_filter (x : FNode) (f : Filter) :
    loadEquationFilter x = .ok f ↔ (x.children = [] ∧ f = .null) ∨ ∃ c, x.children = [c] ∧ Denotes c f := by
  unfold loadEquationFilter
  rcases x.children with _ | ⟨a, _ | ⟨b, l⟩⟩
  · simp [eq_comm]
  · simp [C23_load_iff]
  · simp

example : exFilter.ProperSets := by
  refine ⟨⟨trivial, trivial⟩, ⟨by decide, ?_⟩, trivial⟩
  simp only [List.pairwise_cons, List.not_mem_nil, false_imp_iff, implies_true, List.Pairwise.nil, and_true,
    List.mem_singleton, forall_eq]
  decide +kernel

/-- An And with one operand under a Not under a Section. -/
def exBad : FNode := .mk "And" (fun _ => none) "" none none [serFilter .null]
def exBadTop : FNode := .mk "Section" (fun _ => none) "" none none
  [.mk "Not" (fun _ => none) "" none none [serFilter .elastic, exBad]]

example : Relation.ReflTransGen Operand exBad exBadTop ∧ IllFormed exBad := by
  refine ⟨.tail (.tail .refl (b := exBad) (c := .mk "Not" (fun _ => none) "" none none [serFilter .elastic, exBad]) ?_) ?_, ?_⟩
  · exact ⟨by simp [FNode.name], by simp [FNode.children]⟩
  · exact ⟨by simp [FNode.name, exBadTop], by simp [FNode.children, exBadTop]⟩
  · left; exact ⟨by simp [FNode.name, exBad], by simp [FNode.children, exBad]⟩

/-! ## C25 -/

/-- **C25**  For species names that are non-empty, contain no blank and do not end in `]`, and for
multiplicities of at least one, two interactions get the same equation text exactly when their
reactant and product lists agree entry by entry in species, multiplicity and source. -/
theorem C25_text_identifies (x y : XInter) (hx : PlainSide x.ins ∧ PlainSide x.outs)
    (hy : PlainSide y.ins ∧ PlainSide y.outs) :
    eqText x = eqText y ↔ List.Forall₂ SameTerm x.ins y.ins ∧ List.Forall₂ SameTerm x.outs y.outs := by
  constructor
  · intro h
    have h' := congrArg (· ++ [' ', ' ']) h
    simp only [eqText_toks] at h'
    have tail : ∀ z : XInter, PlainSide z.outs → ∀ w ∈ (['-', '-', '>'] :: [] :: sideToks z.outs []), ' ' ∉ w := by
      intro z hz w hw
      rcases List.mem_cons.1 hw with rfl | hw
      · decide
      · rcases List.mem_cons.1 hw with rfl | hw
        · simp
        · exact sideToks_no_blank _ _ hz (by simp) w hw
    have h1 := joinToks_inj (sideToks_no_blank _ _ hx.1 (tail x hx.2)) (sideToks_no_blank _ _ hy.1 (tail y hy.2)) h'
    obtain ⟨a, b⟩ := sideToks_inj _ _ _ _ hx.1 hy.1 h1
    simp only [List.cons.injEq, true_and] at b
    exact ⟨a, (sideToks_inj _ _ _ _ hx.2 hy.2 b).1⟩
  · rintro ⟨a, b⟩
    unfold eqText
    rw [sideText_congr a, sideText_congr b]

/-- An elastic equation of one species with itself, written with the given terms. -/
def exText (t : TNode) : XInter := ⟨[t], [t], "", "", true, "", none⟩

example : PlainSide [⟨"e", some 2, -1, ""⟩, ⟨"Ar+", none, 0, ""⟩] := by
  intro t ht
  simp only [List.mem_cons, List.not_mem_nil, or_false] at ht
  rcases ht with rfl | rfl <;> exact ⟨⟨by decide, by decide, by decide⟩, by decide⟩

example : eqText ⟨[⟨"e", none, -1, ""⟩, ⟨"Ar", none, -1, ""⟩], [⟨"e", some 2, -1, ""⟩, ⟨"Ar+", none, 1, ""⟩], "", "", true, "", none⟩
    = "e + Ar  -->  2 e + Ar+[1]".toList := by decide +kernel

/-- **C25**  Each proviso is needed: without it, two interactions with different terms can get the same
text. -/
theorem C25_provisos_needed :
    -- a name ending in a bracket
    (eqText (exText ⟨"A[0]", none, -1, ""⟩) = eqText (exText ⟨"A", none, 0, ""⟩)) ∧
    -- a multiplicity of zero
    (eqText (exText ⟨"A", some 0, -1, ""⟩) = eqText (exText ⟨"A", some 1, -1, ""⟩)) ∧
    -- a name with a blank
    (eqText (exText ⟨"2 A", none, -1, ""⟩) = eqText (exText ⟨"A", some 2, -1, ""⟩)) ∧
    -- an empty name
    (eqText (exText ⟨"", none, -1, ""⟩) = eqText ⟨[], [], "", "", true, "", none⟩) := by
  refine ⟨by decide +kernel, by decide +kernel, by decide +kernel, by decide +kernel⟩

end Chimp
