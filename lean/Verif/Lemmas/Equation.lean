import Verif.Model.Equation
import Verif.Lemmas.Registry
import Mathlib.Algebra.BigOperators.Group.List.Basic
import Mathlib.Algebra.Order.BigOperators.Group.List

/-! # Lemmas on loading equations -/

namespace Chimp

variable {K : Type} [LinearOrder K]

/-! ### Specification of one side -/

/-- Nodes of a side that name species `x`, in document order. -/
def nodesOf (l : List TNode) (x : String) : List TNode := l.filter (fun t => t.P = x)

/-- Total multiplicity of species `x` on a side. -/
def totalMult (l : List TNode) (x : String) : ℤ := ((nodesOf l x).map TNode.mult).sum

/-- Source annotations of the particles of species `x`, one per particle, in document order. -/
def srcList (l : List TNode) (x : String) : List ℤ :=
  (nodesOf l x).flatMap (fun t => List.replicate t.mult.toNat t.src)

/-- Operation annotations, likewise. -/
def opsList (l : List TNode) (x : String) : List String :=
  (nodesOf l x).flatMap (fun t => List.replicate t.mult.toNat t.ops)

/-- All information about one species on a side. -/
def infoOf (l : List TNode) (x : String) : TermInfo := ⟨totalMult l x, srcList l x, opsList l x⟩

theorem nodesOf_append (l m : List TNode) (x : String) :
    nodesOf (l ++ m) x = nodesOf l x ++ nodesOf m x := List.filter_append ..

theorem infoOf_snoc (l : List TNode) (t : TNode) (x : String) :
    infoOf (l ++ [t]) x = if t.P = x then (infoOf l x).add t else infoOf l x := by
  unfold infoOf totalMult srcList opsList TermInfo.add
  rw [nodesOf_append]
  split
  · rename_i h
    simp [nodesOf, h]
  · rename_i h
    simp [nodesOf, h]

theorem infoOf_absent {l : List TNode} {x : String} (h : ∀ t ∈ l, t.P ≠ x) : infoOf l x = ⟨0, [], []⟩ := by
  have : nodesOf l x = [] := by
    rw [nodesOf, List.filter_eq_nil_iff]; intro t ht; simpa using h t ht
  simp [infoOf, totalMult, srcList, opsList, this]

theorem zero_add_new (t : TNode) : (TermInfo.add ⟨0, [], []⟩ t) = TermInfo.new t := by
  simp [TermInfo.add, TermInfo.new]

/-! ### The ordered map -/

/-- Keys strictly increasing. -/
def KeysSorted (el : SideMap K) : Prop := el.Pairwise (fun a b => a.1.lt b.1 = true)

omit [LinearOrder K] in
theorem lookupName_ok {db : Registry K} {x : String} {p : Props K} (h : lookupName db x = .ok p) :
    p ∈ db ∧ p.name = x := by
  unfold lookupName at h
  split at h
  · cases h
  · rename_i q hq
    cases h
    obtain ⟨hlt, he⟩ := List.getElem?_eq_some_iff.1 hq
    exact ⟨he ▸ List.getElem_mem hlt, he ▸ findParticle_get db x hlt⟩

omit [LinearOrder K] in
theorem lookupName_iff {db : Registry K} (hnd : NodupNames db) {x : String} {p : Props K} :
    lookupName db x = .ok p ↔ p ∈ db ∧ p.name = x := by
  constructor
  · exact lookupName_ok
  · rintro ⟨hp, rfl⟩
    obtain ⟨i, hi⟩ := List.mem_iff_getElem?.1 hp
    unfold lookupName
    rw [findParticle_unique hnd hi, hi]

omit [LinearOrder K] in
theorem lookupName_error_iff {db : Registry K} {x : String} :
    (∃ e, lookupName db x = .error e) ↔ ∀ p ∈ db, p.name ≠ x := by
  rw [← findParticle_eq_length_iff]
  unfold lookupName
  constructor
  · rintro ⟨e, h⟩
    split at h
    · rename_i hq
      have := List.getElem?_eq_none_iff.1 hq
      exact le_antisymm (findParticle_le _ _) this
    · cases h
  · intro h
    rw [h]
    simp

theorem upsert_keys {db : Registry K} (hnd : NodupNames db) (p : Props K) (hp : p ∈ db) (t : TNode) :
    ∀ (el : SideMap K), (∀ e ∈ el, e.1 ∈ db) → KeysSorted el →
    KeysSorted (upsert p t el) ∧ (∀ e ∈ upsert p t el, e.1 ∈ db) ∧
    ∀ q i, (q, i) ∈ upsert p t el ↔ (q ≠ p ∧ (q, i) ∈ el) ∨
      (q = p ∧ ((∃ i0, (p, i0) ∈ el ∧ i = i0.add t) ∨
        ((∀ i0, (p, i0) ∉ el) ∧ i = TermInfo.new t))) := by
  intro el
  induction el with
  | nil =>
    intro _ _
    refine ⟨by simp [upsert, KeysSorted], by simpa [upsert] using hp, ?_⟩
    intro q i
    simp [upsert]
  | cons e l ih =>
    obtain ⟨q0, i0⟩ := e
    intro hdb hs
    have hq0 : q0 ∈ db := hdb (q0, i0) List.mem_cons_self
    have hdb' : ∀ e ∈ l, e.1 ∈ db := fun e he => hdb e (List.mem_cons_of_mem _ he)
    have hs' : KeysSorted l := (List.pairwise_cons.1 hs).2
    have hlt : ∀ e ∈ l, q0.lt e.1 = true := (List.pairwise_cons.1 hs).1
    have ih := ih hdb' hs'
    have hnot : ∀ i, (q0, i) ∉ l := by
      intro i hi; have := hlt _ hi; simp only at this; rw [Props.lt_irrefl] at this; cases this
    simp only [upsert]
    by_cases h1 : p.lt q0 = true
    · rw [if_pos h1]
      have hpne : ∀ i, (p, i) ∉ (q0, i0) :: l := by
        intro i hi
        rcases List.mem_cons.1 hi with hi | hi
        · cases hi; rw [Props.lt_irrefl] at h1; cases h1
        · have := Props.lt_trans h1 (hlt _ hi)
          simp only at this; rw [Props.lt_irrefl] at this; cases this
      refine ⟨?_, ?_, ?_⟩
      · refine List.pairwise_cons.2 ⟨?_, hs⟩
        intro e he
        rcases List.mem_cons.1 he with rfl | he
        · exact h1
        · exact Props.lt_trans h1 (hlt e he)
      · intro e he
        rcases List.mem_cons.1 he with rfl | he
        · exact hp
        · exact hdb e he
      · intro q i
        constructor
        · intro hm
          rcases List.mem_cons.1 hm with hm' | hm'
          · cases hm'; exact .inr ⟨rfl, .inr ⟨hpne, rfl⟩⟩
          · refine .inl ⟨?_, hm'⟩
            rintro rfl; exact hpne _ hm'
        · rintro (⟨_, hm⟩ | ⟨rfl, ⟨i1, hm, _⟩ | ⟨_, rfl⟩⟩)
          · exact List.mem_cons_of_mem _ hm
          · exact absurd hm (hpne _)
          · exact List.mem_cons_self
    · rw [if_neg h1]
      by_cases h2 : q0.lt p = true
      · rw [if_pos h2]
        have hne : q0 ≠ p := by rintro rfl; rw [Props.lt_irrefl] at h2; cases h2
        refine ⟨?_, ?_, ?_⟩
        · refine List.pairwise_cons.2 ⟨?_, ih.1⟩
          rintro ⟨q, i⟩ he
          rcases (ih.2.2 q i).1 he with ⟨_, h⟩ | ⟨rfl, _⟩
          · exact hlt _ h
          · exact h2
        · intro e he
          rcases List.mem_cons.1 he with rfl | he
          · exact hq0
          · exact ih.2.1 e he
        · intro q i
          rw [List.mem_cons, ih.2.2 q i]
          constructor
          · rintro (h | h | ⟨rfl, ⟨i1, hm, rfl⟩ | ⟨hm, rfl⟩⟩)
            · cases h; exact .inl ⟨hne, List.mem_cons_self⟩
            · exact .inl ⟨h.1, List.mem_cons_of_mem _ h.2⟩
            · exact .inr ⟨rfl, .inl ⟨i1, List.mem_cons_of_mem _ hm, rfl⟩⟩
            · refine .inr ⟨rfl, .inr ⟨?_, rfl⟩⟩
              intro i2 hi2
              rcases List.mem_cons.1 hi2 with h | h
              · cases h; exact hne rfl
              · exact hm _ h
          · rintro (⟨hqp, hm⟩ | ⟨rfl, ⟨i1, hm, rfl⟩ | ⟨hm, rfl⟩⟩)
            · rcases List.mem_cons.1 hm with h | h
              · exact .inl h
              · exact .inr (.inl ⟨hqp, h⟩)
            · rcases List.mem_cons.1 hm with h | h
              · cases h; exact absurd rfl hne
              · exact .inr (.inr ⟨rfl, .inl ⟨i1, h, rfl⟩⟩)
            · exact .inr (.inr ⟨rfl, .inr ⟨fun i2 h => hm i2 (List.mem_cons_of_mem _ h), rfl⟩⟩)
      · rw [if_neg h2]
        have heq : p = q0 := nodupNames_inj hnd hp hq0
          (Props.eq_of_not_lt (by simpa using h1) (by simpa using h2)).2
        subst heq
        refine ⟨?_, ?_, ?_⟩
        · exact List.pairwise_cons.2 ⟨hlt, hs'⟩
        · intro e he
          rcases List.mem_cons.1 he with rfl | he
          · exact hp
          · exact hdb' e he
        · intro q i
          constructor
          · intro hm
            rcases List.mem_cons.1 hm with hm' | hm'
            · cases hm'; exact .inr ⟨rfl, .inl ⟨i0, List.mem_cons_self, rfl⟩⟩
            · refine .inl ⟨?_, List.mem_cons_of_mem _ hm'⟩
              rintro rfl; exact hnot _ hm'
          · rintro (⟨hqp, hm⟩ | ⟨rfl, ⟨i1, hm, rfl⟩ | ⟨hm, rfl⟩⟩)
            · rcases List.mem_cons.1 hm with h | h
              · cases h; exact absurd rfl hqp
              · exact List.mem_cons_of_mem _ h
            · rcases List.mem_cons.1 hm with h | h
              · cases h; exact List.mem_cons_self
              · exact absurd h (hnot _)
            · exact absurd List.mem_cons_self (hm i0)

/-- What the map contains after processing the nodes `l`. -/
structure SideInv (db : Registry K) (l : List TNode) (el : SideMap K) : Prop where
  sorted : KeysSorted el
  keys : ∀ e ∈ el, e.1 ∈ db
  mem : ∀ q i, (q, i) ∈ el ↔ q ∈ db ∧ (∃ t ∈ l, t.P = q.name) ∧ i = infoOf l q.name

theorem sideInv_nil (db : Registry K) : SideInv db [] [] := ⟨List.Pairwise.nil, by simp, by simp⟩

theorem sideInv_snoc {db : Registry K} (hnd : NodupNames db) {l : List TNode} {el : SideMap K}
    (h : SideInv db l el) (p : Props K) (hp : p ∈ db) (t : TNode) (ht : t.P = p.name) :
    SideInv db (l ++ [t]) (upsert p t el) := by
  obtain ⟨h1, h2, h3⟩ := upsert_keys hnd p hp t el h.keys h.sorted
  refine ⟨h1, h2, ?_⟩
  intro q i
  rw [h3 q i, infoOf_snoc]
  constructor
  · rintro (⟨hqp, hm⟩ | ⟨rfl, ⟨i1, hm, rfl⟩ | ⟨hm, rfl⟩⟩)
    · obtain ⟨a, ⟨t', ht', e⟩, b⟩ := (h.mem q i).1 hm
      refine ⟨a, ⟨t', List.mem_append_left _ ht', e⟩, ?_⟩
      rw [if_neg]
      · exact b
      · intro hc
        exact hqp (nodupNames_inj hnd a hp (by rw [← hc, ht]))
    · obtain ⟨a, _, b⟩ := (h.mem q i1).1 hm
      refine ⟨a, ⟨t, by simp, ht⟩, ?_⟩
      rw [if_pos ht, b]
    · refine ⟨hp, ⟨t, by simp, ht⟩, ?_⟩
      have habs : ∀ t' ∈ l, t'.P ≠ q.name := by
        intro t' ht' e
        exact hm _ ((h.mem q _).2 ⟨hp, ⟨t', ht', e⟩, rfl⟩)
      rw [if_pos ht, infoOf_absent habs, zero_add_new]
  · rintro ⟨a, ⟨t', ht', e⟩, b⟩
    by_cases hqp : q = p
    · subst hqp
      right
      refine ⟨rfl, ?_⟩
      rw [if_pos ht] at b
      by_cases hex : ∃ t'' ∈ l, t''.P = q.name
      · exact .inl ⟨_, (h.mem q _).2 ⟨a, hex, rfl⟩, b⟩
      · right
        push Not at hex
        refine ⟨?_, ?_⟩
        · intro i0 hi0
          obtain ⟨_, ⟨t'', h4, h5⟩, _⟩ := (h.mem q i0).1 hi0
          exact hex t'' h4 h5
        · rw [b, infoOf_absent hex, zero_add_new]
    · left
      have hne : t.P ≠ q.name := by
        intro hc; exact hqp (nodupNames_inj hnd a hp (by rw [← hc, ht]))
      rw [if_neg hne] at b
      refine ⟨hqp, (h.mem q i).2 ⟨a, ⟨t', ?_, e⟩, b⟩⟩
      rcases List.mem_append.1 ht' with ht' | ht'
      · exact ht'
      · rw [List.mem_singleton] at ht'; subst ht'; exact absurd e hne

theorem loadLoop_spec {db : Registry K} (hnd : NodupNames db) : ∀ (l2 l1 : List TNode) (el : SideMap K)
    (n : ℤ), SideInv db l1 el → n = (l1.map TNode.mult).sum →
    (((∀ t ∈ l2, 0 ≤ t.mult ∧ ∃ p ∈ db, p.name = t.P) ↔ ∃ r, loadLoop db l2 el n = .ok r) ∧
    ∀ el' n', loadLoop db l2 el n = .ok (el', n') →
      SideInv db (l1 ++ l2) el' ∧ n' = ((l1 ++ l2).map TNode.mult).sum) := by
  intro l2
  induction l2 with
  | nil =>
    intro l1 el n hinv hn
    refine ⟨by simp [loadLoop], ?_⟩
    intro el' n' h
    simp only [loadLoop, Except.ok.injEq, Prod.mk.injEq] at h
    obtain ⟨rfl, rfl⟩ := h
    simpa using ⟨hinv, hn⟩
  | cons t ts ih =>
    intro l1 el n hinv hn
    simp only [loadLoop]
    cases hl : lookupName db t.P with
    | error e =>
      have := lookupName_error_iff.1 ⟨e, hl⟩
      refine ⟨?_, by intro _ _ h; cases h⟩
      constructor
      · intro h
        obtain ⟨_, p, hp, hpn⟩ := h t List.mem_cons_self
        exact absurd hpn (this p hp)
      · rintro ⟨r, h⟩; cases h
    | ok p =>
      obtain ⟨hp, hpn⟩ := lookupName_ok hl
      simp only
      by_cases hneg : t.mult < 0
      · rw [if_pos hneg]
        refine ⟨?_, by intro _ _ h; cases h⟩
        constructor
        · intro h; have := (h t List.mem_cons_self).1; omega
        · rintro ⟨r, h⟩; cases h
      · rw [if_neg hneg]
        have := ih (l1 ++ [t]) (upsert p t el) (n + t.mult) (sideInv_snoc hnd hinv p hp t hpn.symm)
          (by simp [hn])
        simp only [List.append_assoc, List.singleton_append] at this
        refine ⟨?_, this.2⟩
        rw [← this.1]
        constructor
        · intro h t' ht'; exact h t' (List.mem_cons_of_mem _ ht')
        · intro h t' ht'
          rcases List.mem_cons.1 ht' with rfl | ht'
          · exact ⟨by omega, p, hp, hpn⟩
          · exact h t' ht'

theorem infoOf_sizes {l : List TNode} (h : ∀ t ∈ l, 0 ≤ t.mult) (x : String) :
    (infoOf l x).n = ((infoOf l x).src.length : ℤ) ∧ (infoOf l x).n = ((infoOf l x).ops.length : ℤ) := by
  have h' : ∀ t ∈ nodesOf l x, 0 ≤ t.mult := fun t ht => h t (List.mem_of_mem_filter ht)
  simp only [infoOf, totalMult, srcList, opsList]
  generalize nodesOf l x = m at h'
  induction m with
  | nil => simp
  | cons t ts ih =>
    have ih := ih (fun t' ht' => h' t' (List.mem_cons_of_mem _ ht'))
    have ht := h' t List.mem_cons_self
    simp only [List.map_cons, List.sum_cons, List.flatMap_cons, List.length_append,
      List.length_replicate]
    omega

/-- The outcome of `loadAndSortTerms`. -/
theorem loadAndSortTerms_spec {db : Registry K} (hnd : NodupNames db) (l : List TNode) :
    ((∀ t ∈ l, 0 ≤ t.mult ∧ ∃ p ∈ db, p.name = t.P) ↔ ∃ r, loadAndSortTerms db l = .ok r) ∧
    ∀ el n, loadAndSortTerms db l = .ok (el, n) →
      SideInv db l el ∧ n = (l.map TNode.mult).sum := by
  have h := loadLoop_spec hnd l [] [] 0 (sideInv_nil db) (by simp)
  simp only [List.nil_append] at h
  unfold loadAndSortTerms
  cases hl : loadLoop db l [] 0 with
  | error e =>
    refine ⟨?_, by intro _ _ h; cases h⟩
    rw [h.1, hl]
  | ok r =>
    obtain ⟨el, n⟩ := r
    have h2 := h.2 el n hl
    have hpos : ∀ t ∈ l, 0 ≤ t.mult := fun t ht => ((h.1.2 ⟨_, hl⟩) t ht).1
    have hany : el.any (fun e => e.2.n ≠ (e.2.src.length : ℤ) || e.2.n ≠ (e.2.ops.length : ℤ)) = false := by
      rw [List.any_eq_false]
      rintro ⟨q, i⟩ he
      obtain ⟨_, _, rfl⟩ := (h2.1.mem q i).1 he
      have := infoOf_sizes hpos q.name
      simp only [ne_eq, decide_not, Bool.or_eq_true, Bool.not_eq_eq_eq_not, Bool.not_true,
        decide_eq_false_iff_not, not_or, not_not]
      exact this
    simp only [hany, Bool.false_eq_true, if_false]
    refine ⟨?_, ?_⟩
    · rw [h.1, hl]
    · intro el' n' h'
      cases h'
      exact h2

/-- Two maps describing the same nodes are equal. -/
theorem sideInv_unique {db : Registry K} {l l' : List TNode} {el el' : SideMap K}
    (h : SideInv db l el) (h' : SideInv db l' el')
    (hsame : ∀ p ∈ db, ((∃ t ∈ l, t.P = p.name) ↔ ∃ t ∈ l', t.P = p.name) ∧
      ((∃ t ∈ l, t.P = p.name) → infoOf l p.name = infoOf l' p.name)) : el = el' := by
  have hperm : el.Perm el' := by
    have nd : ∀ {m : SideMap K}, KeysSorted m → m.Nodup := by
      intro m hm
      refine List.Pairwise.imp ?_ hm
      rintro a b hab rfl
      rw [Props.lt_irrefl] at hab; cases hab
    rw [List.perm_ext_iff_of_nodup (nd h.sorted) (nd h'.sorted)]
    rintro ⟨q, i⟩
    rw [h.mem, h'.mem]
    constructor
    · rintro ⟨a, b, c⟩; exact ⟨a, (hsame q a).1.1 b, c.trans ((hsame q a).2 b)⟩
    · rintro ⟨a, b, c⟩
      exact ⟨a, (hsame q a).1.2 b, c.trans ((hsame q a).2 ((hsame q a).1.2 b)).symm⟩
  refine List.Perm.eq_of_pairwise ?_ h.sorted h'.sorted hperm
  intro a b _ _ hab hba
  have := Props.lt_trans hab hba
  rw [Props.lt_irrefl] at this; cases this

end Chimp
