import Verif.Lemmas.Equation

/-! # More lemmas on loading equations -/

namespace Chimp

variable {K : Type}

theorem idx_of_mem {db : Registry K} (hnd : NodupNames db) {p : Props K} (hp : p ∈ db) :
    ∃ i : ℕ, db[i]? = some p ∧ findParticleIndx db p.name = (i : ℤ) := by
  obtain ⟨i, hi⟩ := List.mem_iff_getElem?.1 hp
  refine ⟨i, hi, ?_⟩
  obtain ⟨hlt, _⟩ := List.getElem?_eq_some_iff.1 hi
  unfold findParticleIndx
  rw [findParticle_unique hnd hi, if_neg (by omega)]

theorem idx_inj {db : Registry K} (hnd : NodupNames db) {p q : Props K} (hp : p ∈ db) (hq : q ∈ db)
    (h : findParticleIndx db p.name = findParticleIndx db q.name) : p = q := by
  obtain ⟨i, hi, ei⟩ := idx_of_mem hnd hp
  obtain ⟨j, hj, ej⟩ := idx_of_mem hnd hq
  have : i = j := by rw [ei, ej] at h; exact_mod_cast h
  subst this
  rw [hi] at hj; cases hj; rfl

theorem idx_mono [LinearOrder K] {db : Registry K} (hnd : NodupNames db)
    (hs : db.Pairwise (fun a b => a.lt b = true)) {p q : Props K} (hp : p ∈ db) (hq : q ∈ db)
    (h : p.lt q = true) : findParticleIndx db p.name < findParticleIndx db q.name := by
  obtain ⟨i, hi, ei⟩ := idx_of_mem hnd hp
  obtain ⟨j, hj, ej⟩ := idx_of_mem hnd hq
  rw [ei, ej]
  obtain ⟨hi1, hi2⟩ := List.getElem?_eq_some_iff.1 hi
  obtain ⟨hj1, hj2⟩ := List.getElem?_eq_some_iff.1 hj
  rcases lt_trichotomy i j with hij | hij | hij
  · exact_mod_cast hij
  · subst hij; rw [hi] at hj; cases hj; rw [Props.lt_irrefl] at h; cases h
  · have := List.pairwise_iff_getElem.1 hs j i hj1 hi1 hij
    rw [hi2, hj2] at this
    rw [Props.lt_asymm this] at h; cases h

/-! ### Multiplicities -/

/-- The particles of a side, one name per particle. -/
def expandNames (l : List TNode) : List String := l.flatMap (fun t => List.replicate t.mult.toNat t.P)

theorem totalMult_cons (t : TNode) (l : List TNode) (x : String) :
    totalMult (t :: l) x = (if t.P = x then t.mult else 0) + totalMult l x := by
  unfold totalMult nodesOf
  by_cases h : t.P = x <;> simp [h]

theorem totalMult_nonneg {l : List TNode} (h : ∀ t ∈ l, 0 ≤ t.mult) (x : String) : 0 ≤ totalMult l x := by
  induction l with
  | nil => simp [totalMult, nodesOf]
  | cons t l ih =>
    rw [totalMult_cons]
    have h1 := h t List.mem_cons_self
    have h2 := ih (fun t' ht' => h t' (List.mem_cons_of_mem _ ht'))
    split <;> omega

theorem totalMult_pos_iff {l : List TNode} (h : ∀ t ∈ l, 0 < t.mult) (x : String) :
    0 < totalMult l x ↔ ∃ t ∈ l, t.P = x := by
  induction l with
  | nil => simp [totalMult, nodesOf]
  | cons t l ih =>
    rw [totalMult_cons]
    have h1 := h t List.mem_cons_self
    have h2 := totalMult_nonneg (fun t' ht' => (h t' (List.mem_cons_of_mem t ht')).le) x
    have ih := ih (fun t' ht' => h t' (List.mem_cons_of_mem _ ht'))
    by_cases hx : t.P = x
    · simp only [hx, if_true]
      constructor
      · intro _; exact ⟨t, List.mem_cons_self, hx⟩
      · intro _; omega
    · simp only [hx, if_false, zero_add, ih, List.mem_cons, exists_eq_or_imp, false_or]

theorem count_expandNames {l : List TNode} (h : ∀ t ∈ l, 0 ≤ t.mult) (x : String) :
    (List.count x (expandNames l) : ℤ) = totalMult l x := by
  induction l with
  | nil => simp [expandNames, totalMult, nodesOf]
  | cons t l ih =>
    have h1 := h t List.mem_cons_self
    have ih := ih (fun t' ht' => h t' (List.mem_cons_of_mem _ ht'))
    rw [totalMult_cons, ← ih, expandNames, List.flatMap_cons, List.count_append, List.count_replicate,
      Int.natCast_add]
    rw [← expandNames]
    by_cases hx : t.P = x
    · simp [hx, h1]
    · simp [hx]

theorem length_expandNames {l : List TNode} (h : ∀ t ∈ l, 0 ≤ t.mult) :
    ((expandNames l).length : ℤ) = (l.map TNode.mult).sum := by
  induction l with
  | nil => simp [expandNames]
  | cons t l ih =>
    have h1 := h t List.mem_cons_self
    have ih := ih (fun t' ht' => h t' (List.mem_cons_of_mem _ ht'))
    rw [List.map_cons, List.sum_cons, ← ih, expandNames, List.flatMap_cons, List.length_append,
      List.length_replicate, Int.natCast_add, ← expandNames]
    omega

theorem srcList_cons (t : TNode) (l : List TNode) (x : String) :
    srcList (t :: l) x = (if t.P = x then List.replicate t.mult.toNat t.src else []) ++ srcList l x := by
  unfold srcList nodesOf
  by_cases h : t.P = x <;> simp [h]

theorem srcList_length {l : List TNode} (h : ∀ t ∈ l, 0 ≤ t.mult) (x : String) :
    ((srcList l x).length : ℤ) = totalMult l x := (infoOf_sizes h x).1.symm

/-- No explicit source on a side, read off the per-species lists. -/
theorem src_all_iff {l : List TNode} (h : ∀ t ∈ l, 0 < t.mult) :
    (∀ t ∈ l, t.src = -1) ↔ ∀ x, srcList l x = List.replicate (totalMult l x).toNat (-1) := by
  have hnn : ∀ t ∈ l, 0 ≤ t.mult := fun t ht => (h t ht).le
  constructor
  · intro hs x
    rw [List.eq_replicate_iff]
    refine ⟨?_, ?_⟩
    · have := srcList_length hnn x; omega
    · intro b hb
      simp only [srcList, nodesOf, List.mem_flatMap, List.mem_filter, List.mem_replicate] at hb
      obtain ⟨t, ⟨ht, _⟩, _, rfl⟩ := hb
      exact hs t ht
  · intro hs t ht
    have hx := (List.eq_replicate_iff.1 (hs t.P)).2 t.src
    apply hx
    simp only [srcList, nodesOf, List.mem_flatMap, List.mem_filter, List.mem_replicate]
    exact ⟨t, ⟨ht, by simp⟩, by have := h t ht; omega, rfl⟩

/-! ### The map holds every particle -/

variable [LinearOrder K]

theorem upsert_sum (p : Props K) (t : TNode) (el : SideMap K) :
    ((upsert p t el).map (fun e => e.2.n)).sum = (el.map (fun e => e.2.n)).sum + t.mult := by
  induction el with
  | nil => simp [upsert, TermInfo.new]
  | cons e l ih =>
    obtain ⟨q, i⟩ := e
    simp only [upsert]
    split
    · simp [TermInfo.new]; omega
    · split
      · simp [ih]; omega
      · simp [TermInfo.add]; omega

theorem loadLoop_sum (db : Registry K) : ∀ (l : List TNode) (el : SideMap K) (n : ℤ),
    (el.map (fun e => e.2.n)).sum = n → ∀ el' n', loadLoop db l el n = .ok (el', n') →
    (el'.map (fun e => e.2.n)).sum = n' := by
  intro l
  induction l with
  | nil => intro el n h el' n' hl; simp only [loadLoop, Except.ok.injEq, Prod.mk.injEq] at hl
           obtain ⟨rfl, rfl⟩ := hl; exact h
  | cons t ts ih =>
    intro el n h el' n' hl
    simp only [loadLoop] at hl
    split at hl
    · cases hl
    · split at hl
      · cases hl
      · exact ih _ _ (by rw [upsert_sum, h]) _ _ hl

theorem load_sum {db : Registry K} {l : List TNode} {el : SideMap K} {n : ℤ}
    (h : loadAndSortTerms db l = .ok (el, n)) : (el.map (fun e => e.2.n)).sum = n := by
  unfold loadAndSortTerms at h
  split at h
  · cases h
  · rename_i el' n' hl
    split at h
    · cases h
    · cases h
      exact loadLoop_sum db l [] 0 (by simp) _ _ hl

theorem load_nonneg {db : Registry K} (hnd : NodupNames db) {l : List TNode} {r}
    (h : loadAndSortTerms db l = .ok r) : ∀ t ∈ l, 0 ≤ t.mult ∧ ∃ p ∈ db, p.name = t.P :=
  (loadAndSortTerms_spec hnd l).1.2 ⟨_, h⟩

/-- The shapes a two-particle side can have. -/
theorem two_particles {db : Registry K} (hnd : NodupNames db) {l : List TNode} {el : SideMap K}
    (hpos : ∀ t ∈ l, 0 < t.mult) (h : loadAndSortTerms db l = .ok (el, 2)) :
    (∃ p, p ∈ db ∧ el = [(p, infoOf l p.name)] ∧ totalMult l p.name = 2) ∨
    (∃ p q, p ∈ db ∧ q ∈ db ∧ p.lt q = true ∧ el = [(p, infoOf l p.name), (q, infoOf l q.name)] ∧
      totalMult l p.name = 1 ∧ totalMult l q.name = 1) := by
  have hsum := load_sum h
  obtain ⟨hinv, _⟩ := (loadAndSortTerms_spec hnd l).2 _ _ h
  have key : ∀ e ∈ el, e.1 ∈ db ∧ e.2 = infoOf l e.1.name ∧ 0 < totalMult l e.1.name := by
    rintro ⟨q, i⟩ he
    obtain ⟨a, b, c⟩ := (hinv.mem q i).1 he
    exact ⟨a, c, (totalMult_pos_iff hpos _).2 b⟩
  have hn : ∀ e ∈ el, e.2.n = totalMult l e.1.name := by
    intro e he; rw [(key e he).2.1]; rfl
  rcases el with _ | ⟨⟨p, i⟩, _ | ⟨⟨q, j⟩, rest⟩⟩
  · simp at hsum
  · left
    have k := key (p, i) (by simp)
    have e := hn (p, i) (by simp)
    simp only [List.map_cons, List.map_nil, List.sum_cons, List.sum_nil, add_zero] at hsum
    refine ⟨p, k.1, ?_, by rw [← hsum, e]⟩
    rw [← k.2.1]
  · right
    have k1 := key (p, i) (by simp)
    have k2 := key (q, j) (by simp)
    have e1 := hn (p, i) (by simp)
    have e2 := hn (q, j) (by simp)
    simp only at k1 k2 e1 e2
    simp only [List.map_cons, List.sum_cons] at hsum
    have hrest : rest = [] := by
      rcases rest with _ | ⟨⟨r, m⟩, rest⟩
      · rfl
      · exfalso
        have k3 := key (r, m) (by simp)
        have e3 := hn (r, m) (by simp)
        simp only at k3 e3
        have : 0 ≤ (rest.map (fun e => e.2.n)).sum := by
          apply List.sum_nonneg
          intro y hy
          obtain ⟨e, he, rfl⟩ := List.mem_map.1 hy
          have he' : e ∈ (p, i) :: (q, j) :: (r, m) :: rest := by simp [he]
          rw [hn e he']; exact (key e he').2.2.le
        simp only [List.map_cons, List.sum_cons] at hsum
        omega
    subst hrest
    simp only [List.map_nil, List.sum_nil] at hsum
    refine ⟨p, q, k1.1, k2.1, ?_, ?_, by omega, by omega⟩
    · exact (List.pairwise_cons.1 hinv.sorted).1 (q, j) (by simp)
    · rw [← k1.2.1, ← k2.2.1]

omit [LinearOrder K] in
/-- The product terms of a well-formed map. -/
theorem outputTerms_eq (db : Registry K) (hnd : NodupNames db) : ∀ (el : SideMap K),
    (∀ e ∈ el, e.1 ∈ db ∧ e.2.n = (e.2.src.length : ℤ) ∧ e.2.n = (e.2.ops.length : ℤ)) →
    outputTerms db el = .ok (el.map (fun e => ⟨findParticleIndx db e.1.name, e.2.n, e.2.src, e.2.ops⟩)) := by
  intro el
  induction el with
  | nil => intro _; rfl
  | cons e l ih =>
    intro h
    obtain ⟨p, i⟩ := e
    obtain ⟨h1, h2, h3⟩ := h (p, i) List.mem_cons_self
    simp only at h1 h2 h3
    simp only [outputTerms]
    rw [if_neg (by push Not; exact ⟨h2, h3⟩), if_neg, ih (fun e he => h e (List.mem_cons_of_mem _ he))]
    · rfl
    · obtain ⟨j, _, hj⟩ := idx_of_mem hnd h1
      rw [hj]; omega

/-- The product terms of a loaded side. -/
theorem outputTerms_loaded {db : Registry K} (hnd : NodupNames db) {l : List TNode} {el : SideMap K} {n : ℤ}
    (h : loadAndSortTerms db l = .ok (el, n)) :
    outputTerms db el = .ok (el.map (fun e => ⟨findParticleIndx db e.1.name, e.2.n, e.2.src, e.2.ops⟩)) := by
  obtain ⟨hinv, _⟩ := (loadAndSortTerms_spec hnd l).2 _ _ h
  have hnn := load_nonneg hnd h
  apply outputTerms_eq db hnd
  rintro ⟨q, i⟩ he
  obtain ⟨a, b, c⟩ := (hinv.mem q i).1 he
  simp only [c]
  exact ⟨a, infoOf_sizes (fun t ht => (hnn t ht).1) _⟩

/-- Everything a successful load went through. -/
theorem loadEq_ok {db : Registry K} {cs ms : List String} {x : EqNode} {e : LEq}
    (h : loadEq db cs ms x = .ok e) :
    ∃ ins outs nOut, loadAndSortTerms db x.ins = .ok (ins, 2) ∧ loadAndSortTerms db x.outs = .ok (outs, nOut) ∧
      inputTerms db ins = .ok (e.A, e.B) ∧ outputTerms db outs = .ok e.products ∧
      x.csModel ∈ cs ∧ e.csModel = x.csModel ∧ chooseModel x ins outs ∈ ms ∧
      e.model = chooseModel x ins outs := by
  unfold loadEq at h
  split at h
  · cases h
  · rename_i ins nIn h1
    split at h
    · cases h
    · rename_i outs nOut h2
      split at h
      · cases h
      · rename_i hn
        push Not at hn
        subst hn
        split at h
        · cases h
        · rename_i a b h3
          split at h
          · cases h
          · rename_i prods h4
            split at h
            · rename_i h5
              split at h
              · rename_i h6
                cases h
                exact ⟨ins, outs, nOut, h1, h2, h3, h4, h5, rfl, h6, rfl⟩
              · cases h
            · cases h

end Chimp
