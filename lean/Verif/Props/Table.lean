import Verif.Lemmas.Table

/-!
# Properties C05-C09: the interaction table

Specification vocabulary: `ReactantsWritten a b ins` (in the lemma file) says how a reactant side has to
be written to be found for species `a` and `b`; `Wanted` says which interactions of the document belong
to a pair of species before the user's filter; `LoadedFrom` relates an equation to its node.
-/

namespace Chimp

variable {K : Type}

/-! ## C05 -/

/-- **C05**  The product filter keeps an interaction exactly when it has a product and every product is a
loaded species, provided names are free of colons and product names are not empty. -/
theorem C05_products_loaded {db : Registry K} {outs : List TNode}
    (hdb : ∀ p ∈ db, ':' ∉ p.name.toList) (hout : ∀ t ∈ outs, ':' ∉ t.P.toList ∧ t.P ≠ "") :
    productsListed (namesText db) outs = true ↔ outs ≠ [] ∧ ∀ t ∈ outs, ∃ p ∈ db, p.name = t.P := by
  rw [productsListed_iff_all]
  apply and_congr_right
  intro _
  exact forall₂_congr fun t ht => nameListed_iff hdb (hout t ht).1 (hout t ht).2

/-- **C05**  A loaded product is accepted whatever the names are; the failures are all on the other side. -/
theorem C05_never_too_strict {db : Registry K} {outs : List TNode} (hne : outs ≠ [])
    (h : ∀ t ∈ outs, ∃ p ∈ db, p.name = t.P) : productsListed (namesText db) outs = true := by
  rw [productsListed_iff_all]
  refine ⟨hne, fun t ht => ?_⟩
  obtain ⟨p, hp, hpn⟩ := h t ht
  unfold nameListed
  rw [containsChars_iff]
  obtain ⟨l, r, rfl⟩ := List.append_of_mem hp
  exact ⟨namesText l, namesText r, by simp [namesText, hpn]⟩

/-- **C05**  Both provisos are needed: with species `A` and `B` loaded, a product named `A::B` and a product
with an empty name are accepted although neither is loaded; the same with any two neighbouring names. -/
theorem C05_provisos_needed (p q : Props K) (l r : Registry K) (t : TNode)
    (h : t.P = "" ∨ t.P.toList = p.name.toList ++ "::".toList ++ q.name.toList) :
    productsListed (namesText (l ++ p :: q :: r)) [t] = true := by
  rw [productsListed_iff_all]
  refine ⟨by simp, fun u hu => ?_⟩
  rw [List.mem_singleton] at hu; subst hu
  unfold nameListed
  rw [containsChars_iff]
  rcases h with h | h
  · exact ⟨namesText l ++ ':' :: p.name.toList, q.name.toList ++ ':' :: namesText r, by simp [namesText, h]⟩
  · exact ⟨namesText l, namesText r, by simp [namesText, h]⟩

example : productsListed (namesText exDB) [⟨"e", some 2, -1, ""⟩, ⟨"Ar", none, -1, ""⟩] = true := by decide +kernel
example : productsListed (namesText exDB) [⟨"e", some 2, -1, ""⟩, ⟨"A", none, -1, ""⟩] = false := by decide +kernel
example : productsListed (namesText exDB) [⟨"e::H", none, -1, ""⟩] = true := by decide +kernel
example : productsListed (namesText exDB) [] = false := by decide +kernel
example : ∀ p ∈ exDB, ':' ∉ p.name.toList := by decide +kernel

/-! ## C06 -/

/-- **C06**  The reactant search for two species of the list selects a reactant side exactly when it is
written as `2 A` or as one `A` and one `B`. -/
theorem C06_reactants_iff {db : Registry K} (hnd : NodupNames db) {A B : ℕ} {a b : Props K}
    (hA : db[A]? = some a) (hB : db[B]? = some b) (ins : List TNode) :
    eqioMatches (reactantSpec A B a.name b.name) ins = true ↔ ReactantsWritten a.name b.name ins := by
  apply reactantSpec_iff
  constructor
  · rintro rfl; rw [hA] at hB; cases hB; rfl
  · intro h
    have h1 := findParticle_unique hnd hA
    have h2 := findParticle_unique hnd hB
    rw [h] at h1; omega

/-- **C06**  An interaction is found for at most one unordered pair. -/
theorem C06_at_most_one_pair {a b c d : String} {ins : List TNode} (h1 : ReactantsWritten a b ins)
    (h2 : ReactantsWritten c d ins) : (a = c ∧ b = d) ∨ (a = d ∧ b = c) := by
  have hp := (reactants_expand h1).symm.trans (reactants_expand h2)
  rcases pair_perm_pair hp with h | h
  · exact .inl h
  · exact .inr h

/-- **C06**  Order of the pair and order of the two terms do not matter. -/
theorem C06_symmetric {a b : String} {ins : List TNode} :
    (ReactantsWritten a b ins ↔ ReactantsWritten b a ins) ∧
    (ReactantsWritten a b ins ↔ ReactantsWritten a b ins.reverse) := by
  unfold ReactantsWritten
  by_cases h : a = b
  · subst h
    simp only [if_true, true_and]
    constructor
    · rintro ⟨t, rfl, h⟩; exact ⟨t, rfl, h⟩
    · rintro ⟨t, ht, h⟩; exact ⟨t, by simpa using congrArg List.reverse ht, h⟩
  · rw [if_neg h, if_neg h, if_neg (Ne.symm h)]
    constructor
    · constructor
      · rintro ⟨s, t, h, h1, h2, h3, h4⟩; exact ⟨t, s, h.symm, h2, h1, h4, h3⟩
      · rintro ⟨s, t, h, h1, h2, h3, h4⟩; exact ⟨t, s, h.symm, h2, h1, h4, h3⟩
    · constructor
      · rintro ⟨s, t, rfl | rfl, hr⟩
        · exact ⟨s, t, .inr rfl, hr⟩
        · exact ⟨s, t, .inl rfl, hr⟩
      · rintro ⟨s, t, hs | hs, hr⟩
        · exact ⟨s, t, .inr (by simpa using congrArg List.reverse hs), hr⟩
        · exact ⟨s, t, .inl (by simpa using congrArg List.reverse hs), hr⟩

/-- **C06**  A side writing one species in two terms is found for no pair, so such an interaction can never
reach the table. -/
theorem C06_repeated_species_never_found (s t : TNode) (h : s.P = t.P) (a b : String) :
    ¬ ReactantsWritten a b [s, t] := by
  unfold ReactantsWritten
  by_cases hab : a = b
  · simp [hab]
  · rw [if_neg hab]
    rintro ⟨u, v, hl | hl, h1, h2, _⟩ <;> simp only [List.cons.injEq, and_true] at hl <;>
      obtain ⟨rfl, rfl⟩ := hl
    · exact hab (h1.symm.trans (h.trans h2))
    · exact hab (h1.symm.trans (h.symm.trans h2))

example : ReactantsWritten "e" "Ar" [⟨"Ar", some 1, -1, ""⟩, ⟨"e", none, -1, ""⟩] := by
  unfold ReactantsWritten
  rw [if_neg (by decide)]
  exact ⟨⟨"e", none, -1, ""⟩, ⟨"Ar", some 1, -1, ""⟩, .inr rfl, rfl, rfl, rfl, rfl⟩
example : eqioMatches (reactantSpec 2 2 "Ar" "Ar") [⟨"Ar", some 2, -1, ""⟩] = true := by decide +kernel
example : eqioMatches (reactantSpec 2 2 "Ar" "Ar") [⟨"Ar", none, -1, ""⟩, ⟨"Ar", none, -1, ""⟩] = false := by
  decide +kernel
/-- The same side does load as an equation, with both reactants `Ar`. -/
example : (loadEq exDB ["vhs"] ["elastic"]
    ⟨[⟨"Ar", none, -1, ""⟩, ⟨"Ar", none, -1, ""⟩], [⟨"Ar", some 2, -1, ""⟩], "vhs", none⟩).toOption.map
      (fun e => (e.A.species, e.B.species)) = some (2, 2) := by decide +kernel

/-! ## C07 -/

/-- Names for which the product filter is exact. -/
def CleanNames (doc : Doc) (db : Registry K) : Prop :=
  (∀ p ∈ db, ':' ∉ p.name.toList) ∧ ∀ x ∈ doc.nodes, ∀ t ∈ x.outs, ':' ∉ t.P.toList ∧ t.P ≠ ""

/-- The interactions between species named `a` and `b`, before the user's filter. -/
def Wanted (doc : Doc) (db : Registry K) (a b : String) : ℕ → Prop :=
  NodeHas doc (fun x => x.hasCS = true ∧ ReactantsWritten a b x.ins ∧
    x.outs ≠ [] ∧ ∀ t ∈ x.outs, ∃ p ∈ db, p.name = t.P)

theorem queryNodes_wanted {doc : Doc} {db : Registry K} (hnd : NodupNames db) (hc : CleanNames doc db)
    {A B : ℕ} {a b : Props K} (hA : db[A]? = some a) (hB : db[B]? = some b) :
    (fun k => k ∈ queryNodes doc db A B a.name b.name) = Wanted doc db a.name b.name := by
  funext k
  apply propext
  rw [mem_queryNodes]
  unfold Wanted NodeHas
  refine exists_congr fun x => and_congr_right fun hx => ?_
  have hxm : x ∈ doc.nodes := List.mem_of_getElem? hx
  show (_ ∧ _ ∧ _) ↔ (_ ∧ _ ∧ _)
  rw [C06_reactants_iff hnd hA hB, C05_products_loaded hc.1 (hc.2 x hxm)]

theorem cellNodes_spec {doc : Doc} {f : Filter} {db : Registry K} (hnd : NodupNames db) (hc : CleanNames doc db)
    {A B : ℕ} {a b : Props K} (hA : db[A]? = some a) (hB : db[B]? = some b) :
    Incr (cellNodes doc f db A B) ∧
    ∀ k, k ∈ cellNodes doc f db A B ↔ f.Keeps doc (Wanted doc db a.name b.name) k := by
  have h := apply_spec doc f _ (queryNodes_nodeSet doc db A B a.name b.name)
  rw [queryNodes_wanted hnd hc hA hB] at h
  have e : cellNodes doc f db A B = f.apply doc (queryNodes doc db A B a.name b.name) := by
    simp only [cellNodes, hA, hB]
  rw [e]
  exact ⟨h.1.1, h.2⟩

/-- Even without clean names, the nodes loaded into a cell have the reactants of the cell. -/
theorem cellNodes_reactants {doc : Doc} {f : Filter} {db : Registry K} (hnd : NodupNames db)
    {A B : ℕ} {a b : Props K} (hA : db[A]? = some a) (hB : db[B]? = some b) {k : ℕ}
    (hk : k ∈ cellNodes doc f db A B) : NodeHas doc (fun x => ReactantsWritten a.name b.name x.ins) k := by
  have e : cellNodes doc f db A B = f.apply doc (queryNodes doc db A B a.name b.name) := by
    simp only [cellNodes, hA, hB]
  rw [e] at hk
  have hs := queryNodes_nodeSet doc db A B a.name b.name
  have := (C17_filters_only_remove doc f _ hs).1 k hk
  rw [mem_queryNodes] at this
  obtain ⟨x, hx, _, h2, _⟩ := this
  exact ⟨x, hx, (C06_reactants_iff hnd hA hB _).1 h2⟩

/-- The two reactants of an equation loaded from a node found for the pair `i ≤ j`. -/
theorem loaded_reactants [LinearOrder K] {db : Registry K} (hnd : NodupNames db) (hs : db.Pairwise MassNameBefore)
    {cs ms : List String} {x : EqNode} {e : LEq} {i j : ℕ} {a b : Props K} (hij : i ≤ j)
    (hA : db[i]? = some a) (hB : db[j]? = some b) (hr : ReactantsWritten a.name b.name x.ins)
    (h : loadEq db cs ms x = .ok e) : e.A = Term.single i ∧ e.B = Term.single j := by
  have hpos : ∀ t ∈ x.ins, 0 < t.mult := reactants_pos hr
  obtain ⟨p, q, hp, hq, hperm, hpq, eA, eB⟩ := C12_reactants hnd hpos h
  have ha : a ∈ db := List.mem_of_getElem? hA
  have hb : b ∈ db := List.mem_of_getElem? hB
  have ia : findParticleIndx db a.name = (i : ℤ) := by
    obtain ⟨i', h1, h2⟩ := idx_of_mem hnd ha
    obtain ⟨l1, l2⟩ := List.getElem?_eq_some_iff.1 hA
    have := findParticle_unique hnd hA
    unfold findParticleIndx; rw [this, if_neg (by omega)]
  have ib : findParticleIndx db b.name = (j : ℤ) := by
    obtain ⟨l1, l2⟩ := List.getElem?_eq_some_iff.1 hB
    have := findParticle_unique hnd hB
    unfold findParticleIndx; rw [this, if_neg (by omega)]
  have hp2 := (reactants_expand hr).symm.trans hperm
  rcases pair_perm_pair hp2 with ⟨h1, h2⟩ | ⟨h1, h2⟩
  · rw [eA, eB, ← h1, ← h2, ia, ib]; exact ⟨rfl, rfl⟩
  · -- the other order: both orders are increasing, so the species are the same
    have hbp : p = b := nodupNames_inj hnd hp hb h2.symm
    have haq : q = a := nodupNames_inj hnd hq ha h1.symm
    subst hbp; subst haq
    rcases hpq with rfl | hlt
    · rw [eA, eB, ia, ← ib, ia]; exact ⟨rfl, rfl⟩
    · have : findParticleIndx db p.name < findParticleIndx db q.name :=
        idx_mono hnd (hs.imp (fun {a b} hab => (Props.lt_iff a b).2 hab)) hp hq ((Props.lt_iff _ _).2 hlt)
      omega

theorem initBinary_spec [LinearOrder K] {doc : Doc} {f : Filter} {cs ms : List String} {d d' : RDB K}
    (h : initBinary doc f cs ms d = .ok d') :
    d'.props = sortProps d.props ∧ d'.table.side = d'.props.length ∧
    ∀ i j, i ≤ j → j < d'.props.length →
      ∃ es, loadAll doc d'.props cs ms (cellNodes doc f d'.props i j) = .ok es ∧
        d'.table.cell i j = ⟨(Term.single i, Term.single j),
          ((d.table.resize d'.props.length).cell i j).rhs ++ es⟩ := by
  unfold initBinary at h
  simp only at h
  split at h
  · cases h
  · rename_i t ht
    cases h
    obtain ⟨_, h2⟩ := fillTable_spec (doc := doc) (f := f) (db := sortProps d.props) (cs := cs) (ms := ms)
      (indexPairs (sortProps d.props).length) (d.table.resize (sortProps d.props).length) (nodup_indexPairs _)
      (fun A B hAB => (mem_indexPairs _ A B).1 hAB)
    obtain ⟨s1, s2, _⟩ := h2 t ht
    exact ⟨rfl, s1, fun i j hij hj => s2 i j ((mem_indexPairs _ i j).2 ⟨hij, hj⟩)⟩

/-- **C07**  After initialising a database: the table has one entry for every unordered pair of species and
no other entry; both orders of the indices give it; its inputs are the two species in index order; and
every equation in it has exactly these reactants in this order.  Needs no assumption on the names. -/
theorem C07_complete_and_symmetric [LinearOrder K] {doc : Doc} {f : Filter} {cs ms : List String}
    {props : Registry K} (hnd : NodupNames props) {d : RDB K}
    (h : initBinary doc f cs ms (RDB.fresh props) = .ok d) (i j : ℕ) :
    d.table.get? i j = d.table.get? j i ∧
    (d.table.get? i j ≠ none ↔ i < props.length ∧ j < props.length) ∧
    ∀ s, d.table.get? i j = some s →
      s.lhs = (Term.single (min i j : ℕ), Term.single (max i j : ℕ)) ∧
      ∀ e ∈ s.rhs, e.A = Term.single (min i j : ℕ) ∧ e.B = Term.single (max i j : ℕ) := by
  obtain ⟨h1, h2, h3⟩ := initBinary_spec h
  have hlen : d.props.length = props.length := by rw [h1]; exact (sortProps_perm props).length_eq
  have hnd' : NodupNames d.props := by rw [h1]; exact (nodupNames_of_perm (sortProps_perm props)).2 hnd
  have hs : d.props.Pairwise MassNameBefore := by
    rw [h1]; exact (sortProps_strict hnd).imp (fun {a b} hab => (Props.lt_iff a b).1 hab)
  refine ⟨?_, ?_, fun s hget => ?_⟩
  · unfold UTable.get?
    simp only [and_comm, min_comm, max_comm]
  · unfold UTable.get?
    rw [h2, hlen]
    split <;> simp_all
  · unfold UTable.get? at hget
    split at hget
    · rename_i hij
      rw [h2] at hij
      obtain ⟨es, hes, hcell⟩ := h3 (min i j) (max i j) (by omega) (by omega)
      rw [hcell] at hget
      have hs' := Option.some.inj hget
      rw [← hs']
      refine ⟨rfl, fun e he => ?_⟩
      have hrs : ((RDB.fresh props).table.resize d.props.length).cell (min i j) (max i j) = {} := by
        simp [RDB.fresh, UTable.resize]
      simp only [hrs, List.nil_append] at he
      have hf := (loadAll_ok _ _).1 hes
      obtain ⟨k, hk, x, hx, hload⟩ : ∃ k ∈ cellNodes doc f d.props (min i j) (max i j),
          LoadedFrom doc d.props cs ms k e := by
        exact forall₂_mem_right hf he
      have hA : d.props[min i j]? = some (d.props[min i j]'(by omega)) := List.getElem?_eq_getElem _
      have hB : d.props[max i j]? = some (d.props[max i j]'(by omega)) := List.getElem?_eq_getElem _
      obtain ⟨x', hx', hr⟩ := cellNodes_reactants hnd' hA hB hk
      rw [hx] at hx'; cases hx'
      exact loaded_reactants hnd' hs (by omega) hA hB hr hload
    · cases hget

/-! ## C08 -/

/-- **C08**  The equations of entry `(i,j)` correspond one to one, in document order, to the interactions of
the document which are wanted for the two species and kept by the filter: `ks` lists exactly these,
strictly increasing, and the `n`-th equation is the one loaded from the `n`-th node. -/
theorem C08_sound_and_complete [LinearOrder K] {doc : Doc} {f : Filter} {cs ms : List String}
    {props : Registry K} (hnd : NodupNames props) (hc : CleanNames doc props) {d : RDB K}
    (h : initBinary doc f cs ms (RDB.fresh props) = .ok d) {i j : ℕ} {a b : Props K}
    (hi : d.props[i]? = some a) (hj : d.props[j]? = some b) :
    ∃ (s : ISet) (ks : List ℕ), d.table.get? i j = some s ∧ ks.Pairwise (· < ·) ∧
      (∀ k, k ∈ ks ↔ f.Keeps doc (Wanted doc props a.name b.name) k) ∧
      List.Forall₂ (fun k e => ∃ x, doc.nodes[k]? = some x ∧
        loadEq d.props cs ms ⟨x.ins, x.outs, x.csModel, x.modelAttr⟩ = .ok e) ks s.rhs := by
  obtain ⟨h1, h2, h3⟩ := initBinary_spec h
  have hperm : d.props.Perm props := by rw [h1]; exact sortProps_perm props
  have hnd' : NodupNames d.props := (nodupNames_of_perm hperm).2 hnd
  have hc' : CleanNames doc d.props := ⟨fun p hp => hc.1 p (hperm.mem_iff.1 hp), hc.2⟩
  obtain ⟨li, _⟩ := List.getElem?_eq_some_iff.1 hi
  obtain ⟨lj, _⟩ := List.getElem?_eq_some_iff.1 hj
  obtain ⟨es, hes, hcell⟩ := h3 (min i j) (max i j) (by omega) (by omega)
  have hrs : ((RDB.fresh props).table.resize d.props.length).cell (min i j) (max i j) = {} := by
    simp [RDB.fresh, UTable.resize]
  have hw : ∀ k, k ∈ cellNodes doc f d.props (min i j) (max i j) ↔
      f.Keeps doc (Wanted doc props a.name b.name) k := by
    have hwp : ∀ u v, Wanted doc d.props u v = Wanted doc props u v := by
      intro u v
      funext k
      unfold Wanted
      simp only [hperm.mem_iff]
    have hws : ∀ u v, Wanted doc props u v = Wanted doc props v u := by
      intro u v
      funext k
      unfold Wanted
      simp only [(C06_symmetric (a := u) (b := v)).1]
    intro k
    rcases le_total i j with hij | hij
    · rw [min_eq_left hij, max_eq_right hij, (cellNodes_spec hnd' hc' hi hj).2, hwp]
    · rw [min_eq_right hij, max_eq_left hij, (cellNodes_spec hnd' hc' hj hi).2, hwp, hws]
  have hincr : Incr (cellNodes doc f d.props (min i j) (max i j)) := by
    rcases le_total i j with hij | hij
    · rw [min_eq_left hij, max_eq_right hij]; exact (cellNodes_spec hnd' hc' hi hj).1
    · rw [min_eq_right hij, max_eq_left hij]; exact (cellNodes_spec hnd' hc' hj hi).1
  refine ⟨d.table.cell (min i j) (max i j), cellNodes doc f d.props (min i j) (max i j), ?_, hincr, hw, ?_⟩
  · unfold UTable.get?; rw [if_pos (by rw [h2]; exact ⟨li, lj⟩)]
  · rw [hcell, hrs]
    exact (loadAll_ok _ _).1 hes

/-- **C08**  Initialisation succeeds exactly when every interaction wanted for some pair of loaded species and
kept by the filter can be loaded. -/
theorem C08_succeeds_iff [LinearOrder K] {doc : Doc} {f : Filter} {cs ms : List String}
    {props : Registry K} (hnd : NodupNames props) (hc : CleanNames doc props) (t : UTable ISet) :
    (∃ d, initBinary doc f cs ms ⟨props, t⟩ = .ok d) ↔
      ∀ a ∈ props, ∀ b ∈ props, ∀ k, f.Keeps doc (Wanted doc props a.name b.name) k →
        ∃ x e, doc.nodes[k]? = some x ∧
          loadEq (sortProps props) cs ms ⟨x.ins, x.outs, x.csModel, x.modelAttr⟩ = .ok e := by
  have hperm : (sortProps props).Perm props := sortProps_perm props
  have hnd' : NodupNames (sortProps props) := (nodupNames_of_perm hperm).2 hnd
  have hc' : CleanNames doc (sortProps props) := ⟨fun p hp => hc.1 p (hperm.mem_iff.1 hp), hc.2⟩
  have hwp : ∀ u v, Wanted doc (sortProps props) u v = Wanted doc props u v := by
    intro u v; funext k; unfold Wanted; simp only [hperm.mem_iff]
  have hws : ∀ u v, Wanted doc props u v = Wanted doc props v u := by
    intro u v; funext k; unfold Wanted; simp only [(C06_symmetric (a := u) (b := v)).1]
  have hfill := (fillTable_spec (doc := doc) (f := f) (db := sortProps props) (cs := cs) (ms := ms)
    (indexPairs (sortProps props).length) (t.resize (sortProps props).length) (nodup_indexPairs _)
    (fun A B hAB => (mem_indexPairs _ A B).1 hAB)).1
  have hinit : (∃ d, initBinary doc f cs ms ⟨props, t⟩ = .ok d) ↔
      ∃ t', fillTable doc f (sortProps props) cs ms (indexPairs (sortProps props).length)
        (t.resize (sortProps props).length) = .ok t' := by
    unfold initBinary
    simp only
    cases fillTable doc f (sortProps props) cs ms (indexPairs (sortProps props).length)
        (t.resize (sortProps props).length) <;> simp
  rw [hinit, hfill]
  simp only [mem_indexPairs, loadAll_isOk]
  constructor
  · intro H a ha b hb k hk
    obtain ⟨i, hi⟩ := List.mem_iff_getElem?.1 (hperm.mem_iff.2 ha)
    obtain ⟨j, hj⟩ := List.mem_iff_getElem?.1 (hperm.mem_iff.2 hb)
    obtain ⟨li, _⟩ := List.getElem?_eq_some_iff.1 hi
    obtain ⟨lj, _⟩ := List.getElem?_eq_some_iff.1 hj
    rcases le_total i j with hij | hij
    · obtain ⟨e, x, hx, he⟩ := H i j ⟨hij, lj⟩ k
        (((cellNodes_spec hnd' hc' hi hj).2 k).2 (by rw [hwp]; exact hk))
      exact ⟨x, e, hx, he⟩
    · obtain ⟨e, x, hx, he⟩ := H j i ⟨hij, li⟩ k
        (((cellNodes_spec hnd' hc' hj hi).2 k).2 (by rw [hwp, hws]; exact hk))
      exact ⟨x, e, hx, he⟩
  · rintro H i j ⟨hij, lj⟩ k hk
    have hi : (sortProps props)[i]? = some ((sortProps props)[i]'(by omega)) := List.getElem?_eq_getElem _
    have hj : (sortProps props)[j]? = some ((sortProps props)[j]'lj) := List.getElem?_eq_getElem _
    have := ((cellNodes_spec hnd' hc' hi hj).2 k).1 hk
    rw [hwp] at this
    obtain ⟨x, e, hx, he⟩ := H _ (hperm.mem_iff.1 (List.getElem_mem _)) _ (hperm.mem_iff.1 (List.getElem_mem _)) k this
    exact ⟨e, x, hx, he⟩

/-- **C08**  A second initialisation does not replace: every entry keeps the equations it had and gets all
its interactions once more. -/
theorem C08_second_init_duplicates [LinearOrder K] {doc : Doc} {f : Filter} {cs ms : List String}
    {props : Registry K} (hnd : NodupNames props) {d d' : RDB K}
    (h : initBinary doc f cs ms (RDB.fresh props) = .ok d) (h' : initBinary doc f cs ms d = .ok d')
    (i j : ℕ) (s : ISet) (hs : d.table.get? i j = some s) :
    d'.props = d.props ∧ d'.table.get? i j = some ⟨s.lhs, s.rhs ++ s.rhs⟩ := by
  obtain ⟨h1, h2, h3⟩ := initBinary_spec h
  obtain ⟨h1', h2', h3'⟩ := initBinary_spec h'
  have hpp : d'.props = d.props := by
    rw [h1', h1]
    have hnd' : NodupNames (sortProps props) := (nodupNames_of_perm (sortProps_perm props)).2 hnd
    have hst := sortProps_strict hnd'
    have hst0 := sortProps_strict hnd
    exact List.Perm.eq_of_pairwise (le := fun a b => a.lt b = true)
      (fun a b _ _ hab hba => by rw [Props.lt_asymm hab] at hba; cases hba)
      hst hst0 (sortProps_perm _)
  refine ⟨hpp, ?_⟩
  unfold UTable.get? at hs ⊢
  split at hs
  · rename_i hij
    rw [h2] at hij
    rw [if_pos (by rw [h2', hpp]; exact hij)]
    obtain ⟨es, hes, hcell⟩ := h3 (min i j) (max i j) (by omega) (by omega)
    obtain ⟨es', hes', hcell'⟩ := h3' (min i j) (max i j) (by omega) (by rw [hpp]; omega)
    rw [hpp] at hes'
    rw [hes] at hes'; cases hes'
    have hrs : ((RDB.fresh props).table.resize d.props.length).cell (min i j) (max i j) = {} := by
      simp [RDB.fresh, UTable.resize]
    have hrs' : (d.table.resize d'.props.length).cell (min i j) (max i j) = d.table.cell (min i j) (max i j) := by
      simp only [UTable.resize]; rw [if_pos (by rw [h2]; omega)]
    have hs := Option.some.inj hs
    rw [hcell', hrs', ← hs, hcell, hrs]
    rfl
  · cases hs

/-! ## C09 -/

/-- **C09**  With the filter the constructor sets, the nodes loaded into an entry are exactly the wanted ones
whose reactant text equals their product text. -/
theorem C09_default_filter [LinearOrder K] {doc : Doc} {cs ms : List String}
    {props : Registry K} (hnd : NodupNames props) (hc : CleanNames doc props) {d : RDB K}
    (h : initBinary doc defaultFilter cs ms (RDB.fresh props) = .ok d) {i j : ℕ} {a b : Props K}
    (hi : d.props[i]? = some a) (hj : d.props[j]? = some b) :
    ∃ (s : ISet) (ks : List ℕ), d.table.get? i j = some s ∧ ks.Pairwise (· < ·) ∧
      (∀ k, k ∈ ks ↔ ∃ x, doc.nodes[k]? = some x ∧ x.hasCS = true ∧ x.inText = x.outText ∧
        ReactantsWritten a.name b.name x.ins ∧ x.outs ≠ [] ∧ ∀ t ∈ x.outs, ∃ p ∈ props, p.name = t.P) ∧
      List.Forall₂ (fun k e => ∃ x, doc.nodes[k]? = some x ∧
        loadEq d.props cs ms ⟨x.ins, x.outs, x.csModel, x.modelAttr⟩ = .ok e) ks s.rhs := by
  obtain ⟨s, ks, h1, h2, h3, h4⟩ := C08_sound_and_complete hnd hc h hi hj
  refine ⟨s, ks, h1, h2, fun k => ?_, h4⟩
  rw [h3]
  simp only [defaultFilter, Filter.Keeps, Wanted, NodeHas]
  constructor
  · rintro ⟨⟨x, hx, a1, a2, a3⟩, y, hy, e⟩
    rw [hx] at hy; cases hy
    exact ⟨x, hx, a1, e, a2, a3⟩
  · rintro ⟨x, hx, a1, e, a2, a3⟩
    exact ⟨⟨x, hx, a1, a2, a3⟩, x, hx, e⟩

/-! ### A database with three species -/

/-- The document of the filter examples with an interaction of an unloaded species added. -/
def exTableDoc : Doc := { exDoc with nodes := exDoc.nodes ++
  [⟨[⟨"Ar", none, -1, ""⟩, ⟨"e", some 1, -1, ""⟩], [⟨"e", none, -1, ""⟩, ⟨"Xe", none, -1, ""⟩], "Ar e", "e Xe", true, "vhs", none⟩] }

def exInit (f : Filter) : Except LoadErr (RDB ℚ) :=
  initBinary exTableDoc f ["vhs", "constant", "lotz"] ["elastic", "vss_elastic", "inelastic"]
    (RDB.fresh [⟨"Ar", 80000, 0⟩, ⟨"Ar+", 79999, 1⟩, ⟨"e", 1, -1⟩])

/-- The cross section models in an entry. -/
def RDB.models (d : RDB ℚ) (i j : ℕ) : Option (List String) := (d.table.get? i j).map (fun s => s.rhs.map LEq.csModel)

example : CleanNames exTableDoc ([⟨"Ar", 80000, 0⟩, ⟨"Ar+", 79999, 1⟩, ⟨"e", 1, -1⟩] : Registry ℚ) :=
  ⟨by decide +kernel, by decide +kernel⟩
example : NodupNames ([⟨"Ar", 80000, 0⟩, ⟨"Ar+", 79999, 1⟩, ⟨"e", 1, -1⟩] : Registry ℚ) := by
  unfold NodupNames; decide +kernel
example : (exInit .null).toOption.map (fun d => (d.props.map Props.name, d.models 0 2, d.models 2 0, d.models 2 2, d.models 0 1)) =
    some (["e", "Ar+", "Ar"], some ["vhs", "constant", "lotz", "vhs"], some ["vhs", "constant", "lotz", "vhs"],
      some ["vhs"], some []) := by decide +kernel
example : (exInit defaultFilter).toOption.map (fun d => (d.models 0 2, d.models 2 2, d.models 0 3)) =
    some (some ["vhs", "constant", "vhs"], some ["vhs"], none) := by decide +kernel

end Chimp
