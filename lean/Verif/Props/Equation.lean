import Verif.Lemmas.EquationLoad
import Verif.Props.Registry
import Mathlib.Algebra.Order.Field.Basic
import Mathlib.Tactic.FieldSimp
import Mathlib.Tactic.Ring
import Mathlib.Tactic.Linarith
import Mathlib.Tactic.NormNum
import Mathlib.Data.Rat.Defs
import Mathlib.Algebra.Order.Ring.Rat

/-!
# Properties C10-C16: equations

The specification vocabulary for one side of an equation (`nodesOf`, `totalMult`, `srcList`,
`opsList`, `expandNames`) is defined in the lemma files and refers to the document only.
-/

namespace Chimp

variable {K : Type}

/-! ## C10 -/

/-- **C10**  A side loads exactly when every named species is loaded and no multiplicity is negative. -/
theorem C10_loads_iff [LinearOrder K] {db : Registry K} (hnd : NodupNames db) (l : List TNode) :
    (∃ r, loadAndSortTerms db l = .ok r) ↔ ∀ t ∈ l, 0 ≤ t.mult ∧ ∃ p ∈ db, p.name = t.P :=
  (loadAndSortTerms_spec hnd l).1.symm

/-- **C10**  What a loaded side contains: terms in strictly increasing (mass, name) order, one for every
species written and none else, carrying the total multiplicity and the per-particle annotations in
document order; the reported number is the number of particles written and of particles kept. -/
theorem C10_side_contents [LinearOrder K] {db : Registry K} (hnd : NodupNames db) (l : List TNode)
    (el : SideMap K) (n : ℤ) (h : loadAndSortTerms db l = .ok (el, n)) :
    el.Pairwise (fun a b => MassNameBefore a.1 b.1) ∧
    (∀ x, (∃ e ∈ el, e.1.name = x) ↔ ∃ t ∈ l, t.P = x) ∧
    (∀ e ∈ el, e.1 ∈ db ∧ e.2.n = totalMult l e.1.name ∧ e.2.src = srcList l e.1.name ∧
      e.2.ops = opsList l e.1.name ∧ (e.2.src.length : ℤ) = e.2.n ∧ (e.2.ops.length : ℤ) = e.2.n) ∧
    n = ((expandNames l).length : ℤ) ∧ n = (el.map (fun e => e.2.n)).sum := by
  obtain ⟨hinv, hn⟩ := (loadAndSortTerms_spec hnd l).2 _ _ h
  have hnn := load_nonneg hnd h
  have hnn' : ∀ t ∈ l, 0 ≤ t.mult := fun t ht => (hnn t ht).1
  refine ⟨?_, ?_, ?_, ?_, (load_sum h).symm⟩
  · refine List.Pairwise.imp ?_ hinv.sorted
    intro a b hab
    exact (Props.lt_iff _ _).1 hab
  · intro x
    constructor
    · rintro ⟨⟨q, i⟩, he, rfl⟩
      exact ((hinv.mem q i).1 he).2.1
    · rintro ⟨t, ht, rfl⟩
      obtain ⟨_, p, hp, hpn⟩ := hnn t ht
      exact ⟨(p, infoOf l p.name), (hinv.mem _ _).2 ⟨hp, ⟨t, ht, hpn.symm⟩, rfl⟩, hpn⟩
  · rintro ⟨q, i⟩ he
    obtain ⟨a, _, rfl⟩ := (hinv.mem q i).1 he
    have := infoOf_sizes hnn' q.name
    exact ⟨a, rfl, rfl, rfl, this.1.symm, this.2.symm⟩
  · rw [hn, length_expandNames hnn']

/-- A term with its multiplicity written out; an omitted one is one. -/
def TNode.explicit (t : TNode) : TNode :=
  match t.n with
  | none => { t with n := some 1 }
  | some _ => t

/-- **C10**  Omitting a multiplicity is the same as writing one, on any side. -/
theorem C10_omitted_is_one [LinearOrder K] (db : Registry K) (l : List TNode) :
    loadAndSortTerms db (l.map TNode.explicit) = loadAndSortTerms db l := by
  have hm : ∀ t : TNode, t.explicit.mult = t.mult ∧ t.explicit.P = t.P ∧ t.explicit.src = t.src ∧
      t.explicit.ops = t.ops := by
    rintro ⟨P, n, s, o⟩; cases n <;> simp [TNode.explicit, TNode.mult]
  have hu : ∀ (p : Props K) (t : TNode) (el : SideMap K), upsert p t.explicit el = upsert p t el := by
    intro p t el
    obtain ⟨h1, h2, h3, h4⟩ := hm t
    induction el with
    | nil => simp only [upsert, TermInfo.new, h1, h3, h4]
    | cons e l ih => obtain ⟨q, i⟩ := e; simp only [upsert, TermInfo.new, TermInfo.add, h1, h3, h4, ih]
  have hl : ∀ (l : List TNode) (el : SideMap K) (n : ℤ),
      loadLoop db (l.map TNode.explicit) el n = loadLoop db l el n := by
    intro l
    induction l with
    | nil => intro el n; rfl
    | cons t l ih =>
      intro el n
      obtain ⟨h1, h2, h3, h4⟩ := hm t
      simp only [List.map_cons, loadLoop, h1, h2, hu, ih]
  unfold loadAndSortTerms
  rw [hl]

/-- A database used in the examples: electron, hydrogen, argon. -/
def exDB : Registry ℚ := [⟨"e", 1, -1⟩, ⟨"H", 2000, 0⟩, ⟨"Ar", 80000, 0⟩]

theorem exDB_nodup : NodupNames exDB := by unfold NodupNames exDB; decide +kernel

/-- "Ar + e[0] + 2 Ar[1]" is merged into "e + 3 Ar". -/
example : loadAndSortTerms exDB [⟨"Ar", none, -1, ""⟩, ⟨"e", none, 0, "x"⟩, ⟨"Ar", some 2, 1, ""⟩] =
    .ok ([(⟨"e", 1, -1⟩, ⟨1, [0], ["x"]⟩), (⟨"Ar", 80000, 0⟩, ⟨3, [-1, 1, 1], ["", "", ""]⟩)], 4) := by
  have : ∀ a b : Except LoadErr (SideMap ℚ × ℤ), (match a, b with
    | .ok x, .ok y => decide (x = y) | _, _ => false) = true → a = b := by
    intro a b h
    cases a <;> cases b <;> simp_all
  exact this _ _ (by decide +kernel)

/-! ## C11 -/

/-- One side is a rearrangement of the other that never exchanges two terms of the same species. -/
inductive Rearranged : List TNode → List TNode → Prop
  | refl (l) : Rearranged l l
  | swap (l₁ : List TNode) (a b : TNode) (l₂ : List TNode) (h : a.P ≠ b.P) :
      Rearranged (l₁ ++ a :: b :: l₂) (l₁ ++ b :: a :: l₂)
  | trans {l m k} : Rearranged l m → Rearranged m k → Rearranged l k

theorem Rearranged.nodesOf_eq {l m : List TNode} (h : Rearranged l m) : ∀ x, nodesOf l x = nodesOf m x := by
  induction h with
  | refl l => intro x; rfl
  | swap l₁ a b l₂ h =>
    intro x
    simp only [nodesOf, List.filter_append, List.filter_cons]
    by_cases ha : a.P = x <;> by_cases hb : b.P = x <;> simp [ha, hb]
    exact absurd (ha.trans hb.symm) h
  | trans _ _ ih1 ih2 => intro x; rw [ih1 x, ih2 x]

theorem Rearranged.mem_iff {l m : List TNode} (h : Rearranged l m) : ∀ t, t ∈ l ↔ t ∈ m := by
  induction h with
  | refl l => intro t; rfl
  | swap l₁ a b l₂ h => intro t; simp only [List.mem_append, List.mem_cons]; tauto
  | trans _ _ ih1 ih2 => intro t; rw [ih1 t, ih2 t]

theorem Rearranged.total {l m : List TNode} (h : Rearranged l m) :
    (l.map TNode.mult).sum = (m.map TNode.mult).sum := by
  induction h with
  | refl l => rfl
  | swap l₁ a b l₂ h => simp only [List.map_append, List.map_cons, List.sum_append, List.sum_cons]; ring
  | trans _ _ ih1 ih2 => rw [ih1, ih2]

/-- **C11**  A rearrangement of terms of different species loads to the same side. -/
theorem C11_side_order_irrelevant [LinearOrder K] {db : Registry K} (hnd : NodupNames db)
    {l m : List TNode} (h : Rearranged l m) (r : SideMap K × ℤ) :
    loadAndSortTerms db l = .ok r ↔ loadAndSortTerms db m = .ok r := by
  have main : ∀ {l m : List TNode}, (∀ x, nodesOf l x = nodesOf m x) → (∀ t, t ∈ l ↔ t ∈ m) →
      (l.map TNode.mult).sum = (m.map TNode.mult).sum →
      loadAndSortTerms db l = .ok r → loadAndSortTerms db m = .ok r := by
    intro l m h1 h2 h3 hl
    have hok := load_nonneg hnd hl
    obtain ⟨⟨el', n'⟩, hm⟩ := (loadAndSortTerms_spec hnd m).1.1 (fun t ht => hok t ((h2 t).2 ht))
    obtain ⟨el, n⟩ := r
    obtain ⟨i1, n1⟩ := (loadAndSortTerms_spec hnd l).2 _ _ hl
    obtain ⟨i2, n2⟩ := (loadAndSortTerms_spec hnd m).2 _ _ hm
    have : el = el' := by
      apply sideInv_unique i1 i2
      intro p _
      refine ⟨?_, fun _ => ?_⟩
      · simp only [h2]
      · simp only [infoOf, totalMult, srcList, opsList, h1]
    rw [hm, this, n1, n2, h3]
  exact ⟨main h.nodesOf_eq h.mem_iff h.total,
    main (fun x => (h.nodesOf_eq x).symm) (fun t => (h.mem_iff t).symm) h.total.symm⟩

/-- **C11**  The whole loaded equation does not depend on the order in which different species are
written, on either side. -/
theorem C11_equation_order_irrelevant [LinearOrder K] {db : Registry K} (hnd : NodupNames db)
    (cs ms : List String) {x y : EqNode} (hi : Rearranged x.ins y.ins) (ho : Rearranged x.outs y.outs)
    (hc : x.csModel = y.csModel) (hm : x.modelAttr = y.modelAttr) (e : LEq) :
    loadEq db cs ms x = .ok e ↔ loadEq db cs ms y = .ok e := by
  have hmodel : ∀ i o : SideMap K, chooseModel x i o = chooseModel y i o := by
    intro i o; simp only [chooseModel, hm]
  have main : ∀ {x y : EqNode}, (∀ r, loadAndSortTerms db x.ins = .ok r → loadAndSortTerms db y.ins = .ok r) →
      (∀ r, loadAndSortTerms db x.outs = .ok r → loadAndSortTerms db y.outs = .ok r) →
      x.csModel = y.csModel → (∀ i o : SideMap K, chooseModel x i o = chooseModel y i o) →
      loadEq db cs ms x = .ok e → loadEq db cs ms y = .ok e := by
    intro x y h1 h2 h3 h4 h
    obtain ⟨ins, outs, nOut, a1, a2, a3, a4, a5, a6, a7, a8⟩ := loadEq_ok h
    unfold loadEq
    rw [h1 _ a1, h2 _ a2]
    simp only [ne_eq, not_true, if_false, a3, a4, ← h3, ← h4, a5, a7, if_true]
    rw [← a6, ← a8]
  exact ⟨main (fun r => (C11_side_order_irrelevant hnd hi r).1)
      (fun r => (C11_side_order_irrelevant hnd ho r).1) hc hmodel,
    main (fun r => (C11_side_order_irrelevant hnd hi r).2)
      (fun r => (C11_side_order_irrelevant hnd ho r).2) hc.symm (fun i o => (hmodel i o).symm)⟩

/-- "e + Ar" and "Ar + e" are rearrangements of each other. -/
example : Rearranged [⟨"e", none, -1, ""⟩, ⟨"Ar", none, -1, ""⟩] [⟨"Ar", none, -1, ""⟩, ⟨"e", none, -1, ""⟩] :=
  Rearranged.swap [] _ _ [] (by decide)

/-- Terms of the same species may not be exchanged: their annotations would change order. -/
example : (loadAndSortTerms exDB [⟨"e", none, 0, ""⟩, ⟨"e", none, 1, ""⟩]).toOption.map (fun r => r.1.map (fun e => e.2.src))
      = some [[0, 1]] ∧
    (loadAndSortTerms exDB [⟨"e", none, 1, ""⟩, ⟨"e", none, 0, ""⟩]).toOption.map (fun r => r.1.map (fun e => e.2.src))
      = some [[1, 0]] := by decide +kernel

/-! ## C12 -/

theorem perm_two_same {l : List TNode} (hnn : ∀ t ∈ l, 0 ≤ t.mult) {a : String}
    (htot : (l.map TNode.mult).sum = 2) (h : totalMult l a = 2) : (expandNames l).Perm [a, a] := by
  have hlen := length_expandNames hnn
  have hc := count_expandNames hnn a
  have h1 : List.count a (expandNames l) = (expandNames l).length := by omega
  have h2 : expandNames l = List.replicate (expandNames l).length a :=
    List.eq_replicate_iff.2 ⟨rfl, fun b hb => ((List.count_eq_length.1 h1) b hb).symm⟩
  have h3 : (expandNames l).length = 2 := by omega
  rw [h2, h3]; rfl

theorem perm_two_diff {l : List TNode} (hnn : ∀ t ∈ l, 0 ≤ t.mult) {a b : String} (hab : a ≠ b)
    (htot : (l.map TNode.mult).sum = 2) (ha : totalMult l a = 1) (hb : totalMult l b = 1) :
    (expandNames l).Perm [a, b] := by
  have hlen := length_expandNames hnn
  have hca := count_expandNames hnn a
  have hcb := count_expandNames hnn b
  have hsub : List.Subperm [a, b] (expandNames l) := by
    rw [List.subperm_ext_iff]
    intro x hx
    simp only [List.mem_cons, List.not_mem_nil, or_false] at hx
    rcases hx with rfl | rfl
    · have h1 : List.count x [x, b] = 1 := by simp [hab.symm]
      omega
    · have h1 : List.count x [a, x] = 1 := by simp [hab]
      omega
  exact (hsub.perm_of_length_le (by simp only [List.length_cons, List.length_nil]; omega)).symm

/-- **C12**  With positive multiplicities the reactants of a loaded equation are exactly the two written
ones, the lighter (or, for equal masses, alphabetically first) as `A`. -/
theorem C12_reactants [LinearOrder K] {db : Registry K} (hnd : NodupNames db) {cs ms : List String} {x : EqNode}
    (hpos : ∀ t ∈ x.ins, 0 < t.mult) {e : LEq} (h : loadEq db cs ms x = .ok e) :
    ∃ p q, p ∈ db ∧ q ∈ db ∧ (expandNames x.ins).Perm [p.name, q.name] ∧ (p = q ∨ MassNameBefore p q) ∧
      e.A = Term.single (findParticleIndx db p.name) ∧ e.B = Term.single (findParticleIndx db q.name) := by
  obtain ⟨ins, outs, nOut, a1, a2, a3, a4, a5, a6, a7, a8⟩ := loadEq_ok h
  obtain ⟨_, htot⟩ := (loadAndSortTerms_spec hnd x.ins).2 _ _ a1
  have hnn : ∀ t ∈ x.ins, 0 ≤ t.mult := fun t ht => (hpos t ht).le
  rcases two_particles hnd hpos a1 with ⟨p, hp, rfl, h2⟩ | ⟨p, q, hp, hq, hlt, rfl, h1, h2⟩
  · have hn : (infoOf x.ins p.name).n = 2 := h2
    simp only [inputTerms, hn] at a3
    norm_num at a3
    exact ⟨p, p, hp, hp, perm_two_same hnn htot.symm h2, .inl rfl, a3.1.symm, a3.2.symm⟩
  · have hn : (infoOf x.ins p.name).n = 1 := h1
    simp only [inputTerms, hn] at a3
    norm_num at a3
    have hne : p.name ≠ q.name := by
      intro hc
      have := nodupNames_inj hnd hp hq hc
      subst this
      rw [Props.lt_irrefl] at hlt; cases hlt
    exact ⟨p, q, hp, hq, perm_two_diff hnn hne htot.symm h1 h2, .inr ((Props.lt_iff _ _).1 hlt), a3.1.symm, a3.2.symm⟩

/-- **C12**  In a sorted species list (as after `initBinaryInteractions`) the index of `A` is at most that
of `B`. -/
theorem C12_index_order [LinearOrder K] {db : Registry K} (hnd : NodupNames db)
    (hsorted : db.Pairwise MassNameBefore) {cs ms : List String} {x : EqNode}
    (hpos : ∀ t ∈ x.ins, 0 < t.mult) {e : LEq} (h : loadEq db cs ms x = .ok e) :
    0 ≤ e.A.species ∧ e.A.species ≤ e.B.species ∧ e.B.species < db.length := by
  obtain ⟨p, q, hp, hq, _, hpq, hA, hB⟩ := C12_reactants hnd hpos h
  rw [hA, hB]
  simp only [Term.single]
  obtain ⟨i, hi, ei⟩ := idx_of_mem hnd hp
  obtain ⟨j, hj, ej⟩ := idx_of_mem hnd hq
  obtain ⟨hj1, _⟩ := List.getElem?_eq_some_iff.1 hj
  refine ⟨by omega, ?_, by omega⟩
  rcases hpq with rfl | hlt
  · exact le_rfl
  · apply le_of_lt
    refine idx_mono hnd (hsorted.imp ?_) hp hq ((Props.lt_iff _ _).2 hlt)
    intro a b hab; exact (Props.lt_iff _ _).2 hab

/-- **C12**  If everything else about the interaction is in order, loading succeeds exactly when the
total multiplicity of the reactants is two, and is the "only binary" error otherwise. -/
theorem C12_binary_iff [LinearOrder K] {db : Registry K} (hnd : NodupNames db) {cs ms : List String} {x : EqNode}
    (hin : ∀ t ∈ x.ins, 0 < t.mult ∧ ∃ p ∈ db, p.name = t.P)
    (hout : ∀ t ∈ x.outs, 0 ≤ t.mult ∧ ∃ p ∈ db, p.name = t.P)
    (hcs : x.csModel ∈ cs) (hms : ∀ m ∈ x.modelAttr.getD "elastic" :: x.modelAttr.getD "inelastic" :: [], m ∈ ms) :
    ((∃ e, loadEq db cs ms x = .ok e) ↔ (expandNames x.ins).length = 2) ∧
    ((expandNames x.ins).length ≠ 2 → loadEq db cs ms x = .error .notBinary) := by
  have hnn : ∀ t ∈ x.ins, 0 ≤ t.mult := fun t ht => (hin t ht).1.le
  have hpos : ∀ t ∈ x.ins, 0 < t.mult := fun t ht => (hin t ht).1
  obtain ⟨⟨ins, nIn⟩, hi⟩ := (loadAndSortTerms_spec hnd x.ins).1.1 (fun t ht => ⟨(hin t ht).1.le, (hin t ht).2⟩)
  obtain ⟨⟨outs, nOut⟩, ho⟩ := (loadAndSortTerms_spec hnd x.outs).1.1 hout
  have htot := ((loadAndSortTerms_spec hnd x.ins).2 _ _ hi).2
  have hlen := length_expandNames hnn
  have hbad : (expandNames x.ins).length ≠ 2 → loadEq db cs ms x = .error .notBinary := by
    intro hne
    unfold loadEq
    rw [hi, ho]
    simp only
    rw [if_pos (by omega)]
  refine ⟨⟨?_, ?_⟩, hbad⟩
  · rintro ⟨e, he⟩
    by_contra hne
    rw [hbad hne] at he; cases he
  · intro hlen2
    have h2 : nIn = 2 := by omega
    subst h2
    have hmodel : chooseModel x ins outs ∈ ms := by
      unfold chooseModel
      split
      · exact hms _ (by simp)
      · exact hms _ (by simp)
    have hA : ∃ ab, inputTerms db ins = .ok ab := by
      rcases two_particles hnd hpos hi with ⟨p, hp, rfl, h2⟩ | ⟨p, q, hp, hq, hlt, rfl, h1, h2⟩
      · have hn : (infoOf x.ins p.name).n = 2 := h2
        simp [inputTerms, hn]
      · have hn : (infoOf x.ins p.name).n = 1 := h1
        simp [inputTerms, hn]
    obtain ⟨⟨a, b⟩, hab⟩ := hA
    unfold loadEq
    rw [hi, ho]
    simp only [ne_eq, not_true, if_false, hab, outputTerms_loaded hnd ho, hcs, hmodel, if_true]
    exact ⟨_, rfl⟩

/-- Summary of a loaded equation, for the examples. -/
def LEq.summary (e : LEq) : ℤ × ℤ × List (ℤ × ℤ) × String :=
  (e.A.species, e.B.species, e.products.map (fun t => (t.species, t.n)), e.model)

/-- "Ar + e --> Ar[1] + 2 e" has reactants (e, Ar). -/
example : (loadEq exDB ["vhs"] ["elastic", "inelastic"]
    ⟨[⟨"Ar", none, -1, ""⟩, ⟨"e", none, -1, ""⟩], [⟨"Ar", none, 1, ""⟩, ⟨"e", some 2, -1, ""⟩], "vhs", none⟩).toOption.map
    LEq.summary = some (0, 2, [(0, 2), (2, 1)], "inelastic") := by decide +kernel

/-- **C12** (finding)  A reactant of multiplicity zero is taken for a reactant: "0 e + 2 H" loads as
"e + e", and "H + 0 Ar + ..." style documents can pick the absent species too: "e + 0 H + Ar" loads as
"e + H". -/
theorem C12_zero_multiplicity :
    (loadEq exDB ["vhs"] ["elastic", "inelastic"]
      ⟨[⟨"e", some 0, -1, ""⟩, ⟨"H", some 2, -1, ""⟩], [⟨"H", some 2, -1, ""⟩], "vhs", none⟩).toOption.map
      LEq.summary = some (0, 0, [(1, 2)], "inelastic") ∧
    (loadEq exDB ["vhs"] ["elastic", "inelastic"]
      ⟨[⟨"e", some 1, -1, ""⟩, ⟨"H", some 0, -1, ""⟩, ⟨"Ar", some 1, -1, ""⟩], [⟨"e", some 1, -1, ""⟩, ⟨"Ar", some 1, -1, ""⟩],
        "vhs", none⟩).toOption.map LEq.summary = some (0, 1, [(0, 1), (2, 1)], "inelastic") :=
  ⟨by decide +kernel, by decide +kernel⟩

/-! ## C13 -/

/-- Both sides say the same about every species: whether it is written, how often, and the source and
operation annotation of each of its particles, in order. -/
def SameSides (x : EqNode) : Prop :=
  ∀ s : String, ((∃ t ∈ x.ins, t.P = s) ↔ ∃ t ∈ x.outs, t.P = s) ∧
    totalMult x.ins s = totalMult x.outs s ∧ srcList x.ins s = srcList x.outs s ∧
    opsList x.ins s = opsList x.outs s

theorem maps_eq_iff [LinearOrder K] {db : Registry K} (hnd : NodupNames db) {x : EqNode} {ins outs : SideMap K}
    {n m : ℤ} (hi : loadAndSortTerms db x.ins = .ok (ins, n)) (ho : loadAndSortTerms db x.outs = .ok (outs, m)) :
    ins = outs ↔ SameSides x := by
  obtain ⟨i1, _⟩ := (loadAndSortTerms_spec hnd x.ins).2 _ _ hi
  obtain ⟨i2, _⟩ := (loadAndSortTerms_spec hnd x.outs).2 _ _ ho
  have k1 := load_nonneg hnd hi
  have k2 := load_nonneg hnd ho
  constructor
  · rintro rfl s
    have hocc : (∃ t ∈ x.ins, t.P = s) ↔ ∃ t ∈ x.outs, t.P = s := by
      constructor
      · rintro ⟨t, ht, rfl⟩
        obtain ⟨_, p, hp, hpn⟩ := k1 t ht
        have := (i1.mem p _).2 ⟨hp, ⟨t, ht, hpn.symm⟩, rfl⟩
        rw [← hpn]
        exact ((i2.mem p _).1 this).2.1
      · rintro ⟨t, ht, rfl⟩
        obtain ⟨_, p, hp, hpn⟩ := k2 t ht
        have := (i2.mem p _).2 ⟨hp, ⟨t, ht, hpn.symm⟩, rfl⟩
        rw [← hpn]
        exact ((i1.mem p _).1 this).2.1
    refine ⟨hocc, ?_⟩
    have hinfo : infoOf x.ins s = infoOf x.outs s := by
      by_cases h : ∃ t ∈ x.ins, t.P = s
      · obtain ⟨t, ht, rfl⟩ := h
        obtain ⟨_, p, hp, hpn⟩ := k1 t ht
        have := (i1.mem p _).2 ⟨hp, ⟨t, ht, hpn.symm⟩, rfl⟩
        rw [← hpn]
        exact ((i2.mem p _).1 this).2.2
      · have h' := mt hocc.2 h
        push Not at h h'
        rw [infoOf_absent h, infoOf_absent h']
    simp only [infoOf, TermInfo.mk.injEq] at hinfo
    exact hinfo
  · intro h
    apply sideInv_unique i1 i2
    intro p _
    obtain ⟨a, b, c, d⟩ := h p.name
    refine ⟨a, fun _ => ?_⟩
    simp only [infoOf, b, c, d]

/-- **C13**  The model of a loaded equation: the attribute if present, otherwise "elastic" exactly when
both sides agree, otherwise "inelastic"; both model names are registered ones. -/
theorem C13_model_choice [LinearOrder K] {db : Registry K} (hnd : NodupNames db) {cs ms : List String} {x : EqNode}
    {e : LEq} (h : loadEq db cs ms x = .ok e) :
    (∀ m, x.modelAttr = some m → e.model = m) ∧
    (x.modelAttr = none → SameSides x → e.model = "elastic") ∧
    (x.modelAttr = none → ¬ SameSides x → e.model = "inelastic") ∧
    e.model ∈ ms ∧ e.csModel = x.csModel ∧ e.csModel ∈ cs := by
  obtain ⟨ins, outs, nOut, a1, a2, a3, a4, a5, a6, a7, a8⟩ := loadEq_ok h
  have hiff := maps_eq_iff hnd a1 a2
  refine ⟨?_, ?_, ?_, a8 ▸ a7, a6, a6 ▸ a5⟩
  · intro m hm; rw [a8, chooseModel, hm]; rfl
  · intro hm hs; rw [a8, chooseModel, hm, if_pos (hiff.2 hs)]; rfl
  · intro hm hs; rw [a8, chooseModel, hm, if_neg (mt hiff.1 hs)]; rfl

/-- **C13**  Unregistered names are errors: a load with such a name never succeeds. -/
theorem C13_unregistered [LinearOrder K] {db : Registry K} (hnd : NodupNames db) {cs ms : List String} {x : EqNode} :
    (x.csModel ∉ cs → ∀ e, loadEq db cs ms x ≠ .ok e) ∧
    (∀ m, x.modelAttr = some m → m ∉ ms → ∀ e, loadEq db cs ms x ≠ .ok e) := by
  constructor
  · intro h e he
    obtain ⟨_, _, _, _, h1, h2⟩ := C13_model_choice hnd he
    exact h (h1 ▸ h2)
  · intro m hm h e he
    obtain ⟨h1, _, _, h2, _⟩ := C13_model_choice hnd he
    exact h (h1 m hm ▸ h2)

/-- Elastic, inelastic by a source annotation alone, and by attribute. -/
example :
    (loadEq exDB ["vhs"] ["elastic", "inelastic", "vss_elastic"]
      ⟨[⟨"Ar", none, -1, ""⟩, ⟨"e", none, -1, ""⟩], [⟨"e", none, -1, ""⟩, ⟨"Ar", some 1, -1, ""⟩], "vhs", none⟩).toOption.map
      LEq.summary = some (0, 2, [(0, 1), (2, 1)], "elastic") ∧
    (loadEq exDB ["vhs"] ["elastic", "inelastic", "vss_elastic"]
      ⟨[⟨"Ar", none, -1, ""⟩, ⟨"e", none, -1, ""⟩], [⟨"e", none, 0, ""⟩, ⟨"Ar", some 1, -1, ""⟩], "vhs", none⟩).toOption.map
      LEq.summary = some (0, 2, [(0, 1), (2, 1)], "inelastic") ∧
    (loadEq exDB ["vhs"] ["elastic", "inelastic", "vss_elastic"]
      ⟨[⟨"Ar", none, -1, ""⟩, ⟨"e", none, -1, ""⟩], [⟨"e", none, -1, ""⟩, ⟨"Ar", some 1, -1, ""⟩], "vhs",
        some "vss_elastic"⟩).toOption.map
      LEq.summary = some (0, 2, [(0, 1), (2, 1)], "vss_elastic") :=
  ⟨by decide +kernel, by decide +kernel, by decide +kernel⟩

/-! ## C14 -/

/-- What `operator==` of terms looks at. -/
def Term.key (t : Term) : ℤ × ℤ × List ℤ := (t.species, t.n, t.src)

theorem Term.eqv_iff (a b : Term) : a.eqv b = true ↔ a.key = b.key := by
  simp [Term.eqv, Term.key, and_assoc]

theorem setEq_iff : ∀ l m : List Term, setEq l m = true ↔ l.map Term.key = m.map Term.key
  | [], [] => by simp [setEq]
  | [], b :: m => by simp [setEq]
  | a :: l, [] => by simp [setEq]
  | a :: l, b :: m => by simp [setEq, Term.eqv_iff, setEq_iff l m]

/-- Strictly increasing species. -/
def SpSorted (l : List Term) : Prop := l.Pairwise (fun a b => a.species < b.species)

theorem setInsert_spec (t : Term) : ∀ l : List Term, SpSorted l → (∀ u ∈ l, u.species ≠ t.species) →
    SpSorted (setInsert t l) ∧ (setInsert t l).Perm (t :: l)
  | [], _, _ => by simp [setInsert, SpSorted]
  | u :: l, hs, hne => by
    have hu := hne u List.mem_cons_self
    obtain ⟨h1, h2⟩ := List.pairwise_cons.1 hs
    have ih := setInsert_spec t l h2 (fun v hv => hne v (List.mem_cons_of_mem _ hv))
    simp only [setInsert]
    by_cases hlt : t.species < u.species
    · have : t.lt u = true := by simp [Term.lt, hlt]
      rw [if_pos this]
      refine ⟨List.pairwise_cons.2 ⟨?_, hs⟩, List.Perm.refl _⟩
      intro v hv
      rcases List.mem_cons.1 hv with rfl | hv
      · exact hlt
      · exact hlt.trans (h1 v hv)
    · have h3 : u.species < t.species := lt_of_le_of_ne (not_lt.1 hlt) hu
      have e1 : t.lt u = false := by simp [Term.lt, hlt, hu.symm]
      have e2 : u.lt t = true := by simp [Term.lt, h3]
      rw [e1, e2]
      simp only [Bool.false_eq_true, if_false, if_true]
      refine ⟨List.pairwise_cons.2 ⟨?_, ih.1⟩, ?_⟩
      · intro v hv
        rcases List.mem_cons.1 (ih.2.subset hv) with rfl | hv
        · exact h3
        · exact h1 v hv
      · exact (ih.2.cons u).trans (List.Perm.swap t u l)

theorem foldl_setInsert_spec : ∀ (l acc : List Term), SpSorted acc →
    (l ++ acc).Pairwise (fun a b => a.species ≠ b.species) →
    SpSorted (l.foldl (fun s t => setInsert t s) acc) ∧
      (l.foldl (fun s t => setInsert t s) acc).Perm (l ++ acc)
  | [], acc, hs, _ => ⟨hs, List.Perm.refl _⟩
  | t :: l, acc, hs, hd => by
    obtain ⟨h1, h2⟩ := List.pairwise_cons.1 hd
    obtain ⟨a, b⟩ := setInsert_spec t acc hs (fun u hu => (h1 u (by simp [hu])).symm)
    have hp : (l ++ setInsert t acc).Perm (t :: (l ++ acc)) :=
      (b.append_left l).trans List.perm_middle
    obtain ⟨c, d⟩ := foldl_setInsert_spec l (setInsert t acc) a
      ((hp.pairwise_iff (fun {x y} h => h.symm)).2 hd)
    exact ⟨c, d.trans hp⟩

theorem sorted_keys_eq_iff {l m : List Term} (hl : SpSorted l) (hm : SpSorted m) :
    l.map Term.key = m.map Term.key ↔ (l.map Term.key).Perm (m.map Term.key) := by
  constructor
  · intro h; rw [h]
  · intro h
    have sl : (l.map Term.key).Pairwise (fun a b => a.1 < b.1) := List.pairwise_map.2 hl
    have sm : (m.map Term.key).Pairwise (fun a b => a.1 < b.1) := List.pairwise_map.2 hm
    refine List.Perm.eq_of_pairwise ?_ sl sm h
    intro a b _ _ h1 h2
    exact absurd h1 (not_lt.2 h2.le)

/-- **C14**  For an equation loaded from positive multiplicities, `isElastic` means that the products are
the reactants (as a multiset of particles) and that no product names a source. -/
theorem C14_isElastic_iff [LinearOrder K] {db : Registry K} (hnd : NodupNames db) {cs ms : List String} {x : EqNode}
    (hpos : ∀ t ∈ x.ins, 0 < t.mult) (hposo : ∀ t ∈ x.outs, 0 < t.mult) {e : LEq}
    (h : loadEq db cs ms x = .ok e) :
    e.isElastic = true ↔ (expandNames x.outs).Perm (expandNames x.ins) ∧ ∀ t ∈ x.outs, t.src = -1 := by
  obtain ⟨p, q, hp, hq, hperm, hpq, hA, hB⟩ := C12_reactants hnd hpos h
  obtain ⟨ins, outs, nOut, a1, a2, a3, a4, a5, a6, a7, a8⟩ := loadEq_ok h
  obtain ⟨inv, _⟩ := (loadAndSortTerms_spec hnd x.outs).2 _ _ a2
  have hnno : ∀ t ∈ x.outs, 0 ≤ t.mult := fun t ht => (hposo t ht).le
  have kout := load_nonneg hnd a2
  rw [outputTerms_loaded hnd a2] at a4
  have hprod : e.products = outs.map (fun e => ⟨findParticleIndx db e.1.name, e.2.n, e.2.src, e.2.ops⟩) := by
    exact (Except.ok.inj a4).symm
  -- the products have distinct species
  have hdist : e.products.Pairwise (fun a b => a.species ≠ b.species) := by
    rw [hprod, List.pairwise_map]
    refine List.Pairwise.imp_of_mem ?_ inv.sorted
    intro a b ha hb hab hc
    have := idx_inj hnd (inv.keys a ha) (inv.keys b hb) hc
    rw [this, Props.lt_irrefl] at hab; cases hab
  obtain ⟨o1, o2⟩ := foldl_setInsert_spec e.products [] List.Pairwise.nil (by simpa using hdist)
  rw [List.append_nil] at o2
  -- the keys of the products
  have hkeys : ∀ k : ℤ × ℤ × List ℤ, k ∈ e.products.map Term.key ↔ ∃ r ∈ db, (∃ t ∈ x.outs, t.P = r.name) ∧
      k = (findParticleIndx db r.name, totalMult x.outs r.name, srcList x.outs r.name) := by
    intro k
    rw [hprod, List.map_map, List.mem_map]
    constructor
    · rintro ⟨⟨r, i⟩, he, rfl⟩
      obtain ⟨b1, b2, rfl⟩ := (inv.mem r i).1 he
      exact ⟨r, b1, b2, rfl⟩
    · rintro ⟨r, b1, b2, rfl⟩
      exact ⟨(r, infoOf x.outs r.name), (inv.mem _ _).2 ⟨b1, b2, rfl⟩, rfl⟩
  -- the keys of the reactants
  have hit : ∃ it : List Term, e.isElastic = setEq it (e.products.foldl (fun s t => setInsert t s) []) ∧ SpSorted it ∧
      (it.map Term.key).Nodup ∧
      ∀ k : ℤ × ℤ × List ℤ, k ∈ it.map Term.key ↔ ∃ r ∈ db, r.name ∈ [p.name, q.name] ∧
        k = (findParticleIndx db r.name, (List.count r.name [p.name, q.name] : ℤ),
          List.replicate (List.count r.name [p.name, q.name]) (-1)) := by
    have nd : ∀ {l : List Term}, SpSorted l → (l.map Term.key).Nodup := by
      intro l hl
      have sl : (l.map Term.key).Pairwise (fun a b => a.1 < b.1) := List.pairwise_map.2 hl
      refine sl.imp ?_
      rintro a b hab rfl; exact lt_irrefl _ hab
    by_cases hEq : p = q
    · subst hEq
      refine ⟨setInsert (Term.many e.A.species 2) [], ?_, ?_, ?_, ?_⟩
      · unfold LEq.isElastic; rw [if_pos (by rw [hA, hB])]
      · simp [setInsert, SpSorted]
      · simp [setInsert]
      · intro k
        simp only [setInsert, List.map_cons, List.map_nil, Term.key, Term.many, hA, Term.single,
          List.mem_cons, List.not_mem_nil, or_false, or_self]
        constructor
        · rintro rfl; exact ⟨p, hp, rfl, by simp⟩
        · rintro ⟨r, hr, hn, rfl⟩
          have : r = p := nodupNames_inj hnd hr hp hn
          subst this
          simp
    · have hne : findParticleIndx db p.name ≠ findParticleIndx db q.name := fun hc => hEq (idx_inj hnd hp hq hc)
      have hnn : p.name ≠ q.name := fun hc => hEq (nodupNames_inj hnd hp hq hc)
      have s1 : SpSorted (setInsert e.A []) := by simp [setInsert, SpSorted]
      obtain ⟨s2, s3⟩ := setInsert_spec e.B (setInsert e.A []) s1 (by
        intro u hu
        simp only [setInsert, List.mem_singleton] at hu
        subst hu; rw [hA, hB]; exact hne)
      refine ⟨setInsert e.B (setInsert e.A []), ?_, s2, nd s2, ?_⟩
      · unfold LEq.isElastic
        rw [if_neg (by rw [hA, hB]; exact hne)]
      · intro k
        rw [(s3.map Term.key).mem_iff]
        simp only [setInsert, List.map_cons, List.map_nil, List.mem_cons, List.not_mem_nil, or_false, Term.key, hA, hB,
          Term.single]
        constructor
        · rintro (rfl | rfl)
          · exact ⟨q, hq, .inr rfl, by simp [hnn]⟩
          · exact ⟨p, hp, .inl rfl, by simp [Ne.symm hnn]⟩
        · rintro ⟨r, hr, hn | hn, rfl⟩
          · have : r = p := nodupNames_inj hnd hr hp hn
            subst this
            right; simp [Ne.symm hnn]
          · have : r = q := nodupNames_inj hnd hr hq hn
            subst this
            left; simp [hnn]
  obtain ⟨it, e1, e2, e3, e4⟩ := hit
  have hpn : (e.products.map Term.key).Nodup := by
    have : ((e.products.foldl (fun s t => setInsert t s) []).map Term.key).Nodup := by
      have sl : ((e.products.foldl (fun s t => setInsert t s) []).map Term.key).Pairwise (fun a b => a.1 < b.1) :=
        List.pairwise_map.2 o1
      refine sl.imp ?_
      rintro a b hab rfl; exact lt_irrefl _ hab
    exact ((o2.map Term.key).nodup_iff).1 this
  rw [e1, setEq_iff, sorted_keys_eq_iff e2 o1, List.perm_ext_iff_of_nodup e3 ((o2.map Term.key).nodup_iff.2 hpn)]
  have step : (∀ k, k ∈ it.map Term.key ↔ k ∈ (e.products.foldl (fun s t => setInsert t s) []).map Term.key) ↔
      ∀ k, k ∈ it.map Term.key ↔ k ∈ e.products.map Term.key := by
    refine forall_congr' fun k => ?_
    rw [(o2.map Term.key).mem_iff]
  rw [step]
  have hcount : (expandNames x.outs).Perm (expandNames x.ins) ↔
      ∀ s, totalMult x.outs s = (List.count s [p.name, q.name] : ℤ) := by
    rw [List.perm_iff_count]
    refine forall_congr' fun s => ?_
    rw [hperm.count_eq, ← count_expandNames hnno]
    exact_mod_cast Iff.rfl
  rw [hcount, src_all_iff hposo]
  constructor
  · intro hk
    have tot : ∀ s, totalMult x.outs s = (List.count s [p.name, q.name] : ℤ) ∧
        srcList x.outs s = List.replicate (List.count s [p.name, q.name]) (-1) := by
      intro s
      by_cases hs : s ∈ [p.name, q.name]
      · have hr : ∃ r ∈ db, r.name = s := by
          simp only [List.mem_cons, List.not_mem_nil, or_false] at hs
          rcases hs with rfl | rfl
          · exact ⟨p, hp, rfl⟩
          · exact ⟨q, hq, rfl⟩
        obtain ⟨r, hr, rfl⟩ := hr
        obtain ⟨r', hr', _, heq⟩ := (hkeys _).1 ((hk _).1 ((e4 _).2 ⟨r, hr, hs, rfl⟩))
        simp only [Prod.mk.injEq] at heq
        have := idx_inj hnd hr hr' heq.1
        subst this
        exact ⟨heq.2.1.symm, heq.2.2.symm⟩
      · have hno : ¬ ∃ t ∈ x.outs, t.P = s := by
          rintro ⟨t, ht, rfl⟩
          obtain ⟨_, r, hr, hrn⟩ := kout t ht
          obtain ⟨r', hr', hmem, heq⟩ := (e4 _).1 ((hk _).2 ((hkeys _).2 ⟨r, hr, ⟨t, ht, hrn.symm⟩, rfl⟩))
          simp only [Prod.mk.injEq] at heq
          have := idx_inj hnd hr hr' heq.1
          subst this
          exact hs (hrn ▸ hmem)
        push Not at hno
        have := infoOf_absent hno
        simp only [infoOf, TermInfo.mk.injEq] at this
        rw [this.1, this.2.1, List.count_eq_zero_of_not_mem hs]
        simp
    refine ⟨fun s => (tot s).1, fun s => ?_⟩
    rw [(tot s).1, (tot s).2]; simp
  · rintro ⟨h1, h2⟩ k
    rw [e4, hkeys]
    refine exists_congr fun r => and_congr_right fun hr => and_congr ?_ ?_
    · rw [← totalMult_pos_iff hposo, h1]
      exact_mod_cast List.count_pos_iff.symm
    · rw [h2, h1]; simp

/-- `isElastic` ignores the operation annotation, unlike the choice of model. -/
example : (loadEq exDB ["vhs"] ["elastic", "inelastic"]
      ⟨[⟨"Ar", none, -1, ""⟩, ⟨"e", none, -1, ""⟩], [⟨"e", none, -1, "v=0"⟩, ⟨"Ar", some 1, -1, ""⟩], "vhs", none⟩).toOption.map
      (fun e => (e.isElastic, e.model)) = some (true, "inelastic") ∧
    (loadEq exDB ["vhs"] ["elastic", "inelastic"]
      ⟨[⟨"Ar", none, -1, ""⟩, ⟨"e", none, -1, ""⟩], [⟨"e", none, 1, ""⟩, ⟨"Ar", some 1, -1, ""⟩], "vhs", none⟩).toOption.map
      (fun e => (e.isElastic, e.model)) = some (false, "inelastic") ∧
    (loadEq exDB ["vhs"] ["elastic", "inelastic"]
      ⟨[⟨"H", some 2, -1, ""⟩], [⟨"H", none, -1, ""⟩, ⟨"H", none, -1, ""⟩], "vhs", none⟩).toOption.map
      (fun e => (e.isElastic, e.model)) = some (true, "elastic") := by decide +kernel

/-! ## C15 -/

/-- The products written out one by one. -/
def expandTerms (ts : List Term) : List Term := ts.flatMap (fun t => List.replicate t.n.toNat t)

private theorem getTermLoop_eq : ∀ (ts : List Term), (∀ t ∈ ts, 0 ≤ t.n) → ∀ (i total : ℕ),
    getTermLoop ((total + i : ℕ) : ℤ) ts total = (expandTerms ts)[i]? := by
  intro ts
  induction ts with
  | nil => intro _ i total; simp [getTermLoop, expandTerms]
  | cons t ts ih =>
    intro h i total
    have ht := h t List.mem_cons_self
    simp only [getTermLoop, expandTerms, List.flatMap_cons]
    rw [← expandTerms]
    by_cases hlt : i < t.n.toNat
    · rw [if_pos (by omega), List.getElem?_append_left (by simpa using hlt), List.getElem?_replicate, if_pos hlt]
    · rw [if_neg (by omega), List.getElem?_append_right (by simpa using Nat.le_of_not_lt hlt), List.length_replicate]
      have := ih (fun t' ht' => h t' (List.mem_cons_of_mem _ ht')) (i - t.n.toNat) (total + t.n.toNat)
      have e1 : ((total + t.n.toNat + (i - t.n.toNat) : ℕ) : ℤ) = ((total + i : ℕ) : ℤ) := by omega
      have e2 : ((total + t.n.toNat : ℕ) : ℤ) = (total : ℤ) + t.n := by omega
      rw [e1, e2] at this
      exact this

/-- **C15**  `getTermForProduct(i)` is the `i`-th product when written out with multiplicity, an exception
beyond the end. -/
theorem C15_product_indexing (ts : List Term) (h : ∀ t ∈ ts, 0 ≤ t.n) (i : ℕ) :
    getTermForProduct ts i = (expandTerms ts)[i]? := by
  have := getTermLoop_eq ts h i 0
  simpa [getTermForProduct] using this

/-- **C15**  The number of products is the length of the expansion. -/
theorem C15_number_of_products (ts : List Term) (h : ∀ t ∈ ts, 0 ≤ t.n) :
    countComponents ts = ((expandTerms ts).length : ℤ) := by
  have : ∀ (ts : List Term) (s : ℤ), (∀ t ∈ ts, 0 ≤ t.n) →
      ts.foldl (fun s t => s + t.n) s = s + ((expandTerms ts).length : ℤ) := by
    intro ts
    induction ts with
    | nil => intro s _; simp [expandTerms]
    | cons t ts ih =>
      intro s h
      have ht := h t List.mem_cons_self
      rw [List.foldl_cons, ih _ (fun t' ht' => h t' (List.mem_cons_of_mem _ ht'))]
      simp only [expandTerms, List.flatMap_cons, List.length_append, List.length_replicate]
      push_cast
      omega
  simpa [countComponents] using this ts 0 h

/-- **C15**  For a loaded equation the expansion lists the product particles of the document: the hypothesis
on multiplicities holds and species `p` occurs as often as written. -/
theorem C15_loaded_products [LinearOrder K] {db : Registry K} (hnd : NodupNames db) {cs ms : List String} {x : EqNode}
    {e : LEq} (h : loadEq db cs ms x = .ok e) :
    (∀ t ∈ e.products, 0 ≤ t.n) ∧ countComponents e.products = ((expandNames x.outs).length : ℤ) ∧
    ∀ i : ℕ, (getTermForProduct e.products i = none ↔ (expandNames x.outs).length ≤ i) := by
  obtain ⟨ins, outs, nOut, a1, a2, a3, a4, a5, a6, a7, a8⟩ := loadEq_ok h
  obtain ⟨inv, htot⟩ := (loadAndSortTerms_spec hnd x.outs).2 _ _ a2
  have kout := load_nonneg hnd a2
  have hnno : ∀ t ∈ x.outs, 0 ≤ t.mult := fun t ht => (kout t ht).1
  rw [outputTerms_loaded hnd a2] at a4
  have hprod : e.products = outs.map (fun e => ⟨findParticleIndx db e.1.name, e.2.n, e.2.src, e.2.ops⟩) := by
    exact (Except.ok.inj a4).symm
  have hn : ∀ t ∈ e.products, 0 ≤ t.n := by
    intro t ht
    rw [hprod] at ht
    obtain ⟨⟨r, i⟩, he, rfl⟩ := List.mem_map.1 ht
    obtain ⟨_, _, rfl⟩ := (inv.mem r i).1 he
    exact totalMult_nonneg hnno _
  have hc : countComponents e.products = ((expandNames x.outs).length : ℤ) := by
    rw [length_expandNames hnno, ← htot, ← load_sum a2, hprod, countComponents, List.foldl_map]
    have : ∀ (l : SideMap K) (s : ℤ), l.foldl (fun s e => s + e.2.n) s = s + (l.map (fun e => e.2.n)).sum := by
      intro l
      induction l with
      | nil => intro s; simp
      | cons a l ih => intro s; rw [List.foldl_cons, ih, List.map_cons, List.sum_cons]; ring
    simpa using this outs 0
  refine ⟨hn, hc, fun i => ?_⟩
  rw [C15_product_indexing _ hn, List.getElem?_eq_none_iff]
  have := C15_number_of_products _ hn
  omega

/-- "2 e + Ar": products 0 and 1 are the electron term, 2 is argon, 3 is an exception. -/
example : let ts : List Term := [⟨0, 2, [-1, -1], ["", ""]⟩, ⟨2, 1, [-1], [""]⟩]
    (List.range 4).map (fun i => (getTermForProduct ts i).map Term.species) = [some 0, some 0, some 2, none] ∧
    countComponents ts = 3 := by decide +kernel

/-! ## C16 -/

/-- **C16**  Reduced mass and mass ratios for positive masses. -/
theorem C16_reduced_mass [Field K] [LinearOrder K] [IsStrictOrderedRing K] (m1 m2 : K) (h1 : 0 < m1) (h2 : 0 < m2) :
    let r := ReducedMass.mk' m1 m2
    r.value * (m1 + m2) = m1 * m2 ∧ r.over_m1 * m1 = r.value ∧ r.over_m2 * m2 = r.value ∧
    r.over_m1 + r.over_m2 = 1 ∧ 0 < r.over_m1 ∧ 0 < r.over_m2 ∧ 0 < r.value ∧ r.value < m1 ∧ r.value < m2 ∧
    1 / r.value = 1 / m1 + 1 / m2 ∧
    ReducedMass.mk' m2 m1 = ⟨r.value, r.over_m2, r.over_m1⟩ := by
  have hs : 0 < m1 + m2 := add_pos h1 h2
  have n1 := h1.ne'
  have n2 := h2.ne'
  have ns := hs.ne'
  have ns' : m2 + m1 ≠ 0 := by rw [add_comm]; exact ns
  have e1 : 1 / (1 + m1 / m2) = m2 / (m1 + m2) := by field_simp; ring
  have e2 : 1 / (1 + m2 / m1) = m1 / (m1 + m2) := by field_simp
  simp only [ReducedMass.mk', e1, e2]
  refine ⟨by field_simp, by field_simp, by field_simp, by field_simp; ring, by positivity, by positivity,
    by positivity, ?_, ?_, by field_simp; ring, ?_⟩
  · rw [div_lt_iff₀ hs]; nlinarith [mul_pos h1 h1]
  · rw [div_lt_iff₀ hs]; nlinarith [mul_pos h2 h2]
  · rw [mul_comm m2 m1, add_comm m2 m1]

/-- Masses 2 and 6. -/
example : let r := ReducedMass.mk' (2 : ℚ) 6
    r.value = 3 / 2 ∧ r.over_m1 = 3 / 4 ∧ r.over_m2 = 1 / 4 := by decide +kernel

end Chimp
