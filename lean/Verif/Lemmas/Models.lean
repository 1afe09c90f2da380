import Verif.Model.Models
import Verif.Lemmas.Session

/-! # Lemmas for `Model/Models.lean` -/

namespace Chimp

variable {W D I P : Type}

/-! ### Registries -/

theorem ModelReg.find_cons (e : String × Option P) (r : ModelReg P) (n : String) :
    ModelReg.find (e :: r) n = if e.1 = n then some e.2 else ModelReg.find r n := by
  unfold ModelReg.find
  rw [List.find?_cons]
  by_cases h : e.1 = n <;> simp [h]

theorem ModelReg.find_filter (r : ModelReg P) (n m : String) :
    ModelReg.find (r.filter fun e => e.1 ≠ n) m = if m = n then none else r.find m := by
  induction r with
  | nil => simp [ModelReg.find]
  | cons e r ih =>
    by_cases h : e.1 = n
    · rw [List.filter_cons_of_neg (by simpa using h), ih, ModelReg.find_cons]
      by_cases hm : m = n
      · simp [hm]
      · rw [if_neg hm, if_neg hm, if_neg (by rw [h]; exact fun hh => hm hh.symm)]
    · rw [List.filter_cons_of_pos (by simpa using h), ModelReg.find_cons, ModelReg.find_cons, ih]
      by_cases he : e.1 = m
      · rw [if_pos he, if_pos he, if_neg (by rw [← he]; exact h)]
      · rw [if_neg he, if_neg he]

theorem ModelReg.find_set (r : ModelReg P) (n m : String) (p : P) :
    (r.set n p).find m = if m = n then some (some p) else r.find m := by
  unfold ModelReg.set
  rw [ModelReg.find_cons, ModelReg.find_filter]
  by_cases h : m = n
  · simp [h]
  · rw [if_neg (fun hh => h hh.symm), if_neg h, if_neg h]

theorem ModelReg.find_erase (r : ModelReg P) (n m : String) :
    (r.erase n).find m = if m = n then none else r.find m := ModelReg.find_filter r n m

theorem ModelReg.find_read (r : ModelReg P) (n m : String) :
    (r.read n).find m = if m = n then some ((r.find n).getD none) else r.find m := by
  unfold ModelReg.read
  cases h : r.find n with
  | some q =>
    dsimp only
    by_cases hm : m = n
    · subst hm; rw [h]; simp
    · rw [if_neg hm]
  | none =>
    dsimp only
    rw [ModelReg.find_cons]
    by_cases hm : m = n
    · subst hm; simp
    · rw [if_neg hm, if_neg (fun hh => hm hh.symm)]

theorem ModelReg.mem_names (r : ModelReg P) (n : String) : n ∈ r.names ↔ r.find n ≠ none := by
  induction r with
  | nil => simp [ModelReg.names, ModelReg.find]
  | cons e r ih =>
    rw [ModelReg.find_cons]
    unfold ModelReg.names at ih ⊢
    rw [List.map_cons, List.mem_cons, ih]
    by_cases h : e.1 = n
    · simp [h]
    · rw [if_neg h]
      constructor
      · rintro (h' | h')
        · exact absurd h'.symm h
        · exact h'
      · exact .inr

/-! ### Loading -/

theorem callProto_ok {p : Option (Option P)} {α : Type} {f : P → Except UErr α} {x : α} :
    callProto p f = .ok x ↔ ∃ q, p = some (some q) ∧ f q = .ok x := by
  unfold callProto
  split
  · simp
  · simp
  · simp

theorem loadEq_found {db : Registry ℝ} {cs ms : List String} {x : EqNode} {e : LEq} (h : loadEq db cs ms x = .ok e) :
    e.csModel ∈ cs ∧ e.model ∈ ms ∧ e.csModel = x.csModel ∧ (∀ m, x.modelAttr = some m → e.model = m) ∧
      (x.modelAttr = none → e.model = "elastic" ∨ e.model = "inelastic") := by
  unfold loadEq at h
  split at h
  · cases h
  split at h
  · cases h
  split at h
  · cases h
  split at h
  · cases h
  split at h
  · cases h
  split at h
  · split at h
    · obtain rfl := Except.ok.inj h
      rename_i h1 h2
      refine ⟨h1, h2, rfl, fun m hm => ?_, fun hm => ?_⟩
      · simp [chooseModel, hm]
      · simp only [chooseModel, hm, Option.getD_none]
        split <;> simp
    · cases h
  · cases h

/-- The result of `loadEq` for lists of names that agree on the names of the element. -/
theorem loadEq_congr {db : Registry ℝ} {cs ms cs' ms' : List String} {x : EqNode}
    (h1 : x.csModel ∈ cs ↔ x.csModel ∈ cs')
    (h2 : ∀ m, (x.modelAttr = some m ∨ (x.modelAttr = none ∧ (m = "elastic" ∨ m = "inelastic"))) → (m ∈ ms ↔ m ∈ ms')) :
    loadEq db cs ms x = loadEq db cs' ms' x := by
  have h3 : ∀ ins outs : SideMap ℝ, chooseModel x ins outs ∈ ms ↔ chooseModel x ins outs ∈ ms' := by
    intro ins outs
    apply h2
    unfold chooseModel
    cases hm : x.modelAttr with
    | some m => left; simp
    | none =>
      right
      refine ⟨rfl, ?_⟩
      rw [Option.getD_none]
      split <;> simp
  unfold loadEq
  simp only [h1, h3]

theorem completeU_ok {cr : ModelReg (CSProto D)} {ir : ModelReg (IProto D I)} {db : Registry ℝ} {e : LEq} {d : D}
    {w : UEq I} : completeU cr ir db e d = .ok w ↔ w.eq = e ∧ ∃ a b pc pi, db[e.A.species.toNat]? = some a ∧
      db[e.B.species.toNat]? = some b ∧ w.mu = ReducedMass.mk' a.mass b.mass ∧ cr.find e.csModel = some (some pc) ∧
      ir.find e.model = some (some pi) ∧ pc d e w.mu db = .ok w.cs ∧ pi d e w.mu w.cs db = .ok w.inter := by
  unfold completeU
  split
  · rename_i a b ha hb
    split
    · rename_i x hx
      constructor
      · intro h; cases h
      · rintro ⟨-, a', b', pc, pi, h1, h2, h3, h4, -, h5, -⟩
        rw [ha] at h1; rw [hb] at h2
        cases h1; cases h2
        rw [h3] at h5
        rw [callProto_ok.2 ⟨pc, h4, h5⟩] at hx
        cases hx
    · rename_i c hc
      obtain ⟨pc, h4, h5⟩ := callProto_ok.1 hc
      split
      · rename_i x hx
        constructor
        · intro h; cases h
        · rintro ⟨-, a', b', pc', pi, h1, h2, h3, h4', h6, h5', h7⟩
          rw [ha] at h1; rw [hb] at h2
          cases h1; cases h2
          rw [h4] at h4'
          cases h4'
          rw [h3] at h5' h7
          rw [h5] at h5'
          rw [Except.ok.inj h5', callProto_ok.2 ⟨pi, h6, h7⟩] at hx
          cases hx
      · rename_i m hm
        obtain ⟨pi, h6, h7⟩ := callProto_ok.1 hm
        constructor
        · intro h
          cases h
          exact ⟨rfl, a, b, pc, pi, ha, hb, rfl, h4, h6, h5, h7⟩
        · rintro ⟨he, a', b', pc', pi', h1, h2, h3, h4', h6', h5', h7'⟩
          rw [ha] at h1; rw [hb] at h2
          cases h1; cases h2
          rw [h4] at h4'; rw [h6] at h6'
          cases h4'; cases h6'
          obtain ⟨weq, wmu, wcs, wint⟩ := w
          dsimp only at *
          subst he h3
          rw [h5] at h5'
          obtain rfl := Except.ok.inj h5'
          rw [h7] at h7'
          rw [Except.ok.inj h7']
  · rename_i hno
    constructor
    · intro h; cases h
    · rintro ⟨-, a, b, pc, pi, h1, h2, -⟩
      exact absurd h2 (hno a b h1)

theorem loadNodeU_ok {d : UDoc D} {cr : ModelReg (CSProto D)} {ir : ModelReg (IProto D I)} {db : Registry ℝ} {k : ℕ}
    {w : UEq I} : loadNodeU d cr ir db k = .ok w ↔ ∃ x, d.doc.nodes[k]? = some x ∧
      loadEq db cr.names ir.names x.node = .ok w.eq ∧ completeU cr ir db w.eq (d.inter k) = .ok w := by
  unfold loadNodeU
  split
  · rename_i h
    simp [h]
  · rename_i x hx
    split
    · rename_i e he
      constructor
      · intro h; cases h
      · rintro ⟨y, hy, h1, -⟩
        rw [hx] at hy
        cases hy
        rw [he] at h1
        cases h1
    · rename_i e he
      constructor
      · intro h
        have := (completeU_ok.1 h).1
        exact ⟨x, hx, by rw [this]; exact he, by rw [this]; exact h⟩
      · rintro ⟨y, hy, h1, h2⟩
        rw [hx] at hy
        cases hy
        rw [he] at h1
        obtain rfl := Except.ok.inj h1
        exact h2

theorem pushAllU_spec {d : UDoc D} {cr : ModelReg (CSProto D)} {ir : ModelReg (IProto D I)} {db : Registry ℝ} :
    ∀ (ks : List ℕ) (l : List (UEq I)),
    ∃ es, (pushAllU d cr ir db ks l).1 = l ++ es ∧ (∀ w ∈ es, ∃ k ∈ ks, loadNodeU d cr ir db k = .ok w) ∧
      ((pushAllU d cr ir db ks l).2 = none → List.Forall₂ (fun k w => loadNodeU d cr ir db k = .ok w) ks es) ∧
      (∀ e, (pushAllU d cr ir db ks l).2 = some e → ∃ k ∈ ks, loadNodeU d cr ir db k = .error e)
  | [], l => ⟨[], by simp [pushAllU], by simp, fun _ => .nil, by simp [pushAllU]⟩
  | k :: ks, l => by
    unfold pushAllU
    cases h : loadNodeU d cr ir db k with
    | error e =>
      exact ⟨[], by simp, by simp, by simp, fun e' he => ⟨k, List.mem_cons_self, by rw [h]; cases he; rfl⟩⟩
    | ok w =>
      dsimp only
      obtain ⟨es, h1, h2, h3, h4⟩ := pushAllU_spec (d := d) (cr := cr) (ir := ir) (db := db) ks (l ++ [w])
      refine ⟨w :: es, by rw [h1]; simp, fun x hx => ?_, fun hn => .cons h (h3 hn), fun e he => ?_⟩
      · rcases List.mem_cons.1 hx with rfl | hx
        · exact ⟨k, List.mem_cons_self, h⟩
        · obtain ⟨k', hk, hl⟩ := h2 x hx
          exact ⟨k', List.mem_cons_of_mem _ hk, hl⟩
      · obtain ⟨k', hk, hl⟩ := h4 e he
        exact ⟨k', List.mem_cons_of_mem _ hk, hl⟩

theorem fillU_spec {d : UDoc D} {cr : ModelReg (CSProto D)} {ir : ModelReg (IProto D I)} {f : Filter} {db : Registry ℝ} :
    ∀ (l : List (ℕ × ℕ)) (t : UTable (USet I)), l.Nodup → (∀ A B, (A, B) ∈ l → A ≤ B ∧ B < db.length) →
    (fillU d cr ir f db l t).1.side = t.side ∧
    (∀ A B, ∃ es, ((fillU d cr ir f db l t).1.cell A B).rhs = (t.cell A B).rhs ++ es ∧
      ∀ w ∈ es, ∃ k ∈ cellNodes d.doc f db A B, loadNodeU d cr ir db k = .ok w) ∧
    ((fillU d cr ir f db l t).2 = none → ∀ A B, (A, B) ∈ l → ∃ es,
      List.Forall₂ (fun k w => loadNodeU d cr ir db k = .ok w) (cellNodes d.doc f db A B) es ∧
      ((fillU d cr ir f db l t).1.cell A B).rhs = (t.cell A B).rhs ++ es) ∧
    (∀ A B, (A, B) ∉ l → (fillU d cr ir f db l t).1.cell A B = t.cell A B) ∧
    (∀ e, (fillU d cr ir f db l t).2 = some e → ∃ A B, (A, B) ∈ l ∧ ∃ k ∈ cellNodes d.doc f db A B,
      loadNodeU d cr ir db k = .error e)
  | [], t, _, _ => by
    simp only [fillU, List.not_mem_nil, not_false_eq_true, false_imp_iff, implies_true, true_and,
      reduceCtorEq, and_true]
    exact fun A B => ⟨[], by simp, by simp⟩
  | (A, B) :: l, t, hnd, hr => by
    rw [List.nodup_cons] at hnd
    obtain ⟨hAB, hB⟩ := hr A B List.mem_cons_self
    have ha : db[A]? = some (db[A]'(by omega)) := List.getElem?_eq_getElem (by omega)
    have hb : db[B]? = some (db[B]'hB) := List.getElem?_eq_getElem hB
    have hcn : cellNodes d.doc f db A B =
        f.apply d.doc (queryNodes d.doc db A B (db[A]'(by omega)).name (db[B]'hB).name) := by
      simp only [cellNodes, ha, hb]
    have hmin : min A B = A := min_eq_left hAB
    have hmax : max A B = B := max_eq_right hAB
    simp only [fillU, ha, hb, ← hcn, hmin, hmax]
    obtain ⟨es, p1, p2, p3, p4⟩ := pushAllU_spec (d := d) (cr := cr) (ir := ir) (db := db) (cellNodes d.doc f db A B)
      (t.cell A B).rhs
    generalize hr' : pushAllU d cr ir db (cellNodes d.doc f db A B) (t.cell A B).rhs = r at p1 p3 p4
    set t' : UTable (USet I) := t.modify A B fun _ => ⟨(Term.single A, Term.single B), r.1⟩ with ht'
    have hne : ∀ a b, (a, b) ≠ (A, B) → t'.cell a b = t.cell a b := by
      intro a b hab
      simp only [ht', UTable.modify, hmin, hmax]
      rw [if_neg (by rintro ⟨rfl, rfl⟩; exact hab rfl)]
    have hself : (t'.cell A B).rhs = (t.cell A B).rhs ++ es := by
      simp [ht', UTable.modify, hmin, hmax, p1]
    cases hr2 : r.2 with
    | some e =>
      dsimp only
      refine ⟨rfl, fun a b => ?_, by simp, fun a b hab => ?_, fun e' he' => ?_⟩
      · by_cases hab : (a, b) = (A, B)
        · cases hab
          exact ⟨es, hself, p2⟩
        · exact ⟨[], by rw [hne a b hab]; simp, by simp⟩
      · rw [List.mem_cons, not_or] at hab
        exact hne a b hab.1
      · cases he'
        exact ⟨A, B, List.mem_cons_self, p4 e hr2⟩
    | none =>
      dsimp only
      obtain ⟨i1, i2, i3, i4, i5⟩ := fillU_spec l t' hnd.2 (fun a b hab => hr a b (List.mem_cons_of_mem _ hab))
        (d := d) (cr := cr) (ir := ir) (f := f) (db := db)
      refine ⟨i1, fun a b => ?_, fun hn a b hab => ?_, fun a b hab => ?_, fun e he => ?_⟩
      · by_cases hab : (a, b) = (A, B)
        · cases hab
          exact ⟨es, by rw [i4 A B hnd.1, hself], p2⟩
        · obtain ⟨es', j1, j2⟩ := i2 a b
          exact ⟨es', by rw [j1, hne a b hab], j2⟩
      · rcases List.mem_cons.1 hab with h' | h'
        · cases h'
          exact ⟨es, p3 hr2, by rw [i4 A B hnd.1, hself]⟩
        · obtain ⟨es', j1, j2⟩ := i3 hn a b h'
          exact ⟨es', j1, by rw [j2, hne a b (by rintro h'; cases h'; exact hnd.1 ‹_›)]⟩
      · rw [List.mem_cons, not_or] at hab
        rw [i4 a b hab.2, hne a b hab.1]
      · obtain ⟨a, b, h1, h2⟩ := i5 e he
        exact ⟨a, b, List.mem_cons_of_mem _ h1, h2⟩

/-! ### Creating -/

/-- The first elastic equation of a list. -/
def FirstElasticU (l : List (UEq I)) (w : UEq I) : Prop :=
  ∃ pre post, l = pre ++ w :: post ∧ w.eq.isElastic = true ∧ ∀ x ∈ pre, x.eq.isElastic = false

/-- The cross section of `w` is made of those of `w1` and `w2`. -/
def AveragesU (T : UTools I) (w w1 w2 : UEq I) : Prop :=
  (w1.cs.label ∈ easyLabels ∧ w2.cs.label ∈ easyLabels ∧ w.cs = ⟨"averaged_diameters_easy", mkAvgEasy w1.cs.xs w2.cs.xs⟩) ∨
  (¬ (w1.cs.label ∈ easyLabels ∧ w2.cs.label ∈ easyLabels) ∧ ∃ vmax dv, 0 < vmax ∧ 0 < dv ∧
    mkAveraged T.extrapolate w1.cs.xs w2.cs.xs vmax dv w.mu.value (avgFuel vmax dv) = some (.ok w.cs.xs))

/-- The equation was created from the elastic equations that stand in the table for the species `A` and `B`. -/
def MadeInU (T : UTools I) (db : Registry ℝ) (t : UTable (USet I)) (A B : ℕ) (w : UEq I) : Prop :=
  A < B ∧ ∃ wa wb p q, FirstElasticU (t.cell A A).rhs wa ∧ FirstElasticU (t.cell B B).rhs wb ∧
    ((w.eq.A = wa.eq.A ∧ w.eq.B = wb.eq.A) ∨ (w.eq.A = wb.eq.A ∧ w.eq.B = wa.eq.A)) ∧
    w.eq.products = [w.eq.A, w.eq.B] ∧ db[w.eq.A.species.toNat]? = some p ∧ db[w.eq.B.species.toNat]? = some q ∧
    p.mass ≤ q.mass ∧ w.mu = ReducedMass.mk' p.mass q.mass ∧ w.inter = T.elastic w.mu ∧
    (AveragesU T w wa wb ∨ AveragesU T w wb wa)

/-- `t'` arises from `t` by adding equations at the ends of entries. -/
def GrowsU (t t' : UTable (USet I)) : Prop :=
  t'.side = t.side ∧ ∀ A B, ∃ l, (t'.cell A B).rhs = (t.cell A B).rhs ++ l

theorem GrowsU.refl (t : UTable (USet I)) : GrowsU t t := ⟨rfl, fun _ _ => ⟨[], by simp⟩⟩

theorem GrowsU.trans {t t' t'' : UTable (USet I)} (h : GrowsU t t') (h' : GrowsU t' t'') : GrowsU t t'' := by
  refine ⟨h'.1.trans h.1, fun A B => ?_⟩
  obtain ⟨l, hl⟩ := h.2 A B
  obtain ⟨l', hl'⟩ := h'.2 A B
  exact ⟨l ++ l', by rw [hl', hl, List.append_assoc]⟩

theorem FirstElasticU.append {l : List (UEq I)} {w : UEq I} (h : FirstElasticU l w) (m : List (UEq I)) :
    FirstElasticU (l ++ m) w := by
  obtain ⟨a, b, rfl, h1, h2⟩ := h
  exact ⟨a, b ++ m, by simp, h1, h2⟩

theorem MadeInU.mono {T : UTools I} {db : Registry ℝ} {t t' : UTable (USet I)} {A B : ℕ} {w : UEq I}
    (hA : ∃ l, (t'.cell A A).rhs = (t.cell A A).rhs ++ l) (hB : ∃ l, (t'.cell B B).rhs = (t.cell B B).rhs ++ l)
    (h : MadeInU T db t A B w) : MadeInU T db t' A B w := by
  obtain ⟨h1, wa, wb, p, q, h3, h4, h5⟩ := h
  obtain ⟨la, hla⟩ := hA
  obtain ⟨lb, hlb⟩ := hB
  exact ⟨h1, wa, wb, p, q, by rw [hla]; exact h3.append la, by rw [hlb]; exact h4.append lb, h5⟩

theorem getElasticU_iff (s : USet I) (w : UEq I) : s.getElastic = some w ↔ FirstElasticU s.rhs w := by
  unfold USet.getElastic FirstElasticU
  rw [List.find?_eq_some_iff_append]
  constructor
  · rintro ⟨h, as, bs, h1, h2⟩
    exact ⟨as, bs, h1, h, fun x hx => by simpa using h2 x hx⟩
  · rintro ⟨as, bs, h1, h, h2⟩
    exact ⟨h, as, bs, h1, fun x hx => by simpa using h2 x hx⟩

theorem pushEqU_cell (t : UTable (USet I)) (a b : ℕ) (w : UEq I) (A B : ℕ) :
    ((pushEqU t a b w).cell A B).rhs = (t.cell A B).rhs ++ (if A = min a b ∧ B = max a b then [w] else []) := by
  unfold pushEqU UTable.modify
  dsimp only
  split
  · rfl
  · simp

theorem pushEqU_grows (t : UTable (USet I)) (a b : ℕ) (w : UEq I) : GrowsU t (pushEqU t a b w) :=
  ⟨rfl, fun A B => ⟨_, pushEqU_cell t a b w A B⟩⟩

theorem getU_some {t : UTable (USet I)} {a b : ℕ} {s : USet I} (h : t.get? a b = some s) :
    a < t.side ∧ b < t.side ∧ s = t.cell (min a b) (max a b) := by
  unfold UTable.get? at h
  split at h
  · rename_i h'
    exact ⟨h'.1, h'.2, (Option.some.inj h).symm⟩
  · cases h

theorem orderByMass_some {db : Registry ℝ} {a b A B : Term} {p q : Props ℝ} (h : orderByMass db a b = some (A, B))
    (hp : db[A.species.toNat]? = some p) (hq : db[B.species.toNat]? = some q) :
    ((A = a ∧ B = b) ∨ (A = b ∧ B = a)) ∧ p.mass ≤ q.mass := by
  unfold orderByMass at h
  split at h
  · cases h
  split at h
  · rename_i x y hx hy
    split at h
    · rename_i hm
      cases h
      rw [hx] at hp; rw [hy] at hq
      cases hp; cases hq
      exact ⟨.inl ⟨rfl, rfl⟩, hm⟩
    · rename_i hm
      cases h
      rw [hy] at hp; rw [hx] at hq
      cases hp; cases hq
      exact ⟨.inr ⟨rfl, rfl⟩, (not_le.1 hm).le⟩
  · cases h

theorem cmStepU_spec {T : UTools I} {db : Registry ℝ} {vmax dv : ℝ} {t t' : UTable (USet I)} {a b : ℕ} {added : Bool}
    (h : cmStepU T db vmax dv t a b = .ok (t', added)) :
    t' = t ∨ ∃ w, t' = pushEqU t a b w ∧ MadeInU T db t (min a b) (max a b) w := by
  unfold cmStepU at h
  split at h
  · rename_i sii sjj sij hii hjj hij
    split at h
    · rename_i hel
      simp only [Bool.and_eq_true, Bool.not_eq_true'] at hel
      obtain ⟨-, -, rfl⟩ := getU_some hij
      obtain ⟨-, -, eii⟩ := getU_some hii
      obtain ⟨-, -, ejj⟩ := getU_some hjj
      simp only [min_self, max_self] at eii ejj
      have hne : a ≠ b := by
        rintro rfl
        simp only [min_self, max_self] at hel
        rw [eii] at hel
        rw [hel.1.2] at hel
        exact absurd hel.1.1 (by simp)
      split at h
      · rename_i wi wj hwi hwj
        rw [getElasticU_iff, eii] at hwi
        rw [getElasticU_iff, ejj] at hwj
        split at h
        · cases h
        split at h
        · cases h
        rename_i A B hAB
        split at h
        · rename_i p q hp hq
          obtain ⟨hord, hm⟩ := orderByMass_some hAB hp hq
          have key : ∀ w : UEq I, w.eq.A = A → w.eq.B = B → w.eq.products = [A, B] →
              w.mu = ReducedMass.mk' p.mass q.mass → w.inter = T.elastic w.mu → AveragesU T w wi wj →
              MadeInU T db t (min a b) (max a b) w := by
            intro w e1 e2 e3 e4 e5 e6
            refine ⟨by omega, ?_⟩
            rcases Nat.lt_or_gt_of_ne hne with hlt | hlt
            · rw [min_eq_left hlt.le, max_eq_right hlt.le]
              exact ⟨wi, wj, p, q, hwi, hwj, by rw [e1, e2]; exact hord, by rw [e1, e2, e3], by rw [e1]; exact hp,
                by rw [e2]; exact hq, hm, e4, e5, .inl e6⟩
            · rw [min_eq_right hlt.le, max_eq_left hlt.le]
              exact ⟨wj, wi, p, q, hwj, hwi, by rw [e1, e2]; exact hord.symm, by rw [e1, e2, e3], by rw [e1]; exact hp,
                by rw [e2]; exact hq, hm, e4, e5, .inr e6⟩
          dsimp only at h
          split at h
          · rename_i he
            cases h
            exact .inr ⟨_, rfl, key _ rfl rfl rfl rfl rfl (.inl ⟨he.1, he.2, rfl⟩)⟩
          · rename_i he
            split at h
            · rename_i hpos
              split at h
              · cases h
              · cases h
              · rename_i c hc
                cases h
                exact .inr ⟨_, rfl, key _ rfl rfl rfl rfl rfl (.inr ⟨he, vmax, dv, hpos.1, hpos.2, hc⟩)⟩
            · cases h
              exact .inl rfl
        · cases h
      · cases h
    · cases h
      exact .inl rfl
  · cases h

theorem cmLoopU_spec {T : UTools I} {db : Registry ℝ} {vmax dv : ℝ} : ∀ (l : List (ℕ × ℕ)) (t : UTable (USet I)) (n : ℕ),
    (cmLoopU T db vmax dv l t n).1.side = t.side ∧ ∀ A B, ∃ es,
      ((cmLoopU T db vmax dv l t n).1.cell A B).rhs = (t.cell A B).rhs ++ es ∧
      ∀ w ∈ es, MadeInU T db (cmLoopU T db vmax dv l t n).1 A B w
  | [], t, n => ⟨rfl, fun A B => ⟨[], by simp [cmLoopU], by simp⟩⟩
  | (a, b) :: l, t, n => by
    unfold cmLoopU
    split
    · exact ⟨rfl, fun A B => ⟨[], by simp, by simp⟩⟩
    · rename_i t' added hs
      obtain ⟨h1, h2⟩ := cmLoopU_spec (T := T) (db := db) (vmax := vmax) (dv := dv) l t' (if added then n + 1 else n)
      rcases cmStepU_spec hs with rfl | ⟨w, rfl, hw⟩
      · exact ⟨h1, h2⟩
      · refine ⟨h1, fun A B => ?_⟩
        obtain ⟨es, e1, e2⟩ := h2 A B
        refine ⟨_, by rw [e1, pushEqU_cell, List.append_assoc], fun x hx => ?_⟩
        rcases List.mem_append.1 hx with hx | hx
        · split at hx
          · rename_i hAB
            obtain rfl := List.mem_singleton.1 hx
            obtain ⟨hA, hB⟩ := hAB
            have hg : ∀ C, ∃ m, ((cmLoopU T db vmax dv l (pushEqU t a b x) (if added then n + 1 else n)).1.cell C C).rhs =
                (t.cell C C).rhs ++ m := by
              intro C
              obtain ⟨m, m1, -⟩ := h2 C C
              obtain ⟨m', m2⟩ := (pushEqU_grows t a b x).2 C C
              exact ⟨m' ++ m, by rw [m1, m2, List.append_assoc]⟩
            rw [hA, hB]
            exact hw.mono (hg _) (hg _)
          · cases hx
        · exact e2 x hx

/-! ### The library's own models -/

/-- The objects of an equation of `Model/Session.lean`. -/
def WEq.toU (w : WEq W) : UEq (LibModel W) :=
  ⟨w.eq, w.mu, ⟨w.eq.csModel, w.cs⟩, match w.model with
    | .elastic => .elastic w.mu
    | .vss k => .vss w.mu k
    | .inelastic m => .inelastic m⟩

def WSet.toU (s : WSet W) : USet (LibModel W) := ⟨s.lhs, s.rhs.map WEq.toU⟩

def tableU (t : UTable (WSet W)) : UTable (USet (LibModel W)) := ⟨t.side, fun a b => (t.cell a b).toU⟩

def SDoc.toU (d : SDoc) : UDoc InterDoc := ⟨d.doc, d.inter, d.particles, d.models⟩

/-- A database of `Model/Session.lean` with the registries of the library. -/
noncomputable def Session.toU (T : Tools W) (s : Session W) : USession InterDoc (LibModel W) :=
  ⟨s.doc.toU, s.filter, s.dflt, libCSReg T, libIReg T, s.props, tableU s.table⟩

def Call.toU : Call → UCall InterDoc (LibModel W)
  | .document d => .document d.toU
  | .filter f => .filter f
  | .defaults d => .defaults d
  | .add p => .add p
  | .addNames ns => .addNames ns
  | .addModel m => .addModel m
  | .init => .init
  | .create i j vmax dv => .create i j vmax dv
  | .createNames i j vmax dv => .createNames i j vmax dv

def liftE {α β : Type} (f : α → β) : Except SErr α → Except UErr β
  | .error e => .error (.lib e)
  | .ok a => .ok (f a)

theorem libCSReg_find (T : Tools W) (n : String) :
    (libCSReg T).find n = if n ∈ csNames then some (some (libCS T n)) else none := by
  unfold libCSReg csNames
  simp only [ModelReg.find_set, List.mem_cons, List.not_mem_nil, or_false]
  by_cases h1 : n = "constant"
  · subst h1; simp
  by_cases h2 : n = "inverse"
  · subst h2; simp
  by_cases h3 : n = "lotz"
  · subst h3; simp
  by_cases h4 : n = "data"
  · subst h4; simp
  by_cases h5 : n = "log"
  · subst h5; simp
  by_cases h6 : n = "vhs"
  · subst h6; simp
  simp [h1, h2, h3, h4, h5, h6, ModelReg.find]

theorem libIReg_find (T : Tools W) (n : String) : (libIReg T).find n =
    if n = "elastic" then some (some libElastic) else if n = "inelastic" then some (some (libInelastic T)) else
    if n = "vss_elastic" then some (some libVSS) else none := by
  unfold libIReg
  simp only [ModelReg.find_set]
  by_cases h1 : n = "elastic"
  · subst h1; simp
  by_cases h2 : n = "inelastic"
  · subst h2; simp
  by_cases h3 : n = "vss_elastic"
  · subst h3; simp
  simp [h1, h2, h3, ModelReg.find]

theorem mem_libCS (T : Tools W) (n : String) : n ∈ (libCSReg T).names ↔ n ∈ csNames := by
  rw [ModelReg.mem_names, libCSReg_find]
  split <;> simp [*]

theorem mem_libI (T : Tools W) (n : String) : n ∈ (libIReg T).names ↔ n ∈ modelNames := by
  rw [ModelReg.mem_names, libIReg_find]
  unfold modelNames
  by_cases h1 : n = "elastic"
  · simp [h1]
  by_cases h2 : n = "inelastic"
  · simp [h2]
  by_cases h3 : n = "vss_elastic"
  · simp [h3]
  simp [h1, h2, h3]

theorem completeU_lib (T : Tools W) (db : Registry ℝ) (e : LEq) (d : InterDoc) (h1 : e.csModel ∈ csNames)
    (h2 : e.model ∈ modelNames) : completeU (libCSReg T) (libIReg T) db e d =
      match completeEq T db e d with
      | .error x => .error (.lib (.complete x))
      | .ok w => .ok w.toU := by
  unfold completeU completeEq
  cases db[e.A.species.toNat]? with
  | none => rfl
  | some a =>
  cases db[e.B.species.toNat]? with
  | none => rfl
  | some b =>
    dsimp only
    rw [libCSReg_find, if_pos h1]
    dsimp only [callProto, libCS]
    by_cases hl : d.cs.label = e.csModel
    · rw [if_pos hl, if_pos hl]
      cases hc : d.cs.load T.solve T.extrapolate (ReducedMass.mk' a.mass b.mass).value with
      | error x => rfl
      | ok c =>
        dsimp only
        rw [libIReg_find]
        unfold loadModel
        by_cases m1 : e.model = "elastic"
        · rw [if_pos m1, if_pos m1]; rfl
        by_cases m2 : e.model = "inelastic"
        · rw [if_neg m1, if_pos m2, if_neg m1, if_neg (by rw [m2]; decide), if_pos m2]
          dsimp only [libInelastic]
          cases newLoad db T.oc e d.declared c.thrE <;> rfl
        by_cases m3 : e.model = "vss_elastic"
        · rw [if_neg m1, if_neg m2, if_pos m3, if_neg m1, if_pos m3]; rfl
        · simp [modelNames, m1, m2, m3] at h2
    · rw [if_neg hl, if_neg hl]

theorem loadNodeU_lib (T : Tools W) (d : SDoc) (db : Registry ℝ) (k : ℕ) :
    loadNodeU d.toU (libCSReg T) (libIReg T) db k = liftE WEq.toU (loadNode T d db k) := by
  unfold loadNodeU loadNode
  show (match d.doc.nodes[k]? with | none => _ | some x => _) = _
  cases d.doc.nodes[k]? with
  | none => rfl
  | some x =>
    dsimp only
    rw [loadEq_congr (cs' := csNames) (ms' := modelNames) (mem_libCS T _) (fun m _ => mem_libI T m)]
    cases he : loadEq db csNames modelNames x.node with
    | error e => rfl
    | ok e =>
      dsimp only
      obtain ⟨h1, h2, -⟩ := loadEq_found he
      rw [show d.toU.inter k = d.inter k from rfl, completeU_lib T db e _ h1 h2]
      cases completeEq T db e (d.inter k) <;> rfl

theorem pushAllU_lib (T : Tools W) (d : SDoc) (db : Registry ℝ) : ∀ (ks : List ℕ) (l : List (WEq W)),
    pushAllU d.toU (libCSReg T) (libIReg T) db ks (l.map WEq.toU) =
      ((pushAll T d db ks l).1.map WEq.toU, (pushAll T d db ks l).2.map UErr.lib)
  | [], l => rfl
  | k :: ks, l => by
    unfold pushAllU pushAll
    rw [loadNodeU_lib]
    cases loadNode T d db k with
    | error e => rfl
    | ok w =>
      dsimp only [liftE]
      rw [← pushAllU_lib T d db ks (l ++ [w]), List.map_append]
      rfl

theorem tableU_modify (t : UTable (WSet W)) (a b : ℕ) (f : WSet W → WSet W)
    (g : USet (LibModel W) → USet (LibModel W)) (h : ∀ s, (f s).toU = g s.toU) :
    tableU (t.modify a b f) = (tableU t).modify a b g := by
  unfold tableU UTable.modify
  dsimp only
  congr 1
  funext A B
  split
  · exact h _
  · rfl

theorem fillU_lib (T : Tools W) (d : SDoc) (f : Filter) (db : Registry ℝ) : ∀ (l : List (ℕ × ℕ)) (t : UTable (WSet W)),
    fillU d.toU (libCSReg T) (libIReg T) f db l (tableU t) =
      (tableU (fillW T d f db l t).1, (fillW T d f db l t).2.map UErr.lib)
  | [], t => rfl
  | (A, B) :: l, t => by
    unfold fillU fillW
    cases db[A]? with
    | none => rfl
    | some a =>
    cases db[B]? with
    | none => rfl
    | some b =>
      dsimp only
      rw [show d.toU.doc = d.doc from rfl,
        show ((tableU t).cell (min A B) (max A B)).rhs = (t.cell (min A B) (max A B)).rhs.map WEq.toU from rfl,
        pushAllU_lib]
      dsimp only
      generalize pushAll T d db (f.apply d.doc (queryNodes d.doc db A B a.name b.name))
        (t.cell (min A B) (max A B)).rhs = r
      have ht : (tableU t).modify A B (fun _ => ⟨(Term.single A, Term.single B), r.1.map WEq.toU⟩) =
          tableU (t.modify A B fun _ => ⟨(Term.single A, Term.single B), r.1⟩) :=
        (tableU_modify t A B _ _ fun _ => rfl).symm
      rw [ht]
      obtain ⟨r1, r2⟩ := r
      cases r2 with
      | some e => rfl
      | none => exact fillU_lib T d f db l _

theorem resizeU_lib (t : UTable (WSet W)) (n : ℕ) : resizeU (tableU t) n = tableU (resizeW t n) := by
  unfold resizeU resizeW tableU
  dsimp only
  congr 1
  funext a b
  split
  · rfl
  · rfl

theorem hasElastic_lib (s : WSet W) : s.toU.hasElastic = s.hasElastic := by
  unfold USet.hasElastic WSet.hasElastic WSet.toU
  rw [List.any_map]
  rfl

theorem getElastic_lib (s : WSet W) : s.toU.getElastic = s.getElastic.map WEq.toU := by
  unfold USet.getElastic WSet.getElastic WSet.toU
  rw [List.find?_map]
  rfl

theorem get?_lib (t : UTable (WSet W)) (a b : ℕ) : (tableU t).get? a b = (t.get? a b).map WSet.toU := by
  unfold UTable.get?
  rw [show (tableU t).side = t.side from rfl]
  split <;> rfl

theorem pushEqU_lib (t : UTable (WSet W)) (a b : ℕ) (w : WEq W) :
    pushEqU (tableU t) a b w.toU = tableU (pushEq t a b w) := by
  unfold pushEqU pushEq
  refine (tableU_modify t a b _ _ fun s => ?_).symm
  simp [WSet.toU]

theorem cmStepU_lib (T : Tools W) (db : Registry ℝ) (vmax dv : ℝ) (t : UTable (WSet W)) (a b : ℕ) :
    cmStepU (libTools T) db vmax dv (tableU t) a b =
      liftE (fun r => (tableU r.1, r.2)) (cmStepW T db vmax dv t a b) := by
  unfold cmStepU cmStepW
  rw [get?_lib, get?_lib, get?_lib]
  cases t.get? a a with
  | none => rfl
  | some sii =>
  cases t.get? b b with
  | none => rfl
  | some sjj =>
  cases t.get? a b with
  | none => rfl
  | some sij =>
  dsimp only [Option.map_some]
  rw [hasElastic_lib, hasElastic_lib, hasElastic_lib, getElastic_lib, getElastic_lib]
  by_cases hel : (!sij.hasElastic && sii.hasElastic && sjj.hasElastic) = true
  · rw [if_pos hel, if_pos hel]
    cases sii.getElastic with
    | none => rfl
    | some eii =>
    cases sjj.getElastic with
    | none => rfl
    | some ejj =>
    dsimp only [Option.map_some]
    rw [show eii.toU.eq = eii.eq from rfl, show ejj.toU.eq = ejj.eq from rfl]
    by_cases hb : (!eii.eq.A.eqv eii.eq.B || !ejj.eq.A.eqv ejj.eq.B || decide (eii.eq.A.n ≠ 1) || decide (ejj.eq.A.n ≠ 1)) = true
    · rw [if_pos hb, if_pos hb]; rfl
    · rw [if_neg hb, if_neg hb]
      cases orderByMass db eii.eq.A ejj.eq.A with
      | none => rfl
      | some AB =>
      obtain ⟨A, B⟩ := AB
      dsimp only
      cases db[A.species.toNat]? with
      | none => rfl
      | some p =>
      cases db[B.species.toNat]? with
      | none => rfl
      | some q =>
      dsimp only
      rw [show eii.toU.cs = ⟨eii.eq.csModel, eii.cs⟩ from rfl, show ejj.toU.cs = ⟨ejj.eq.csModel, ejj.cs⟩ from rfl]
      dsimp only
      by_cases hc : eii.eq.csModel ∈ easyLabels ∧ ejj.eq.csModel ∈ easyLabels
      · rw [if_pos hc, if_pos hc]
        dsimp only [liftE]
        rw [← pushEqU_lib]
        rfl
      · rw [if_neg hc, if_neg hc]
        by_cases hv : 0 < vmax ∧ 0 < dv
        · rw [if_pos hv, if_pos hv, show (libTools T).extrapolate = T.extrapolate from rfl]
          cases mkAveraged T.extrapolate eii.cs ejj.cs vmax dv (ReducedMass.mk' p.mass q.mass).value (avgFuel vmax dv) with
          | none => rfl
          | some r =>
            cases r with
            | error x => rfl
            | ok c =>
              dsimp only [liftE]
              rw [← pushEqU_lib]
              rfl
        · rw [if_neg hv, if_neg hv]; rfl
  · rw [if_neg hel, if_neg hel]; rfl

theorem cmLoopU_lib (T : Tools W) (db : Registry ℝ) (vmax dv : ℝ) : ∀ (l : List (ℕ × ℕ)) (t : UTable (WSet W)) (n : ℕ),
    cmLoopU (libTools T) db vmax dv l (tableU t) n =
      (tableU (cmLoopW T db vmax dv l t n).1, liftE id (cmLoopW T db vmax dv l t n).2)
  | [], t, n => rfl
  | (a, b) :: l, t, n => by
    unfold cmLoopU cmLoopW
    rw [cmStepU_lib]
    cases cmStepW T db vmax dv t a b with
    | error e => rfl
    | ok r => exact cmLoopU_lib T db vmax dv l r.1 _

theorem create_lib (T : Tools W) (i j : ℤ) (vmax dv : ℝ) (s : Session W) : (s.toU T).create (libTools T) i j vmax dv =
    ((s.create T i j vmax dv).1.toU T, liftE id (s.create T i j vmax dv).2) := by
  unfold USession.create Session.create
  dsimp only [Session.toU]
  rw [cmLoopU_lib]

theorem init_lib (T : Tools W) (auto : Bool) (s : Session W) : (s.toU T).init (libTools T) auto =
    ((s.init T auto).1.toU T, liftE id (s.init T auto).2) := by
  unfold USession.init Session.init
  dsimp only
  rw [show (s.toU T).props = s.props from rfl, show (s.toU T).table = tableU s.table from rfl,
    show (s.toU T).doc = s.doc.toU from rfl, show (s.toU T).creg = libCSReg T from rfl,
    show (s.toU T).ireg = libIReg T from rfl, show (s.toU T).filter = s.filter from rfl, resizeU_lib, fillU_lib]
  generalize fillW T s.doc s.filter (sortProps s.props) (indexPairs (sortProps s.props).length)
    (resizeW s.table (sortProps s.props).length) = r
  obtain ⟨t, e⟩ := r
  cases e with
  | some e => rfl
  | none =>
    dsimp only [Option.map_none]
    cases auto with
    | false => rfl
    | true => exact create_lib T (-1) (-1) 0 0 { s with props := sortProps s.props, table := t }

theorem addModel_lib (T : Tools W) (m : String) (s : Session W) : (s.toU T).addModel m =
    ((s.addModel m).1.toU T, liftE id (s.addModel m).2) := by
  unfold USession.addModel Session.addModel
  dsimp only
  rw [show (s.toU T).props = s.props from rfl, show (s.toU T).doc.models = s.doc.models from rfl,
    show (s.toU T).doc.particles = s.doc.particles from rfl]
  generalize addNamesLoop s.doc.particles _ s.props = r
  obtain ⟨p, e⟩ := r
  cases e with
  | some e => rfl
  | none =>
    dsimp only
    generalize (s.doc.models.filter (fun x => x.name = m)).flatMap ModelDoc.filters = fs
    match fs with
    | [] => rfl
    | [x] =>
      dsimp only
      cases loadEquationFilter x <;> rfl
    | _ :: _ :: _ => rfl

theorem run_lib (T : Tools W) (auto : Bool) (c : Call) (s : Session W) : (Call.toU c).run (libTools T) auto (s.toU T) =
    ((c.run T auto s).1.toU T, liftE id (c.run T auto s).2) := by
  cases c with
  | document d => rfl
  | filter f => rfl
  | defaults d => rfl
  | add p => rfl
  | addNames ns =>
    dsimp only [Call.toU, UCall.run, Call.run]
    rw [show (s.toU T).props = s.props from rfl, show (s.toU T).doc.particles = s.doc.particles from rfl]
    generalize addNamesLoop s.doc.particles ns s.props = r
    obtain ⟨p, e⟩ := r
    cases e <;> rfl
  | addModel m => exact addModel_lib T m s
  | init => exact init_lib T auto s
  | create i j vmax dv => exact create_lib T i j vmax dv s
  | createNames i j vmax dv => exact create_lib T _ _ vmax dv s

end Chimp
