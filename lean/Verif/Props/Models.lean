import Verif.Lemmas.Models
import Verif.Props.SessionCalls

/-!
# C94: models of the user's own

The two registries are public members of a database, and `Equation::load` finds in them the models that a document names.
The theorems hold for arbitrary prototypes, arbitrary contents of the registries at the start and arbitrary histories.
-/

namespace Chimp

variable {W D I P : Type}

/-! ## Specification -/

/-- Nothing has been added to the database yet.  The registries are arbitrary. -/
def USession.Unused (s : USession D I) : Prop := s.props = [] ∧ s.table.side = 0

/-- The call may create cross sections. -/
def UCall.Creates (auto : Bool) : UCall D I → Prop
  | .init => auto = true
  | .create _ _ _ _ => True
  | .createNames _ _ _ _ => True
  | _ => False

/-- `w` is what the prototypes registered in `s` under the names in the `k`th `Interaction` make of it: `csModel` for the
cross section, and for the interaction the attribute `model` or else `elastic` or `inelastic`. -/
def LoadedBy (s : USession D I) (db : Registry ℝ) (k : ℕ) (w : UEq I) : Prop :=
  ∃ x a b pc pi, s.doc.doc.nodes[k]? = some x ∧
    loadEq db s.creg.names s.ireg.names ⟨x.ins, x.outs, x.csModel, x.modelAttr⟩ = .ok w.eq ∧
    (∀ m, x.modelAttr = some m → w.eq.model = m) ∧
    (x.modelAttr = none → w.eq.model = "elastic" ∨ w.eq.model = "inelastic") ∧
    s.creg.find x.csModel = some (some pc) ∧ s.ireg.find w.eq.model = some (some pi) ∧
    db[w.eq.A.species.toNat]? = some a ∧ db[w.eq.B.species.toNat]? = some b ∧ w.mu = ReducedMass.mk' a.mass b.mass ∧
    pc (s.doc.inter k) w.eq w.mu db = .ok w.cs ∧ pi (s.doc.inter k) w.eq w.mu w.cs db = .ok w.inter

/-- The `k`th `Interaction` is wanted for the species `A` and `B` and kept by the filter. -/
def WantedKept (s : USession D I) (db : Registry ℝ) (A B k : ℕ) : Prop :=
  ∃ a b, db[A]? = some a ∧ db[B]? = some b ∧
    (CleanNames s.doc.doc s.props → s.filter.Keeps s.doc.doc (Wanted s.doc.doc db a.name b.name) k)

/-- Of a kind, by its own label, whose averages are formed at every speed. -/
def EasyLabel (c : CSObj) : Prop := c.label = "vhs" ∨ c.label = "log" ∨ c.label = "constant" ∨ c.label = "inverse"

/-- The first elastic equation for a species with itself. -/
def FirstElasticOf (s : USession D I) (A : ℕ) (w : UEq I) : Prop :=
  ∃ pre post, s.eqs A A = pre ++ w :: post ∧ w.eq.isElastic = true ∧ ∀ x ∈ pre, x.eq.isElastic = false

/-- `w` was created from the elastic equations for `A` and `B`: it has their reactants, the lighter first, both as
products, the reduced mass, the library's elastic model and the mean of the diameters. -/
def CreatedFrom (T : UTools I) (s : USession D I) (A B : ℕ) (w : UEq I) : Prop :=
  A < B ∧ ∃ wa wb p q, FirstElasticOf s A wa ∧ FirstElasticOf s B wb ∧
    ((w.eq.A = wa.eq.A ∧ w.eq.B = wb.eq.A) ∨ (w.eq.A = wb.eq.A ∧ w.eq.B = wa.eq.A)) ∧
    w.eq.products = [w.eq.A, w.eq.B] ∧ s.props[w.eq.A.species.toNat]? = some p ∧
    s.props[w.eq.B.species.toNat]? = some q ∧ p.mass ≤ q.mass ∧ w.mu = ReducedMass.mk' p.mass q.mass ∧
    w.inter = T.elastic w.mu ∧
    (EasyLabel wa.cs ∧ EasyLabel wb.cs → ∀ v x y, wa.cs.xs.sigma v = .ok x → 0 ≤ x → wb.cs.xs.sigma v = .ok y → 0 ≤ y →
      MeanDiameter wa.cs.xs wb.cs.xs w.cs.xs v) ∧
    (¬ (EasyLabel wa.cs ∧ EasyLabel wb.cs) → ∃ vmax dv : ℝ, 0 < vmax ∧ 0 < dv ∧ ∀ k : ℕ,
      0 < vmax + 1 / 2 * dv - k * dv → MeanDiameter wa.cs.xs wb.cs.xs w.cs.xs (vmax + 1 / 2 * dv - k * dv))

/-- The call puts a cross section model into the registry under `n` or takes one out. -/
def UCall.ChangesCS (n : String) : UCall D I → Prop
  | .setCS m _ => m = n
  | .eraseCS m => m = n
  | _ => False

/-- The call puts an interaction model into the registry under `n` or takes one out. -/
def UCall.ChangesModel (n : String) : UCall D I → Prop
  | .setModel m _ => m = n
  | .eraseModel m => m = n
  | _ => False

/-! ## Lemmas -/

theorem runU_append (T : UTools I) (auto : Bool) (a b : List (UCall D I)) (s : USession D I) :
    runU T auto (a ++ b) s = runU T auto b (runU T auto a s) := List.foldl_append

theorem addModelU_fields (m : String) (s : USession D I) : (s.addModel m).1.table = s.table ∧
    (s.addModel m).1.creg = s.creg ∧ (s.addModel m).1.ireg = s.ireg ∧ (s.addModel m).1.doc = s.doc ∧
    ∃ ns, (s.addModel m).1.props = (addNamesLoop s.doc.particles ns s.props).1 := by
  unfold USession.addModel
  dsimp only
  split
  · exact ⟨rfl, rfl, rfl, rfl, _, rfl⟩
  · split
    · split <;> exact ⟨rfl, rfl, rfl, rfl, _, rfl⟩
    · exact ⟨rfl, rfl, rfl, rfl, _, rfl⟩
    · exact ⟨rfl, rfl, rfl, rfl, _, rfl⟩

theorem initU_regs (T : UTools I) (auto : Bool) (s : USession D I) : (s.init T auto).1.creg = s.creg ∧
    (s.init T auto).1.ireg = s.ireg ∧ (s.init T auto).1.doc = s.doc ∧ (s.init T auto).1.props = sortProps s.props := by
  unfold USession.init
  dsimp only
  split
  · exact ⟨rfl, rfl, rfl, rfl⟩
  · split
    · exact ⟨rfl, rfl, rfl, rfl⟩
    · exact ⟨rfl, rfl, rfl, rfl⟩

/-- The registries after a call. -/
theorem runU_regs (T : UTools I) (auto : Bool) (c : UCall D I) (s : USession D I) (n : String) :
    (c.run T auto s).1.creg.find n = (match c with
      | .setCS m p => if n = m then some (some p) else s.creg.find n
      | .readCS m => if n = m then some ((s.creg.find m).getD none) else s.creg.find n
      | .eraseCS m => if n = m then none else s.creg.find n
      | _ => s.creg.find n) ∧
    (c.run T auto s).1.ireg.find n = (match c with
      | .setModel m p => if n = m then some (some p) else s.ireg.find n
      | .readModel m => if n = m then some ((s.ireg.find m).getD none) else s.ireg.find n
      | .eraseModel m => if n = m then none else s.ireg.find n
      | _ => s.ireg.find n) := by
  cases c with
  | init =>
    obtain ⟨h1, h2, -⟩ := initU_regs T auto s
    exact ⟨by show (s.init T auto).1.creg.find n = _; rw [h1], by show (s.init T auto).1.ireg.find n = _; rw [h2]⟩
  | addModel m =>
    obtain ⟨-, h1, h2, -⟩ := addModelU_fields m s
    exact ⟨by show (s.addModel m).1.creg.find n = _; rw [h1], by show (s.addModel m).1.ireg.find n = _; rw [h2]⟩
  | setCS m p => exact ⟨ModelReg.find_set _ _ _ _, rfl⟩
  | readCS m => exact ⟨ModelReg.find_read _ _ _, rfl⟩
  | eraseCS m => exact ⟨ModelReg.find_erase _ _ _, rfl⟩
  | setModel m p => exact ⟨rfl, ModelReg.find_set _ _ _ _⟩
  | readModel m => exact ⟨rfl, ModelReg.find_read _ _ _⟩
  | eraseModel m => exact ⟨rfl, ModelReg.find_erase _ _ _⟩
  | _ => exact ⟨rfl, rfl⟩

/-- What holds of every database. -/
structure UInv (s : USession D I) : Prop where
  names : NodupNames s.props
  side : s.table.side ≤ s.props.length

theorem addNamesLoop_length (doc : List (Props ℝ)) (ns : List String) (r : Registry ℝ) :
    r.length ≤ (addNamesLoop doc ns r).1.length := by
  obtain ⟨_, _, -, h, -⟩ := addNamesLoop_spec doc ns r
  exact h.keeps.length_le

theorem addType_length (r : Registry ℝ) (p : Props ℝ) : r.length ≤ (addParticleType r p).length := by
  unfold addParticleType
  split
  · exact le_rfl
  · simp

theorem createU_side (T : UTools I) (i j : ℤ) (vmax dv : ℝ) (s : USession D I) :
    (s.create T i j vmax dv).1.table.side = s.table.side := (cmLoopU_spec _ _ _).1

theorem initU_side (T : UTools I) (auto : Bool) (s : USession D I) :
    (s.init T auto).1.table.side = s.props.length := by
  have hf : (fillU s.doc s.creg s.ireg s.filter (sortProps s.props) (indexPairs (sortProps s.props).length)
      (resizeU s.table (sortProps s.props).length)).1.side = s.props.length := by
    rw [(fillU_spec _ _ (nodup_indexPairs _) fun A B h => (mem_indexPairs _ A B).1 h).1]
    exact (sortProps_perm s.props).length_eq
  unfold USession.init
  dsimp only
  split
  · exact hf
  · split
    · rw [createU_side]; exact hf
    · exact hf

theorem UInv.step {T : UTools I} {auto : Bool} {s : USession D I} (h : UInv s) (c : UCall D I) :
    UInv (c.run T auto s).1 := by
  cases c with
  | add p => exact ⟨nodupNames_add h.names p, h.side.trans (addType_length _ _)⟩
  | addNames ns => exact ⟨nodupNames_addNames _ _ _ h.names, h.side.trans (addNamesLoop_length _ _ _)⟩
  | addModel m =>
    obtain ⟨h1, -, -, -, ns, h2⟩ := addModelU_fields m s
    refine ⟨?_, ?_⟩
    · show NodupNames (s.addModel m).1.props
      rw [h2]; exact nodupNames_addNames _ _ _ h.names
    · show (s.addModel m).1.table.side ≤ (s.addModel m).1.props.length
      rw [h1, h2]; exact h.side.trans (addNamesLoop_length _ _ _)
  | init =>
    obtain ⟨-, -, -, hp⟩ := initU_regs T auto s
    refine ⟨?_, ?_⟩
    · show NodupNames (s.init T auto).1.props
      rw [hp]; exact (nodupNames_of_perm (sortProps_perm s.props)).2 h.names
    · show (s.init T auto).1.table.side ≤ (s.init T auto).1.props.length
      rw [initU_side, hp, (sortProps_perm s.props).length_eq]
  | create i j vmax dv => exact ⟨h.names, by show (s.create T i j vmax dv).1.table.side ≤ _; rw [createU_side]; exact h.side⟩
  | createNames i j vmax dv => exact ⟨h.names, by show (s.create T _ _ vmax dv).1.table.side ≤ _; rw [createU_side]; exact h.side⟩
  | _ => exact ⟨h.names, h.side⟩

theorem UInv.run {T : UTools I} {auto : Bool} {s0 : USession D I} (h : s0.Unused) (cs : List (UCall D I)) :
    UInv (runU T auto cs s0) := by
  induction cs using List.reverseRecOn with
  | nil => exact ⟨by show NodupNames s0.props; rw [h.1]; exact List.nodup_nil, by show s0.table.side ≤ _; rw [h.2]; omega⟩
  | append_singleton cs c ih => rw [runU_append]; exact ih.step c

theorem eqsU_of_le {s : USession D I} {A B : ℕ} (hAB : A ≤ B) (hB : B < s.table.side) :
    s.eqs A B = (s.table.cell A B).rhs := by
  unfold USession.eqs UTable.get?
  rw [if_pos ⟨by omega, hB⟩, min_eq_left hAB, max_eq_right hAB]

theorem eqsU_of_ge {s : USession D I} {A B : ℕ} (hB : s.table.side ≤ B) : s.eqs A B = [] := by
  unfold USession.eqs UTable.get?
  rw [if_neg (by omega)]

theorem easyLabel_iff (c : CSObj) : c.label ∈ easyLabels ↔ EasyLabel c := by
  simp [easyLabels, EasyLabel]

theorem averagesU_mean {T : UTools I} {w w1 w2 : UEq I} (h : AveragesU T w w1 w2) :
    (EasyLabel w1.cs ∧ EasyLabel w2.cs → ∀ v x y, w1.cs.xs.sigma v = .ok x → 0 ≤ x → w2.cs.xs.sigma v = .ok y → 0 ≤ y →
      MeanDiameter w1.cs.xs w2.cs.xs w.cs.xs v) ∧
    (¬ (EasyLabel w1.cs ∧ EasyLabel w2.cs) → ∃ vmax dv : ℝ, 0 < vmax ∧ 0 < dv ∧ ∀ k : ℕ,
      0 < vmax + 1 / 2 * dv - k * dv → MeanDiameter w1.cs.xs w2.cs.xs w.cs.xs (vmax + 1 / 2 * dv - k * dv)) := by
  rcases h with ⟨e1, e2, e3⟩ | ⟨hn, vmax, dv, hv, hdv, hmk⟩
  · refine ⟨fun _ v x y h1 hx h2 hy => ?_, fun hno => absurd ⟨(easyLabel_iff _).1 e1, (easyLabel_iff _).1 e2⟩ hno⟩
    refine meanDiameter_of_avg (s := 1 / 4 * (Real.sqrt x + Real.sqrt y) ^ 2) ?_ ?_
    · simp [avgSigma, h1, h2, sqrtE, hx, hy, bind, Except.bind, pure, Except.pure]
    · rw [e3]; simp [mkAvgEasy, avgSigma, h1, h2, sqrtE, hx, hy, bind, Except.bind, pure, Except.pure]
  · rw [easyLabel_iff, easyLabel_iff] at hn
    refine ⟨fun he => absurd he hn, fun _ => ⟨vmax, dv, hv, hdv, fun k hk => ?_⟩⟩
    obtain ⟨c, h1, h2⟩ := averaged_ok hdv hmk k hk
    exact meanDiameter_of_avg h1 h2

theorem MadeInU.createdFrom {T : UTools I} {s : USession D I} {A B : ℕ} {w : UEq I} (hB : B < s.table.side)
    (h : MadeInU T s.props s.table A B w) : CreatedFrom T s A B w := by
  obtain ⟨hlt, wa, wb, p, q, f1, f2, h1, h2, h3, h4, h5, h6, h7, hav⟩ := h
  refine ⟨hlt, wa, wb, p, q, ?_, ?_, h1, h2, h3, h4, h5, h6, h7, ?_⟩
  · unfold FirstElasticOf; rw [eqsU_of_le le_rfl (by omega)]; exact f1
  · unfold FirstElasticOf; rw [eqsU_of_le le_rfl hB]; exact f2
  rcases hav with hav | hav
  · exact averagesU_mean hav
  · obtain ⟨k1, k2⟩ := averagesU_mean hav
    refine ⟨fun he v x y h1 hx h2 hy => (k1 he.symm v y x h2 hy h1 hx).comm, fun hn => ?_⟩
    obtain ⟨vmax, dv, hv, hdv, hk⟩ := k2 fun he => hn he.symm
    exact ⟨vmax, dv, hv, hdv, fun k h => (hk k h).comm⟩

theorem createU_eqs {T : UTools I} {s : USession D I} (i j : ℤ) (vmax dv : ℝ) {A B : ℕ} (hAB : A ≤ B) :
    ∃ made, (s.create T i j vmax dv).1.eqs A B = s.eqs A B ++ made ∧
      ∀ w ∈ made, CreatedFrom T (s.create T i j vmax dv).1 A B w := by
  by_cases hB : B < s.table.side
  · obtain ⟨-, h⟩ := cmLoopU_spec (T := T) (db := s.props) (vmax := (effectiveRange s.dflt.vmax s.dflt.dv vmax dv).1)
      (dv := (effectiveRange s.dflt.vmax s.dflt.dv vmax dv).2) (cmPairs s.props.length i j) s.table 0
    obtain ⟨es, e1, e2⟩ := h A B
    refine ⟨es, ?_, fun w hw => MadeInU.createdFrom (by rw [createU_side]; exact hB) (e2 w hw)⟩
    rw [eqsU_of_le hAB (by rw [createU_side]; exact hB), eqsU_of_le hAB hB]
    exact e1
  · rw [not_lt] at hB
    exact ⟨[], by rw [eqsU_of_ge (by rw [createU_side]; exact hB), eqsU_of_ge hB]; rfl, by simp⟩

theorem loadNodeU_iff (s : USession D I) (db : Registry ℝ) (k : ℕ) (w : UEq I) :
    loadNodeU s.doc s.creg s.ireg db k = .ok w ↔ LoadedBy s db k w := by
  rw [loadNodeU_ok]
  constructor
  · rintro ⟨x, hx, hl, hc⟩
    obtain ⟨-, a, b, pc, pi, h1, h2, h3, h4, h5, h6, h7⟩ := completeU_ok.1 hc
    obtain ⟨-, -, g1, g2, g3⟩ := loadEq_found hl
    exact ⟨x, a, b, pc, pi, hx, hl, g2, g3, by rw [← show w.eq.csModel = x.csModel from g1]; exact h4, h5, h1, h2, h3, h6, h7⟩
  · rintro ⟨x, a, b, pc, pi, hx, hl, -, -, h4, h5, h1, h2, h3, h6, h7⟩
    obtain ⟨-, -, g1, -⟩ := loadEq_found hl
    exact ⟨x, hx, hl, completeU_ok.2 ⟨rfl, a, b, pc, pi, h1, h2, h3, by rw [show w.eq.csModel = x.csModel from g1]; exact h4,
      h5, h6, h7⟩⟩

theorem wantedKept_of_mem {s : USession D I} (h : UInv s) {A B k : ℕ} (hA : A < s.props.length) (hB : B < s.props.length)
    (hk : k ∈ cellNodes s.doc.doc s.filter (sortProps s.props) A B) : WantedKept s (sortProps s.props) A B k := by
  have hl := (sortProps_perm s.props).length_eq
  have ha : (sortProps s.props)[A]? = some ((sortProps s.props)[A]'(by omega)) := List.getElem?_eq_getElem (by omega)
  have hb : (sortProps s.props)[B]? = some ((sortProps s.props)[B]'(by omega)) := List.getElem?_eq_getElem (by omega)
  refine ⟨_, _, ha, hb, fun hc => ?_⟩
  have hn : NodupNames (sortProps s.props) := (nodupNames_of_perm (sortProps_perm s.props)).2 h.names
  have hc' : CleanNames s.doc.doc (sortProps s.props) :=
    ⟨fun p hp' => hc.1 p ((sortProps_perm s.props).mem_iff.1 hp'), hc.2⟩
  exact ((cellNodes_spec hn hc' ha hb).2 k).1 hk

/-- What a history without changes leaves under a name. -/
theorem findCS_run (T : UTools I) (auto : Bool) (n : String) : ∀ (post : List (UCall D I)) (s : USession D I),
    (∀ c ∈ post, ¬ c.ChangesCS n) →
    (∀ x, s.creg.find n = some x → (runU T auto post s).creg.find n = some x) ∧
    (s.creg.find n = none → (.readCS n ∉ post → (runU T auto post s).creg.find n = none) ∧
      (.readCS n ∈ post → (runU T auto post s).creg.find n = some none))
  | [], s, _ => ⟨fun x h => h, fun h => ⟨fun _ => h, fun h' => absurd h' List.not_mem_nil⟩⟩
  | c :: post, s, hc => by
    obtain ⟨i1, i2⟩ := findCS_run T auto n post (c.run T auto s).1 fun x hx => hc x (List.mem_cons_of_mem _ hx)
    have hn := hc c List.mem_cons_self
    have hrun : runU T auto (c :: post) s = runU T auto post (c.run T auto s).1 := rfl
    have hr := (runU_regs T auto c s n).1
    rw [hrun]
    have hsame : (∀ m, c ≠ .readCS m) → (c.run T auto s).1.creg.find n = s.creg.find n := by
      intro h
      rw [hr]
      cases c with
      | setCS m p => exact if_neg fun hh => hn hh.symm
      | eraseCS m => exact if_neg fun hh => hn hh.symm
      | readCS m => exact absurd rfl (h m)
      | _ => rfl
    by_cases hread : ∃ m, c = .readCS m
    · obtain ⟨m, rfl⟩ := hread
      dsimp only at hr
      by_cases hm : n = m
      · subst hm
        rw [if_pos rfl] at hr
        refine ⟨fun x hx => i1 x (by rw [hr, hx]; rfl), fun hx => ⟨fun h => absurd List.mem_cons_self h, fun _ => ?_⟩⟩
        exact i1 none (by rw [hr, hx]; rfl)
      · rw [if_neg hm] at hr
        refine ⟨fun x hx => i1 x (by rw [hr, hx]), fun hx => ?_⟩
        obtain ⟨j1, j2⟩ := i2 (by rw [hr, hx])
        refine ⟨fun h => j1 fun h' => h (List.mem_cons_of_mem _ h'), fun h => j2 ?_⟩
        rcases List.mem_cons.1 h with h | h
        · cases h; exact absurd rfl hm
        · exact h
    · have hs := hsame fun m hm => hread ⟨m, hm⟩
      refine ⟨fun x hx => i1 x (by rw [hs, hx]), fun hx => ?_⟩
      obtain ⟨j1, j2⟩ := i2 (by rw [hs, hx])
      refine ⟨fun h => j1 fun h' => h (List.mem_cons_of_mem _ h'), fun h => j2 ?_⟩
      rcases List.mem_cons.1 h with h | h
      · exact absurd ⟨n, h.symm⟩ hread
      · exact h

theorem findModel_run (T : UTools I) (auto : Bool) (n : String) : ∀ (post : List (UCall D I)) (s : USession D I),
    (∀ c ∈ post, ¬ c.ChangesModel n) →
    (∀ x, s.ireg.find n = some x → (runU T auto post s).ireg.find n = some x) ∧
    (s.ireg.find n = none → (.readModel n ∉ post → (runU T auto post s).ireg.find n = none) ∧
      (.readModel n ∈ post → (runU T auto post s).ireg.find n = some none))
  | [], s, _ => ⟨fun x h => h, fun h => ⟨fun _ => h, fun h' => absurd h' List.not_mem_nil⟩⟩
  | c :: post, s, hc => by
    obtain ⟨i1, i2⟩ := findModel_run T auto n post (c.run T auto s).1 fun x hx => hc x (List.mem_cons_of_mem _ hx)
    have hn := hc c List.mem_cons_self
    have hrun : runU T auto (c :: post) s = runU T auto post (c.run T auto s).1 := rfl
    have hr := (runU_regs T auto c s n).2
    rw [hrun]
    have hsame : (∀ m, c ≠ .readModel m) → (c.run T auto s).1.ireg.find n = s.ireg.find n := by
      intro h
      rw [hr]
      cases c with
      | setModel m p => exact if_neg fun hh => hn hh.symm
      | eraseModel m => exact if_neg fun hh => hn hh.symm
      | readModel m => exact absurd rfl (h m)
      | _ => rfl
    by_cases hread : ∃ m, c = .readModel m
    · obtain ⟨m, rfl⟩ := hread
      dsimp only at hr
      by_cases hm : n = m
      · subst hm
        rw [if_pos rfl] at hr
        refine ⟨fun x hx => i1 x (by rw [hr, hx]; rfl), fun hx => ⟨fun h => absurd List.mem_cons_self h, fun _ => ?_⟩⟩
        exact i1 none (by rw [hr, hx]; rfl)
      · rw [if_neg hm] at hr
        refine ⟨fun x hx => i1 x (by rw [hr, hx]), fun hx => ?_⟩
        obtain ⟨j1, j2⟩ := i2 (by rw [hr, hx])
        refine ⟨fun h => j1 fun h' => h (List.mem_cons_of_mem _ h'), fun h => j2 ?_⟩
        rcases List.mem_cons.1 h with h | h
        · cases h; exact absurd rfl hm
        · exact h
    · have hs := hsame fun m hm => hread ⟨m, hm⟩
      refine ⟨fun x hx => i1 x (by rw [hs, hx]), fun hx => ?_⟩
      obtain ⟨j1, j2⟩ := i2 (by rw [hs, hx])
      refine ⟨fun h => j1 fun h' => h (List.mem_cons_of_mem _ h'), fun h => j2 ?_⟩
      rcases List.mem_cons.1 h with h | h
      · exact absurd ⟨n, h.symm⟩ hread
      · exact h

/-- The new equations of an initialisation before any are created. -/
theorem fillU_eqs {s : USession D I} (h : UInv s) {A B : ℕ} (hAB : A ≤ B) :
    ∃ loaded, ({ s with props := sortProps s.props, table := (fillU s.doc s.creg s.ireg s.filter (sortProps s.props)
        (indexPairs (sortProps s.props).length) (resizeU s.table (sortProps s.props).length)).1 } : USession D I).eqs A B =
      s.eqs A B ++ loaded ∧
      (∀ w ∈ loaded, ∃ k, WantedKept s (sortProps s.props) A B k ∧ LoadedBy s (sortProps s.props) k w) ∧
      (B < s.props.length → (fillU s.doc s.creg s.ireg s.filter (sortProps s.props)
          (indexPairs (sortProps s.props).length) (resizeU s.table (sortProps s.props).length)).2 = none →
        List.Forall₂ (LoadedBy s (sortProps s.props)) (cellNodes s.doc.doc s.filter (sortProps s.props) A B) loaded) := by
  have hl := (sortProps_perm s.props).length_eq
  obtain ⟨f1, f2, f3, -, -⟩ := fillU_spec (d := s.doc) (cr := s.creg) (ir := s.ireg) (f := s.filter)
    (db := sortProps s.props) (indexPairs (sortProps s.props).length)
    (resizeU s.table (sortProps s.props).length) (nodup_indexPairs _) (fun A B hAB => (mem_indexPairs _ A B).1 hAB)
  by_cases hB : B < s.props.length
  · have hold : ((resizeU s.table (sortProps s.props).length).cell A B).rhs = s.eqs A B := by
      unfold resizeU
      dsimp only
      by_cases hB' : B < s.table.side
      · rw [if_pos hB', eqsU_of_le hAB hB']
      · rw [if_neg hB', eqsU_of_ge (by omega)]
    have hnew : ∀ r : UTable (USet I), r.side = (sortProps s.props).length →
        ({ s with props := sortProps s.props, table := r } : USession D I).eqs A B = (r.cell A B).rhs := by
      intro r hr
      rw [eqsU_of_le hAB (by show B < r.side; omega)]
    obtain ⟨es, e1, e2⟩ := f2 A B
    by_cases hn : (fillU s.doc s.creg s.ireg s.filter (sortProps s.props) (indexPairs (sortProps s.props).length)
        (resizeU s.table (sortProps s.props).length)).2 = none
    · obtain ⟨es', g1, g2⟩ := f3 hn A B ((mem_indexPairs _ A B).2 ⟨hAB, by omega⟩)
      rw [e1] at g2
      obtain rfl := List.append_cancel_left g2
      refine ⟨es, by rw [hnew _ f1, e1, hold], fun w hw => ?_, fun _ _ => ?_⟩
      · obtain ⟨k, hk, hw'⟩ := e2 w hw
        exact ⟨k, wantedKept_of_mem h (by omega) hB hk, (loadNodeU_iff s _ k w).1 hw'⟩
      · exact g1.imp fun k w hkw => (loadNodeU_iff s _ k w).1 hkw
    · refine ⟨es, by rw [hnew _ f1, e1, hold], fun w hw => ?_, fun _ h' => absurd h' hn⟩
      obtain ⟨k, hk, hw'⟩ := e2 w hw
      exact ⟨k, wantedKept_of_mem h (by omega) hB hk, (loadNodeU_iff s _ k w).1 hw'⟩
  · refine ⟨[], ?_, by simp, fun h' => absurd h' hB⟩
    rw [eqsU_of_ge (by show (fillU _ _ _ _ _ _ _).1.side ≤ B; rw [f1]; show (sortProps s.props).length ≤ B; omega),
      eqsU_of_ge (by have := h.side; omega)]
    rfl

/-! ## C94 -/

/-- **C94**  What is registered under a name: what was put there last.  After a history without a call that puts in or
takes out a model under the name, what was there before is there still; and if there was nothing, there is nothing, or,
if the entry was read, a null pointer. -/
theorem C94_registered (T : UTools I) (auto : Bool) (n : String) (s : USession D I) (post : List (UCall D I)) :
    ((∀ c ∈ post, ¬ c.ChangesCS n) →
      (∀ p, (runU T auto (.setCS n p :: post) s).creg.find n = some (some p)) ∧
      (∀ x, s.creg.find n = some x → (runU T auto post s).creg.find n = some x) ∧
      (.readCS n ∉ post → (runU T auto (.eraseCS n :: post) s).creg.find n = none ∧
        (s.creg.find n = none → (runU T auto post s).creg.find n = none)) ∧
      (.readCS n ∈ post → (runU T auto (.eraseCS n :: post) s).creg.find n = some none ∧
        (s.creg.find n = none → (runU T auto post s).creg.find n = some none))) ∧
    ((∀ c ∈ post, ¬ c.ChangesModel n) →
      (∀ p, (runU T auto (.setModel n p :: post) s).ireg.find n = some (some p)) ∧
      (∀ x, s.ireg.find n = some x → (runU T auto post s).ireg.find n = some x) ∧
      (.readModel n ∉ post → (runU T auto (.eraseModel n :: post) s).ireg.find n = none ∧
        (s.ireg.find n = none → (runU T auto post s).ireg.find n = none)) ∧
      (.readModel n ∈ post → (runU T auto (.eraseModel n :: post) s).ireg.find n = some none ∧
        (s.ireg.find n = none → (runU T auto post s).ireg.find n = some none))) := by
  constructor
  · intro h
    have key := fun s => findCS_run T auto n post s h
    have hset : ∀ p, ((UCall.setCS n p : UCall D I).run T auto s).1.creg.find n = some (some p) := fun p => by
      rw [(runU_regs T auto _ s n).1]; exact if_pos rfl
    have her : ((UCall.eraseCS n : UCall D I).run T auto s).1.creg.find n = none := by
      rw [(runU_regs T auto _ s n).1]; exact if_pos rfl
    exact ⟨fun p => (key _).1 _ (hset p), (key s).1,
      fun hr => ⟨((key _).2 her).1 hr, fun hs => ((key s).2 hs).1 hr⟩,
      fun hr => ⟨((key _).2 her).2 hr, fun hs => ((key s).2 hs).2 hr⟩⟩
  · intro h
    have key := fun s => findModel_run T auto n post s h
    have hset : ∀ p, ((UCall.setModel n p : UCall D I).run T auto s).1.ireg.find n = some (some p) := fun p => by
      rw [(runU_regs T auto _ s n).2]; exact if_pos rfl
    have her : ((UCall.eraseModel n : UCall D I).run T auto s).1.ireg.find n = none := by
      rw [(runU_regs T auto _ s n).2]; exact if_pos rfl
    exact ⟨fun p => (key _).1 _ (hset p), (key s).1,
      fun hr => ⟨((key _).2 her).1 hr, fun hs => ((key s).2 hs).1 hr⟩,
      fun hr => ⟨((key _).2 her).2 hr, fun hs => ((key s).2 hs).2 hr⟩⟩

/-- **C94**  `Equation::load` makes exactly the equations whose objects come from the prototypes registered under the names
that the element gives.  Otherwise it throws: because the terms cannot be loaded, because one of the names is not
registered, or because a prototype throws; or it calls through a null pointer that is registered under one of the names. -/
theorem C94_load (s : USession D I) (db : Registry ℝ) (hnd : NodupNames db) (k : ℕ) :
    (∀ w, loadNodeU s.doc s.creg s.ireg db k = .ok w ↔ LoadedBy s db k w) ∧
    (∀ x, s.doc.doc.nodes[k]? = some x →
      (s.creg.find x.csModel = none ∨ (∃ m, x.modelAttr = some m ∧ s.ireg.find m = none) →
        ∃ l, loadNodeU s.doc s.creg s.ireg db k = .error (.lib (.load l))) ∧
      ∀ e, (∀ t ∈ x.ins, 0 < t.mult) → loadNodeU s.doc s.creg s.ireg db k = .error e →
        (∃ l, e = .lib (.load l) ∧
          loadEq db s.creg.names s.ireg.names ⟨x.ins, x.outs, x.csModel, x.modelAttr⟩ = .error l) ∨
        ∃ q, loadEq db s.creg.names s.ireg.names ⟨x.ins, x.outs, x.csModel, x.modelAttr⟩ = .ok q ∧
          ((s.creg.find x.csModel = some none ∧ e = .null) ∨
           (s.ireg.find q.model = some none ∧ e = .null) ∨
           (∃ pc mu, s.creg.find x.csModel = some (some pc) ∧ pc (s.doc.inter k) q mu db = .error e) ∨
           ∃ pi mu c, s.ireg.find q.model = some (some pi) ∧ pi (s.doc.inter k) q mu c db = .error e)) := by
  refine ⟨fun w => loadNodeU_iff s db k w, fun x hx => ⟨fun hno => ?_, fun e hpos he => ?_⟩⟩
  · unfold loadNodeU
    rw [hx]
    dsimp only
    cases hl : loadEq db s.creg.names s.ireg.names x.node with
    | error l => exact ⟨l, rfl⟩
    | ok q =>
      obtain ⟨g1, g2, g3, g4, -⟩ := loadEq_found hl
      rcases hno with h | ⟨m, hm, h⟩
      · exact absurd h ((ModelReg.mem_names _ _).1 (by rw [← show q.csModel = x.csModel from g3]; exact g1))
      · exact absurd h ((ModelReg.mem_names _ _).1 (by rw [← g4 m hm]; exact g2))
  · unfold loadNodeU at he
    rw [hx] at he
    dsimp only at he
    cases hl : loadEq db s.creg.names s.ireg.names x.node with
    | error l => rw [hl] at he; cases he; exact .inl ⟨l, rfl, hl⟩
    | ok q =>
      rw [hl] at he
      dsimp only at he
      obtain ⟨g1, g2, g3, -⟩ := loadEq_found hl
      have g1' := (ModelReg.mem_names _ _).1 g1
      have g2' := (ModelReg.mem_names _ _).1 g2
      unfold completeU at he
      have hwf := C70_loaded_wellFormed (x := x.node) hnd hpos hl
      obtain ⟨a, ha⟩ := hwf.hA
      obtain ⟨b, hb⟩ := hwf.hB
      rw [ha, hb] at he
      dsimp only at he
      refine .inr ⟨q, hl, ?_⟩
      rw [show x.csModel = q.csModel from g3.symm]
      rcases hc : s.creg.find q.csModel with _ | _ | pc
      · exact absurd hc g1'
      · rw [hc] at he
        cases he
        exact .inl ⟨rfl, rfl⟩
      rw [hc] at he
      dsimp only [callProto] at he
      cases hp : pc (s.doc.inter k) q (ReducedMass.mk' a.mass b.mass) db with
      | error y => rw [hp] at he; cases he; exact .inr (.inr (.inl ⟨pc, _, rfl, hp⟩))
      | ok c =>
        rw [hp] at he
        dsimp only at he
        rcases hi : s.ireg.find q.model with _ | _ | pi
        · exact absurd hi g2'
        · rw [hi] at he
          cases he
          exact .inr (.inl ⟨rfl, rfl⟩)
        rw [hi] at he
        dsimp only at he
        cases hp2 : pi (s.doc.inter k) q (ReducedMass.mk' a.mass b.mass) c db with
        | error y => rw [hp2] at he; cases he; exact .inr (.inr (.inr ⟨pi, _, c, rfl, hp2⟩))
        | ok m => rw [hp2] at he; cases he

/-- **C94**  What a call does to the equations of two species, in any state that can be reached: those there stay, whatever
is put into the registries or taken out; only an initialisation adds loaded ones, made by the prototypes registered when
it is called, and (if it returns) one for each `Interaction` wanted and kept, in order; and created ones use the
library's elastic model. -/
theorem C94_call {T : UTools I} {auto : Bool} {s0 : USession D I} (h0 : s0.Unused) {cs : List (UCall D I)}
    {s s' : USession D I} (hs : runU T auto cs s0 = s) {c : UCall D I} {r : Except UErr ℕ}
    (hr : c.run T auto s = (s', r)) {A B : ℕ} (hAB : A ≤ B) :
    ∃ loaded made, s'.eqs A B = s.eqs A B ++ loaded ++ made ∧
      (c ≠ .init → loaded = []) ∧ (¬ c.Creates auto → made = []) ∧
      (∀ w ∈ loaded, ∃ k, WantedKept s (sortProps s.props) A B k ∧ LoadedBy s (sortProps s.props) k w) ∧
      (∀ w ∈ made, CreatedFrom T s' A B w) ∧
      (∀ n a b, c = .init → r = .ok n → CleanNames s.doc.doc s.props → s'.props[A]? = some a → s'.props[B]? = some b →
        ∃ ks, ks.Pairwise (· < ·) ∧
          (∀ k, k ∈ ks ↔ s.filter.Keeps s.doc.doc (Wanted s.doc.doc (sortProps s.props) a.name b.name) k) ∧
          List.Forall₂ (LoadedBy s (sortProps s.props)) ks loaded) := by
  have hinv : UInv s := by rw [← hs]; exact UInv.run h0 cs
  have e1 : (c.run T auto s).1 = s' := by rw [hr]
  have plain : c ≠ .init → s'.table = s.table → ∃ loaded made, s'.eqs A B = s.eqs A B ++ loaded ++ made ∧
      (c ≠ .init → loaded = []) ∧ (¬ c.Creates auto → made = []) ∧
      (∀ w ∈ loaded, ∃ k, WantedKept s (sortProps s.props) A B k ∧ LoadedBy s (sortProps s.props) k w) ∧
      (∀ w ∈ made, CreatedFrom T s' A B w) ∧
      (∀ n a b, c = .init → r = .ok n → CleanNames s.doc.doc s.props → s'.props[A]? = some a → s'.props[B]? = some b →
        ∃ ks, ks.Pairwise (· < ·) ∧
          (∀ k, k ∈ ks ↔ s.filter.Keeps s.doc.doc (Wanted s.doc.doc (sortProps s.props) a.name b.name) k) ∧
          List.Forall₂ (LoadedBy s (sortProps s.props)) ks loaded) := by
    intro hc ht
    exact ⟨[], [], by unfold USession.eqs; rw [ht]; simp, fun _ => rfl, fun _ => rfl, by simp, by simp,
      fun n a b hi => absurd hi hc⟩
  have creating : ∀ i j vmax dv, c ≠ .init → c.Creates auto → s' = (s.create T i j vmax dv).1 →
      ∃ loaded made, s'.eqs A B = s.eqs A B ++ loaded ++ made ∧
      (c ≠ .init → loaded = []) ∧ (¬ c.Creates auto → made = []) ∧
      (∀ w ∈ loaded, ∃ k, WantedKept s (sortProps s.props) A B k ∧ LoadedBy s (sortProps s.props) k w) ∧
      (∀ w ∈ made, CreatedFrom T s' A B w) ∧
      (∀ n a b, c = .init → r = .ok n → CleanNames s.doc.doc s.props → s'.props[A]? = some a → s'.props[B]? = some b →
        ∃ ks, ks.Pairwise (· < ·) ∧
          (∀ k, k ∈ ks ↔ s.filter.Keeps s.doc.doc (Wanted s.doc.doc (sortProps s.props) a.name b.name) k) ∧
          List.Forall₂ (LoadedBy s (sortProps s.props)) ks loaded) := by
    intro i j vmax dv hc hcr he
    obtain ⟨made, m1, m2⟩ := createU_eqs (T := T) (s := s) i j vmax dv hAB
    exact ⟨[], made, by rw [he, m1]; simp, fun _ => rfl, fun h => absurd hcr h, by simp, by rw [he]; exact m2,
      fun n a b hi => absurd hi hc⟩
  cases c with
  | create i j vmax dv => exact creating i j vmax dv (by simp) trivial e1.symm
  | createNames i j vmax dv => exact creating _ _ vmax dv (by simp) trivial e1.symm
  | addModel m => exact plain (by simp) (by rw [← e1]; exact (addModelU_fields m s).1)
  | init =>
    obtain ⟨loaded, l1, l2, l3⟩ := fillU_eqs hinv hAB
    have hp : s'.props = sortProps s.props := by rw [← e1]; exact (initU_regs T auto s).2.2.2
    have hks : ∀ a b, CleanNames s.doc.doc s.props → s'.props[A]? = some a → s'.props[B]? = some b →
        (cellNodes s.doc.doc s.filter (sortProps s.props) A B).Pairwise (· < ·) ∧
        (∀ k, k ∈ cellNodes s.doc.doc s.filter (sortProps s.props) A B ↔
          s.filter.Keeps s.doc.doc (Wanted s.doc.doc (sortProps s.props) a.name b.name) k) := by
      intro a b hc ha hb
      rw [hp] at ha hb
      exact cellNodes_spec ((nodupNames_of_perm (sortProps_perm s.props)).2 hinv.names)
        ⟨fun p hp' => hc.1 p ((sortProps_perm s.props).mem_iff.1 hp'), hc.2⟩ ha hb
    have hBlt : ∀ b, s'.props[B]? = some b → B < s.props.length := by
      intro b hb
      rw [hp] at hb
      rw [← (sortProps_perm s.props).length_eq]
      exact (List.getElem?_eq_some_iff.1 hb).1
    change s.init T auto = (s', r) at hr
    unfold USession.init at hr
    dsimp only at hr
    generalize hF : fillU s.doc s.creg s.ireg s.filter (sortProps s.props) (indexPairs (sortProps s.props).length)
      (resizeU s.table (sortProps s.props).length) = F at *
    obtain ⟨t, oe⟩ := F
    cases oe with
    | some e =>
      dsimp only at hr
      obtain ⟨hr1, hr2⟩ := Prod.mk.inj hr
      refine ⟨loaded, [], by rw [← hr1, List.append_nil]; exact l1, fun h => absurd rfl h, fun _ => rfl, l2, by simp, ?_⟩
      intro n a b _ hn
      rw [← hr2] at hn
      cases hn
    | none =>
      dsimp only at hr l1 l3
      cases auto with
      | false =>
        simp only [Bool.false_eq_true, if_false] at hr
        obtain ⟨hr1, -⟩ := Prod.mk.inj hr
        refine ⟨loaded, [], by rw [← hr1, List.append_nil]; exact l1, fun h => absurd rfl h, fun _ => rfl, l2, by simp, ?_⟩
        intro n a b _ _ hc ha hb
        obtain ⟨k1, k2⟩ := hks a b hc ha hb
        exact ⟨_, k1, k2, l3 (hBlt b hb) rfl⟩
      | true =>
        simp only [if_true] at hr
        obtain ⟨made, m1, m2⟩ := createU_eqs (T := T) (s := { s with props := sortProps s.props, table := t }) (-1) (-1) 0 0 hAB
        rw [hr] at m1 m2
        refine ⟨loaded, made, by rw [m1, l1], fun h => absurd rfl h, fun h => absurd rfl h, l2, m2, ?_⟩
        intro n a b _ _ hc ha hb
        obtain ⟨k1, k2⟩ := hks a b hc ha hb
        exact ⟨_, k1, k2, l3 (hBlt b hb) rfl⟩
  | _ => exact plain (by simp) (by rw [← e1]; rfl)

/-- **C94**  Where every equation comes from, after any history of calls: it was loaded by an earlier initialisation with the
prototypes registered at that time, or created by an earlier call. -/
theorem C94_history {T : UTools I} {auto : Bool} {s0 : USession D I} (h0 : s0.Unused) {cs : List (UCall D I)} {A B : ℕ}
    (hAB : A ≤ B) {w : UEq I} (hw : w ∈ (runU T auto cs s0).eqs A B) :
    ∃ pre c post, cs = pre ++ c :: post ∧
      ((c = .init ∧ ∃ k, WantedKept (runU T auto pre s0) (sortProps (runU T auto pre s0).props) A B k ∧
          LoadedBy (runU T auto pre s0) (sortProps (runU T auto pre s0).props) k w) ∨
       (c.Creates auto ∧ CreatedFrom T (c.run T auto (runU T auto pre s0)).1 A B w)) := by
  induction cs using List.reverseRecOn with
  | nil =>
    have : (runU T auto [] s0).eqs A B = [] := eqsU_of_ge (by show s0.table.side ≤ B; rw [h0.2]; omega)
    rw [this] at hw
    cases hw
  | append_singleton cs c ih =>
    rw [runU_append] at hw
    obtain ⟨loaded, made, h1, h2, h3, h4, h5, -⟩ := C94_call h0 (cs := cs) rfl (c := c)
      (s' := (c.run T auto (runU T auto cs s0)).1) (r := (c.run T auto (runU T auto cs s0)).2) rfl hAB
    change w ∈ (c.run T auto (runU T auto cs s0)).1.eqs A B at hw
    rw [h1, List.append_assoc] at hw
    rcases List.mem_append.1 hw with hw | hw
    · obtain ⟨pre, c', post, e, h⟩ := ih hw
      exact ⟨pre, c', post ++ [c], by rw [e]; simp, h⟩
    rcases List.mem_append.1 hw with hw | hw
    · refine ⟨cs, c, [], rfl, .inl ⟨?_, h4 w hw⟩⟩
      by_contra hc
      rw [h2 hc] at hw
      cases hw
    · refine ⟨cs, c, [], rfl, .inr ⟨?_, h5 w hw⟩⟩
      by_contra hc
      rw [h3 hc] at hw
      cases hw

/-- **C94**  With the registries of the constructor and no use of them, the database is that of C79 to C82. -/
theorem C94_library (T : Tools W) (auto : Bool) (D0 : SDoc) (cs : List Call) :
    runU (libTools T) auto (cs.map Call.toU) (USession.new T D0) = (runCalls T auto cs (Session.new D0)).toU T ∧
    ∀ c, ((Call.toU c).run (libTools T) auto (runU (libTools T) auto (cs.map Call.toU) (USession.new T D0))).2 =
      liftE id (c.run T auto (runCalls T auto cs (Session.new D0))).2 := by
  have h : runU (libTools T) auto (cs.map Call.toU) (USession.new T D0) = (runCalls T auto cs (Session.new D0)).toU T := by
    induction cs using List.reverseRecOn with
    | nil => rfl
    | append_singleton cs c ih =>
      rw [List.map_append, runU_append, ih, runCalls_append]
      show ((Call.toU c).run (libTools T) auto _).1 = _
      rw [run_lib]
      rfl
  exact ⟨h, fun c => by rw [h, run_lib]⟩

/-! ### Names that no document uses -/

/-- The document names none of these cross section models and interaction models, not even by default. -/
def UDoc.Avoids (d : UDoc D) (N M : Set String) : Prop :=
  ∀ x ∈ d.doc.nodes, x.csModel ∉ N ∧ (∀ m, x.modelAttr = some m → m ∉ M) ∧
    (x.modelAttr = none → "elastic" ∉ M ∧ "inelastic" ∉ M)

/-- The calls give the database only such documents. -/
def UCall.Avoids (N M : Set String) : UCall D I → Prop
  | .document d => d.Avoids N M
  | _ => True

/-- The databases differ at most in what is registered under these names. -/
structure SameBut (N M : Set String) (s t : USession D I) : Prop where
  doc : s.doc = t.doc
  filter : s.filter = t.filter
  dflt : s.dflt = t.dflt
  props : s.props = t.props
  table : s.table = t.table
  cs : ∀ n ∉ N, s.creg.find n = t.creg.find n
  models : ∀ n ∉ M, s.ireg.find n = t.ireg.find n

theorem loadNodeU_avoids {N M : Set String} {d : UDoc D} (hd : d.Avoids N M) {cr cr' : ModelReg (CSProto D)}
    {ir ir' : ModelReg (IProto D I)} (hc : ∀ n ∉ N, cr.find n = cr'.find n) (hi : ∀ n ∉ M, ir.find n = ir'.find n)
    (db : Registry ℝ) (k : ℕ) : loadNodeU d cr ir db k = loadNodeU d cr' ir' db k := by
  unfold loadNodeU
  cases hx : d.doc.nodes[k]? with
  | none => rfl
  | some x =>
    dsimp only
    obtain ⟨h1, h2, h3⟩ := hd x (List.mem_of_getElem? hx)
    have hM : ∀ m, (x.modelAttr = some m ∨ (x.modelAttr = none ∧ (m = "elastic" ∨ m = "inelastic"))) → m ∉ M := by
      rintro m (h | ⟨h, rfl | rfl⟩)
      · exact h2 m h
      · exact (h3 h).1
      · exact (h3 h).2
    rw [loadEq_congr (cs' := cr'.names) (ms' := ir'.names)
      (by rw [ModelReg.mem_names, ModelReg.mem_names, show x.node.csModel = x.csModel from rfl, hc _ h1])
      (fun m hm => by rw [ModelReg.mem_names, ModelReg.mem_names, hi _ (hM m hm)])]
    cases hl : loadEq db cr'.names ir'.names x.node with
    | error e => rfl
    | ok e =>
      dsimp only
      obtain ⟨-, -, g1, g2, g3⟩ := loadEq_found hl
      have e1 : e.csModel ∉ N := by rw [g1]; exact h1
      have e2 : e.model ∉ M := by
        apply hM
        cases hm : x.modelAttr with
        | some m => exact .inl (by rw [g2 m hm])
        | none => exact .inr ⟨rfl, g3 hm⟩
      unfold completeU
      rw [hc _ e1, hi _ e2]

theorem pushAllU_congr {d : UDoc D} {cr cr' : ModelReg (CSProto D)} {ir ir' : ModelReg (IProto D I)} {db : Registry ℝ}
    (h : ∀ k, loadNodeU d cr ir db k = loadNodeU d cr' ir' db k) : ∀ (ks : List ℕ) (l : List (UEq I)),
    pushAllU d cr ir db ks l = pushAllU d cr' ir' db ks l
  | [], l => rfl
  | k :: ks, l => by
    unfold pushAllU
    rw [h]
    cases loadNodeU d cr' ir' db k with
    | error e => rfl
    | ok w => exact pushAllU_congr h ks _

theorem fillU_congr {d : UDoc D} {cr cr' : ModelReg (CSProto D)} {ir ir' : ModelReg (IProto D I)} {f : Filter}
    {db : Registry ℝ} (h : ∀ k, loadNodeU d cr ir db k = loadNodeU d cr' ir' db k) :
    ∀ (l : List (ℕ × ℕ)) (t : UTable (USet I)), fillU d cr ir f db l t = fillU d cr' ir' f db l t
  | [], t => rfl
  | (A, B) :: l, t => by
    unfold fillU
    cases db[A]? with
    | none => rfl
    | some a =>
    cases db[B]? with
    | none => rfl
    | some b =>
      dsimp only
      rw [pushAllU_congr h]
      generalize pushAllU d cr' ir' db _ _ = r
      obtain ⟨r1, r2⟩ := r
      cases r2 with
      | some e => rfl
      | none => exact fillU_congr h l _

theorem SameBut.step {T : UTools I} {auto : Bool} {N M : Set String} {s t : USession D I} (h : SameBut N M s t)
    (hd : s.doc.Avoids N M) (c : UCall D I) :
    SameBut N M (c.run T auto s).1 (c.run T auto t).1 ∧ (c.run T auto s).2 = (c.run T auto t).2 := by
  have hcreg : ∀ n ∉ N, (c.run T auto s).1.creg.find n = (c.run T auto t).1.creg.find n := by
    intro n hn
    rw [(runU_regs T auto c s n).1, (runU_regs T auto c t n).1]
    cases c <;> dsimp only <;> (try split) <;> first | rfl | exact h.cs n hn | (rename_i hm; rw [← hm, h.cs n hn])
  have hireg : ∀ n ∉ M, (c.run T auto s).1.ireg.find n = (c.run T auto t).1.ireg.find n := by
    intro n hn
    rw [(runU_regs T auto c s n).2, (runU_regs T auto c t n).2]
    cases c <;> dsimp only <;> (try split) <;> first | rfl | exact h.models n hn | (rename_i hm; rw [← hm, h.models n hn])
  obtain ⟨sd, sf, sdf, sc, si, sp, st⟩ := s
  obtain ⟨td, tf, tdf, tc, ti, tp, tt⟩ := t
  obtain ⟨rfl, rfl, rfl, rfl, rfl, h1, h2⟩ := h
  dsimp only at h1 h2 hd
  cases c with
  | init =>
    have hload := fillU_congr (f := sf) (fun k => loadNodeU_avoids hd h1 h2 (sortProps sp) k)
      (indexPairs (sortProps sp).length) (resizeU st (sortProps sp).length)
    refine ⟨⟨?_, ?_, ?_, ?_, ?_, hcreg, hireg⟩, ?_⟩ <;>
    · dsimp only [UCall.run, USession.init]
      rw [hload]
      generalize fillU sd tc ti sf (sortProps sp) (indexPairs (sortProps sp).length) (resizeU st (sortProps sp).length) = r
      obtain ⟨r1, r2⟩ := r
      cases r2 with
      | some e => rfl
      | none => cases auto <;> rfl
  | addModel m =>
    refine ⟨⟨?_, ?_, ?_, ?_, ?_, hcreg, hireg⟩, ?_⟩ <;>
    · dsimp only [UCall.run, USession.addModel]
      generalize addNamesLoop sd.particles _ sp = r
      obtain ⟨r1, r2⟩ := r
      cases r2 with
      | some e => rfl
      | none =>
        dsimp only
        generalize (sd.models.filter (fun x => x.name = m)).flatMap ModelDoc.filters = fs
        match fs with
        | [] => rfl
        | [x] =>
          dsimp only
          cases loadEquationFilter x <;> rfl
        | _ :: _ :: _ => rfl
  | _ => exact ⟨⟨rfl, rfl, rfl, rfl, rfl, hcreg, hireg⟩, rfl⟩

/-- **C94**  Models under names that no document uses make no difference: two databases that differ only in what is
registered under such names go the same way in every history, call by call, exceptions included. -/
theorem C94_unused_names {T : UTools I} {auto : Bool} {N M : Set String} {s t : USession D I} (h : SameBut N M s t)
    (hd : s.doc.Avoids N M) {cs : List (UCall D I)} (hcs : ∀ c ∈ cs, c.Avoids N M) :
    SameBut N M (runU T auto cs s) (runU T auto cs t) ∧
    ∀ c : UCall D I, (c.run T auto (runU T auto cs s)).2 = (c.run T auto (runU T auto cs t)).2 := by
  have key : SameBut N M (runU T auto cs s) (runU T auto cs t) ∧ (runU T auto cs s).doc.Avoids N M := by
    induction cs generalizing s t with
    | nil => exact ⟨h, hd⟩
    | cons c cs ih =>
      refine ih (h.step hd c).1 ?_ fun x hx => hcs x (List.mem_cons_of_mem _ hx)
      have hc := hcs c List.mem_cons_self
      cases c with
      | document d => exact hc
      | init => show (s.init T auto).1.doc.Avoids N M; rw [(initU_regs T auto s).2.2.1]; exact hd
      | addModel m => show (s.addModel m).1.doc.Avoids N M; rw [(addModelU_fields m s).2.2.2.1]; exact hd
      | _ => exact hd
  exact ⟨key.1, fun c => (key.1.step key.2 c).2⟩

/-- **C94**  In particular, registering such a model, at any time, changes nothing but the registry. -/
theorem C94_registering_only {T : UTools I} {auto : Bool} {s0 : USession D I} {pre post : List (UCall D I)} {n m : String}
    (hd : s0.doc.Avoids {n} {m}) (hcs : ∀ c ∈ pre ++ post, c.Avoids {n} {m}) (pc : CSProto D) (pi : IProto D I) :
    SameBut {n} {m} (runU T auto (pre ++ .setCS n pc :: .setModel m pi :: post) s0) (runU T auto (pre ++ post) s0) := by
  have hpre := (C94_unused_names (T := T) (auto := auto) (N := {n}) (M := {m}) (s := s0) (t := s0)
    ⟨rfl, rfl, rfl, rfl, rfl, fun _ _ => rfl, fun _ _ => rfl⟩ hd (cs := pre)
    fun c hc => hcs c (List.mem_append_left _ hc))
  have hdoc : (runU T auto pre s0).doc.Avoids {n} {m} := by
    clear hpre
    have hp : ∀ c ∈ pre, c.Avoids {n} {m} := fun c hc => hcs c (List.mem_append_left _ hc)
    clear hcs
    induction pre generalizing s0 with
    | nil => exact hd
    | cons c cs ih =>
      refine ih ?_ fun x hx => hp x (List.mem_cons_of_mem _ hx)
      have hc := hp c List.mem_cons_self
      cases c with
      | document d => exact hc
      | init => show (s0.init T auto).1.doc.Avoids _ _; rw [(initU_regs T auto s0).2.2.1]; exact hd
      | addModel m => show (s0.addModel m).1.doc.Avoids _ _; rw [(addModelU_fields m s0).2.2.2.1]; exact hd
      | _ => exact hd
  rw [runU_append, runU_append]
  set s := runU T auto pre s0
  exact (C94_unused_names (s := { s with creg := s.creg.set n pc, ireg := s.ireg.set m pi }) (t := s)
    ⟨rfl, rfl, rfl, rfl, rfl, fun k hk => by
        show (s.creg.set n pc).find k = _
        rw [ModelReg.find_set, if_neg (by simpa using hk)],
      fun k hk => by
        show (s.ireg.set m pi).find k = _
        rw [ModelReg.find_set, if_neg (by simpa using hk)]⟩ hdoc
    fun c hc => hcs c (List.mem_append_right _ hc)).1

/-! ## A history -/

namespace ModelsExample

open SessionExample (x y)

/-- A document for two species whose elastic interactions have the cross section model `mine`. -/
def node (p : String) : XInter := { ins := [{ P := p, n := some 2 }], outs := [{ P := p, n := some 2 }], inText := "2 " ++ p, outText := "2 " ++ p, hasCS := true, csModel := "mine" }

/-- What a model of the user's own reads in an `Interaction` is a number here. -/
noncomputable def doc : UDoc ℝ :=
  { doc := { nodes := [node "x", node "y"], inSection := fun _ _ => false }
    inter := fun k => if k = 0 then 4 else 16
    particles := [y, x] }

/-- A cross section `d` below the speed 1 and zero above.  `findMaxSigmaVProduct` is right, and `getLabel` returns `vhs`, as
it does for a class that is derived from the library's `VHS`. -/
noncomputable def xs (d : ℝ) : XSec where
  sigma v := .ok (if v < 1 then d else 0)
  thrE := 0
  maxSV vmax := .ok (if vmax < 1 then (d * vmax, vmax) else (d, 1))

noncomputable def mine : CSProto ℝ := fun d _ _ _ => .ok ⟨"vhs", xs d⟩

/-- Interaction models are told apart by a truth value: the user's is `false` and the library's is `true`. -/
def myElastic : IProto ℝ Bool := fun _ _ _ _ _ => .ok false

def tools : UTools Bool := ⟨false, fun _ => true⟩

noncomputable def start : USession ℝ Bool :=
  { doc := doc, filter := defaultFilter, dflt := ⟨0, 0⟩, creg := [], ireg := [("elastic", some fun _ _ _ _ _ => .ok true)], props := [],
    table := ⟨0, fun _ _ => {}⟩ }

theorem unused : start.Unused := ⟨rfl, rfl⟩

noncomputable def calls : List (UCall ℝ Bool) :=
  [.setCS "mine" mine, .setModel "elastic" myElastic, .addNames ["y", "x"], .init, .eraseCS "mine", .create (-1) (-1) 0 0]

noncomputable def creg : ModelReg (CSProto ℝ) := [("mine", some mine)]

noncomputable def ireg : ModelReg (IProto ℝ Bool) := [("elastic", some myElastic)]

theorem added : runU tools false [.setCS "mine" mine, .setModel "elastic" myElastic, .addNames ["y", "x"]] start =
    { doc := doc, filter := .elastic, dflt := ⟨0, 0⟩, creg := creg, ireg := ireg, props := [y, x], table := ⟨0, fun _ _ => {}⟩ } := by
  rfl

theorem cells : defaultFilter.apply doc.doc (queryNodes doc.doc [x, y] 0 0 "x" "x") = [0] ∧
    defaultFilter.apply doc.doc (queryNodes doc.doc [x, y] 0 1 "x" "y") = [] ∧
    defaultFilter.apply doc.doc (queryNodes doc.doc [x, y] 1 1 "y" "y") = [1] := by
  refine ⟨by decide +kernel, by decide +kernel, by decide +kernel⟩

theorem eqx : loadEq [x, y] creg.names ireg.names (node "x").node = .ok ⟨Term.single 0, Term.single 0, [Term.many 0 2], "mine", "elastic"⟩ := by
  have : loadAndSortTerms [x, y] (node "x").ins = .ok ([(x, ⟨2, [-1, -1], ["", ""]⟩)], 2) := by rfl
  unfold loadEq
  rw [show (node "x").node.ins = (node "x").ins from rfl, show (node "x").node.outs = (node "x").ins from rfl, this]
  have h2 : chooseModel (node "x").node [(x, ⟨2, [-1, -1], ["", ""]⟩)] [(x, ⟨2, [-1, -1], ["", ""]⟩)] = "elastic" := by
    show (if _ then "elastic" else "inelastic") = _
    rw [if_pos rfl]
  dsimp only
  rw [h2]
  rfl

theorem eqy : loadEq [x, y] creg.names ireg.names (node "y").node = .ok ⟨Term.single 1, Term.single 1, [Term.many 1 2], "mine", "elastic"⟩ := by
  have : loadAndSortTerms [x, y] (node "y").ins = .ok ([(y, ⟨2, [-1, -1], ["", ""]⟩)], 2) := by rfl
  unfold loadEq
  rw [show (node "y").node.ins = (node "y").ins from rfl, show (node "y").node.outs = (node "y").ins from rfl, this]
  have h2 : chooseModel (node "y").node [(y, ⟨2, [-1, -1], ["", ""]⟩)] [(y, ⟨2, [-1, -1], ["", ""]⟩)] = "elastic" := by
    show (if _ then "elastic" else "inelastic") = _
    rw [if_pos rfl]
  dsimp only
  rw [h2]
  rfl

noncomputable def wx : UEq Bool :=
  ⟨⟨Term.single 0, Term.single 0, [Term.many 0 2], "mine", "elastic"⟩, ReducedMass.mk' 1 1, ⟨"vhs", xs 4⟩, false⟩

noncomputable def wy : UEq Bool :=
  ⟨⟨Term.single 1, Term.single 1, [Term.many 1 2], "mine", "elastic"⟩, ReducedMass.mk' 2 2, ⟨"vhs", xs 16⟩, false⟩

theorem inter0 : doc.inter 0 = 4 := by show (if (0 : ℕ) = 0 then (4 : ℝ) else 16) = 4; rw [if_pos rfl]

theorem inter1 : doc.inter 1 = 16 := by show (if (1 : ℕ) = 0 then (4 : ℝ) else 16) = 16; rw [if_neg (by decide)]

theorem loadx : loadNodeU doc creg ireg [x, y] 0 = .ok wx := by
  unfold loadNodeU
  rw [show doc.doc.nodes[0]? = some (node "x") from rfl]
  dsimp only
  rw [eqx, inter0]
  rfl

theorem loady : loadNodeU doc creg ireg [x, y] 1 = .ok wy := by
  unfold loadNodeU
  rw [show doc.doc.nodes[1]? = some (node "y") from rfl]
  dsimp only
  rw [eqy, inter1]
  rfl

/-- The table after initialisation. -/
noncomputable def table : UTable (USet Bool) :=
  (((resizeU ⟨0, fun _ _ => {}⟩ 2).modify 0 0 fun _ => ⟨(Term.single 0, Term.single 0), [wx]⟩).modify 0 1
    fun _ => ⟨(Term.single 0, Term.single 1), []⟩).modify 1 1 fun _ => ⟨(Term.single 1, Term.single 1), [wy]⟩

theorem filled : fillU doc creg ireg .elastic [x, y] (indexPairs 2) (resizeU ⟨0, fun _ _ => {}⟩ 2) = (table, none) := by
  obtain ⟨c1, c2, c3⟩ := cells
  unfold defaultFilter at c1 c2 c3
  rw [show indexPairs 2 = [(0, 0), (0, 1), (1, 1)] from rfl]
  rw [fillU]
  rw [show ([x, y] : Registry ℝ)[0]? = some x from rfl]
  dsimp only
  rw [show x.name = "x" from rfl, c1, pushAllU, loadx]
  dsimp only
  rw [pushAllU]
  dsimp only
  rw [fillU]
  rw [show ([x, y] : Registry ℝ)[0]? = some x from rfl, show ([x, y] : Registry ℝ)[1]? = some y from rfl]
  dsimp only
  rw [show x.name = "x" from rfl, show y.name = "y" from rfl, c2, pushAllU]
  dsimp only
  rw [fillU]
  rw [show ([x, y] : Registry ℝ)[1]? = some y from rfl]
  dsimp only
  rw [show y.name = "y" from rfl, c3, pushAllU, loady]
  dsimp only
  rw [pushAllU]
  dsimp only
  rw [fillU]
  rfl

theorem inited : UCall.init.run tools false (runU tools false
      [.setCS "mine" mine, .setModel "elastic" myElastic, .addNames ["y", "x"]] start) =
    ({ doc := doc, filter := .elastic, dflt := ⟨0, 0⟩, creg := creg, ireg := ireg, props := [x, y], table := table }, .ok 0) := by
  rw [added]
  show USession.init tools false _ = _
  unfold USession.init
  dsimp only
  rw [SessionExample.sorted, show ([x, y] : Registry ℝ).length = 2 from rfl, filled]
  rfl

/-- The equation created for the two species. -/
noncomputable def wxy : UEq Bool :=
  ⟨⟨Term.single 0, Term.single 1, [Term.single 0, Term.single 1], "averaged_diameters_easy", "elastic"⟩,
    ReducedMass.mk' 1 2, ⟨"averaged_diameters_easy", mkAvgEasy (xs 4) (xs 16)⟩, true⟩

theorem step01 (t : UTable (USet Bool)) (h : t = table) :
    cmStepU tools [x, y] 0 0 t 0 1 = .ok (pushEqU t 0 1 wxy, true) := by
  unfold cmStepU
  rw [show t.get? 0 0 = some ⟨(Term.single 0, Term.single 0), [wx]⟩ by rw [h]; rfl,
    show t.get? 1 1 = some ⟨(Term.single 1, Term.single 1), [wy]⟩ by rw [h]; rfl,
    show t.get? 0 1 = some ⟨(Term.single 0, Term.single 1), []⟩ by rw [h]; rfl]
  dsimp only
  rw [if_pos (by rfl), show USet.getElastic ⟨(Term.single 0, Term.single 0), [wx]⟩ = some wx by rfl,
    show USet.getElastic ⟨(Term.single 1, Term.single 1), [wy]⟩ = some wy by rfl]
  dsimp only
  rw [if_neg (by simp [wx, wy, Term.eqv, Term.single]), show orderByMass [x, y] wx.eq.A wy.eq.A =
    some (Term.single 0, Term.single 1) by
      show (if (1 : ℝ) ≤ 2 then _ else _) = _
      rw [if_pos (by norm_num)]; rfl]
  dsimp only
  rw [show ([x, y] : Registry ℝ)[(Term.single 0).species.toNat]? = some x from rfl,
    show ([x, y] : Registry ℝ)[(Term.single 1).species.toNat]? = some y from rfl]
  dsimp only
  rw [if_pos (by simp [wx, wy, easyLabels])]
  rfl

theorem skip {db : Registry ℝ} {v d : ℝ} {t : UTable (USet Bool)} {a b : ℕ} {s1 s2 s3 : USet Bool}
    (h1 : t.get? a a = some s1) (h2 : t.get? b b = some s2) (h3 : t.get? a b = some s3) (h : s3.hasElastic = true) :
    cmStepU tools db v d t a b = .ok (t, false) := by
  unfold cmStepU
  rw [h1, h2, h3]
  dsimp only
  rw [h]
  rfl

theorem final : runU tools false calls start =
    { doc := doc, filter := .elastic, dflt := ⟨0, 0⟩, creg := creg.erase "mine", ireg := ireg, props := [x, y],
      table := pushEqU table 0 1 wxy } := by
  have h1 : runU tools false calls start = runU tools false [.eraseCS "mine", .create (-1) (-1) 0 0]
      (UCall.init.run tools false (runU tools false
        [.setCS "mine" mine, .setModel "elastic" myElastic, .addNames ["y", "x"]] start)).1 := rfl
  rw [h1, inited]
  show (USession.create tools (-1) (-1) 0 0 ⟨doc, .elastic, ⟨0, 0⟩, creg.erase "mine", ireg, [x, y], table⟩).1 = _
  unfold USession.create
  dsimp only
  rw [show effectiveRange (0 : ℝ) 0 0 0 = (0, 0) by simp [effectiveRange],
    show cmPairs ([x, y] : Registry ℝ).length (-1) (-1) = [(0, 0), (0, 1), (1, 0), (1, 1)] from rfl]
  dsimp only
  rw [cmLoopU, skip (s1 := ⟨_, [wx]⟩) (s2 := ⟨_, [wx]⟩) (s3 := ⟨_, [wx]⟩) rfl rfl rfl rfl]
  dsimp only
  rw [cmLoopU, step01 _ rfl]
  dsimp only
  rw [cmLoopU, skip (s1 := ⟨_, [wy]⟩) (s2 := ⟨_, [wx]⟩) (s3 := ⟨_, [wxy]⟩) rfl rfl rfl rfl]
  dsimp only
  rw [cmLoopU, skip (s1 := ⟨_, [wy]⟩) (s2 := ⟨_, [wy]⟩) (s3 := ⟨_, [wy]⟩) rfl rfl rfl rfl]
  rfl

theorem sigma_xy : wxy.cs.xs.sigma (1 / 2) = .ok 9 := by
  have h4 : (xs 4).sigma (1 / 2) = .ok 4 := by
    show Except.ok (if (1 / 2 : ℝ) < 1 then (4 : ℝ) else 0) = _
    rw [if_pos (by norm_num)]
  have h16 : (xs 16).sigma (1 / 2) = .ok 16 := by
    show Except.ok (if (1 / 2 : ℝ) < 1 then (16 : ℝ) else 0) = _
    rw [if_pos (by norm_num)]
  have e4 : Real.sqrt 4 = 2 := by rw [show (4 : ℝ) = 2 ^ 2 by norm_num]; exact Real.sqrt_sq (by norm_num)
  have e16 : Real.sqrt 16 = 4 := by rw [show (16 : ℝ) = 4 ^ 2 by norm_num]; exact Real.sqrt_sq (by norm_num)
  show avgSigma (xs 4).sigma (xs 16).sigma (1 / 2) = _
  simp only [avgSigma, h4, h16, sqrtE, bind, Except.bind, pure, Except.pure]
  rw [if_pos (by norm_num), if_pos (by norm_num)]
  dsimp only
  rw [e4, e16]
  norm_num

theorem max_xy : wxy.cs.xs.maxSV 2 = .ok (0, 0) := by
  have h : ∀ d, (xs d).sigma 2 = .ok 0 := by
    intro d
    show Except.ok (if (2 : ℝ) < 1 then d else 0) = _
    rw [if_neg (by norm_num)]
  have ha : avgSigma (xs 4).sigma (xs 16).sigma 2 = .ok 0 := by
    simp [avgSigma, h, sqrtE, bind, Except.bind, pure, Except.pure]
  show (match avgSigma (xs 4).sigma (xs 16).sigma 2 with
    | .error x => Except.error x
    | .ok val => .ok (if val > 0 then (val * 2, (2 : ℝ)) else (0, 0))) = _
  rw [ha]
  dsimp only
  rw [if_neg (lt_irrefl _)]

theorem loadx_none : loadNodeU doc [] ireg [x, y] 0 = .error (.lib (.load .noCrossSection)) := by
  have : loadAndSortTerms [x, y] (node "x").ins = .ok ([(x, ⟨2, [-1, -1], ["", ""]⟩)], 2) := by rfl
  unfold loadNodeU
  rw [show doc.doc.nodes[0]? = some (node "x") from rfl]
  dsimp only
  unfold loadEq
  rw [show (node "x").node.ins = (node "x").ins from rfl, show (node "x").node.outs = (node "x").ins from rfl, this]
  rfl

theorem loadx_null : loadNodeU doc [("mine", none)] ireg [x, y] 0 = .error .null := by
  unfold loadNodeU
  rw [show doc.doc.nodes[0]? = some (node "x") from rfl]
  dsimp only
  rw [show ModelReg.names [("mine", (none : Option (CSProto ℝ)))] = creg.names from rfl, eqx, inter0]
  rfl

theorem init_fails {cr : ModelReg (CSProto ℝ)} {e : UErr} (h : loadNodeU doc cr ireg [x, y] 0 = .error e) :
    (UCall.init.run tools false { doc := doc, filter := .elastic, dflt := ⟨0, 0⟩, creg := cr, ireg := ireg, props := [y, x], table := ⟨0, fun _ _ => {}⟩ }).2 = .error e := by
  obtain ⟨c1, -, -⟩ := cells
  unfold defaultFilter at c1
  show (USession.init tools false _).2 = _
  unfold USession.init
  dsimp only
  rw [SessionExample.sorted, show ([x, y] : Registry ℝ).length = 2 from rfl,
    show indexPairs 2 = [(0, 0), (0, 1), (1, 1)] from rfl]
  rw [fillU]
  rw [show ([x, y] : Registry ℝ)[0]? = some x from rfl]
  dsimp only
  rw [show x.name = "x" from rfl, c1, pushAllU, h]

end ModelsExample

open ModelsExample in
/-- **C94**  A history in which the user registers the model `mine`, replaces `elastic`, and takes `mine` out again: the
equations loaded in between have the user's objects and keep them, and the equation created later has the library's elastic
model, although another one is registered under the name `elastic`. -/
theorem C94_replacing_elastic : start.Unused ∧ ∃ s, runU tools false calls start = s ∧
    s.ireg.find "elastic" = some (some myElastic) ∧ s.creg.find "mine" = none ∧
    (∃ w, s.eqs 0 0 = [w] ∧ w.inter = false ∧ w.cs = ⟨"vhs", xs 4⟩) ∧
    (∃ w, s.eqs 1 1 = [w] ∧ w.inter = false ∧ w.cs = ⟨"vhs", xs 16⟩) ∧
    ∃ w, s.eqs 0 1 = [w] ∧ w.inter = true ∧ w.eq.model = "elastic" ∧ CreatedFrom tools s 0 1 w := by
  refine ⟨unused, _, rfl, ?_, ?_, ?_, ?_, ?_⟩
  · rw [final]; rfl
  · rw [final]; rfl
  · rw [final]; exact ⟨wx, rfl, rfl, rfl⟩
  · rw [final]; exact ⟨wy, rfl, rfl, rfl⟩
  · have hw : (runU tools false calls start).eqs 0 1 = [wxy] := by rw [final]; rfl
    refine ⟨wxy, hw, rfl, rfl, ?_⟩
    have hc : calls = [.setCS "mine" mine, .setModel "elastic" myElastic, .addNames ["y", "x"], .init, .eraseCS "mine"] ++
      [.create (-1) (-1) 0 0] := rfl
    obtain ⟨loaded, made, h1, h2, -, -, h5, -⟩ := C94_call (T := tools) (auto := false) unused (cs := [.setCS "mine" mine,
      .setModel "elastic" myElastic, .addNames ["y", "x"], .init, .eraseCS "mine"]) rfl
      (c := .create (-1) (-1) 0 0) (s' := runU tools false calls start) (r := (UCall.run tools false (.create (-1) (-1) 0 0)
        (runU tools false [.setCS "mine" mine, .setModel "elastic" myElastic, .addNames ["y", "x"], .init,
          .eraseCS "mine"] start)).2) rfl (A := 0) (B := 1) (by omega)
    have he : (runU tools false [.setCS "mine" mine, .setModel "elastic" myElastic, .addNames ["y", "x"], .init,
        .eraseCS "mine"] start).eqs 0 1 = [] := by
      have : runU tools false [.setCS "mine" mine, .setModel "elastic" myElastic, .addNames ["y", "x"], .init,
          .eraseCS "mine"] start = (UCall.run tools false (.eraseCS "mine") (UCall.init.run tools false (runU tools false
          [.setCS "mine" mine, .setModel "elastic" myElastic, .addNames ["y", "x"]] start)).1).1 := rfl
      rw [this, inited]
      rfl
    rw [he, h2 (by simp), hw] at h1
    refine h5 _ ?_
    have : made = [wxy] := by simpa using h1.symm
    rw [this]
    exact List.mem_singleton.2 rfl

open ModelsExample in
/-- **C94**  The label decides how an average is formed.  A model of the user's own that calls itself `vhs` without having
the property that the library's `VHS` has, that `σ(v) v` does not decrease, gets an averaged cross section whose
`findMaxSigmaVProduct` is wrong, although its own is right: at the speed 1/2 the product is larger than the bound for speeds
up to 2. -/
theorem C94_label_misleads : ∃ w, (runU tools false calls start).eqs 0 1 = [w] ∧
    (∀ d v vmax x, 0 ≤ d → 0 ≤ v → v ≤ vmax → (xs d).sigma v = .ok x → ∃ m, (xs d).maxSV vmax = .ok m ∧ x * v ≤ m.1) ∧
    ∃ x m, w.cs.xs.sigma (1 / 2) = .ok x ∧ w.cs.xs.maxSV 2 = .ok m ∧ m.1 < x * (1 / 2) := by
  refine ⟨wxy, by rw [final]; rfl, ?_, 9, (0, 0), sigma_xy, max_xy, by norm_num⟩
  intro d v vmax x hd hv hvm hx
  refine ⟨_, rfl, ?_⟩
  have hx' := Except.ok.inj hx
  rw [← hx']
  by_cases h1 : v < 1
  · rw [if_pos h1]
    by_cases h2 : vmax < 1
    · rw [if_pos h2]; exact mul_le_mul_of_nonneg_left hvm hd
    · rw [if_neg h2]; dsimp only; nlinarith
  · rw [if_neg h1, zero_mul]
    split_ifs
    · exact mul_nonneg hd (hv.trans hvm)
    · exact hd

open ModelsExample in
/-- **C94**  Reading an entry is enough to break an initialisation: with no model registered under the name in the
document the call throws, and after `cross_section_registry["mine"]` was merely read it calls through a null pointer. -/
theorem C94_reading_an_entry :
    (UCall.init.run tools false (runU tools false [.setModel "elastic" myElastic, .addNames ["y", "x"]] start)).2 =
      .error (.lib (.load .noCrossSection)) ∧
    (UCall.init.run tools false (runU tools false [.setModel "elastic" myElastic, .addNames ["y", "x"], .readCS "mine"]
      start)).2 = .error .null :=
  ⟨init_fails loadx_none, init_fails loadx_null⟩

open ModelsExample in
/-- The document avoids all names but its own, so models under them make no difference. -/
example : doc.Avoids {"other"} {"vss_elastic"} ∧ ∀ c ∈ calls, c.Avoids {"other"} {"vss_elastic"} := by
  refine ⟨fun n hn => ?_, fun c hc => ?_⟩
  · have : n = node "x" ∨ n = node "y" := by simpa [doc] using hn
    rcases this with rfl | rfl <;> simp [node]
  · simp only [calls, List.mem_cons, List.not_mem_nil, or_false] at hc
    rcases hc with rfl | rfl | rfl | rfl | rfl | rfl <;> trivial

end Chimp
