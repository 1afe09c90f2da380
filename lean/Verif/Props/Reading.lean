import Verif.Model.Reading
import Verif.Lemmas.CrossSection
import Mathlib.Tactic.Linarith
import Mathlib.Tactic.Ring
import Mathlib.Tactic.FieldSimp
import Mathlib.Tactic.Positivity

/-!
# C110: cross sections are read with their units

Which elements are read as which cross sections, for any calculator; energies and speeds are interchangeable.
-/

namespace Chimp

/-! ### Specification -/

/-- The element `x` has one child `path`, and it says a quantity with coefficient `v` in SI units and dimension `d`. -/
def Reader.Finds (R : Reader) (x : Xml) (path : String) (v : ℝ) (d : SIDim) : Prop :=
  ∃ c, x.named path = [c] ∧ R.eval c.str = some ⟨v, d⟩

/-- The threshold that is written: none, an energy or a speed. -/
inductive Reader.FindsThreshold (R : Reader) (x : Xml) : Option ThrDoc → Prop
  | missing : x.named "threshold" = [] → R.FindsThreshold x none
  | energy (e : ℝ) : R.Finds x "threshold" e .energy → R.FindsThreshold x (some (.energy e))
  | speed (v : ℝ) : R.Finds x "threshold" v .speed → R.FindsThreshold x (some (.speed v))

/-- A row of a table: an energy or a speed, and an area. -/
inductive RowSays : Qty × Qty → RowDoc → Prop
  | energy (e y : ℝ) : RowSays (⟨e, .energy⟩, ⟨y, .area⟩) (.energy e, y)
  | speed (v y : ℝ) : RowSays (⟨v, .speed⟩, ⟨y, .area⟩) (.speed v, y)

/-- The parameters of a subshell. -/
def Reader.FindsShell (R : Reader) (x : Xml) (s : LotzPar) : Prop :=
  R.Finds x "P" s.P .energy ∧ R.Finds x "q" s.q .unity ∧ R.Finds x "a" s.a .areaEnergy2 ∧ R.Finds x "b" s.b .unity ∧
    R.Finds x "c" s.c .unity ∧ s.beta = R.me / (2 * s.P)

/-- What a `cross_section` element describes. -/
inductive Reader.Describes (R : Reader) (x : Xml) : CSDoc → Prop
  | constant (v : ℝ) (t : Option ThrDoc) : x.attr "model" = some "constant" → R.Finds x "value" v .area →
      R.FindsThreshold x t → R.Describes x (.constant v t)
  | vhs (v T w : ℝ) (t : Option ThrDoc) : x.attr "model" = some "vhs" → R.Finds x "value" v .area →
      R.Finds x "T_ref" T .temperature → R.Finds x "visc_T_law" w .unity → R.FindsThreshold x t →
      R.Describes x (.vhs (vhsInfo R.KB R.tiny v T w) t)
  | inverse (k : ℝ) (t : Option ThrDoc) : x.attr "model" = some "inverse" → R.Finds x "value_vref" k .rate →
      R.FindsThreshold x t → R.Describes x (.inverse k t)
  | log (A B : ℝ) (t : Option ThrDoc) : x.attr "model" = some "log" → R.Finds x "A" A .area → R.Finds x "B" B .area →
      R.FindsThreshold x t → R.Describes x (.log A B t)
  | data (ps : List (Qty × Qty)) (rows : List RowDoc) : x.attr "model" = some "data" → R.pairs x = .ok ps →
      List.Forall₂ RowSays ps rows → R.Describes x (.data rows)
  | lotz (ss : List LotzPar) : x.attr "model" = some "lotz" →
      List.Forall₂ R.FindsShell (x.kids.filter R.takes) ss → R.Describes x (.lotz ss)

/-! ### Lemmas -/

private theorem value_iff {R : Reader} {x : Xml} {p : String} {d : SIDim} {v : ℝ} :
    R.value x p d = .ok v ↔ R.Finds x p v d := by
  unfold Reader.value Reader.query Reader.Finds
  rcases x.named p with _ | ⟨c, _ | ⟨c', l⟩⟩
  · simp [bind, Except.bind]
  · rcases h : R.eval c.str with _ | ⟨w, e⟩
    · simp [bind, Except.bind, h]
    · simp only [h, bind, Except.bind, Qty.coeffIn]
      constructor
      · intro hh
        split_ifs at hh with he
        · cases hh; subst he; exact ⟨c, rfl, h⟩
      · rintro ⟨c', hc, hv⟩
        obtain rfl : c = c' := by simpa using hc
        rw [h] at hv
        cases hv
        exact if_pos rfl
  · simp [bind, Except.bind]

private theorem bind_iff {α β : Type} {m : Except ReadErr α} {f : α → Except ReadErr β} {b : β} :
    (m >>= f) = .ok b ↔ ∃ a, m = .ok a ∧ f a = .ok b := by
  cases m <;> simp [bind, Except.bind]

private theorem threshold_iff {R : Reader} {x : Xml} {t : Option ThrDoc} :
    R.threshold x = .ok t ↔ R.FindsThreshold x t := by
  unfold Reader.threshold Reader.query
  rcases hn : x.named "threshold" with _ | ⟨c, _ | ⟨c', l⟩⟩
  · constructor
    · intro h; cases h; exact .missing hn
    · rintro (h | ⟨e, c, h, -⟩ | ⟨e, c, h, -⟩)
      · rfl
      · simp [hn] at h
      · simp [hn] at h
  · rcases h : R.eval c.str with _ | ⟨w, e⟩
    · simp only [h, reduceCtorEq, false_iff]
      rintro (h' | ⟨e, c', h', h2⟩ | ⟨e, c', h', h2⟩)
      · simp [hn] at h'
      all_goals
        obtain rfl : c = c' := by simpa [hn] using h'
        simp [h] at h2
    · simp only [h, Qty.coeffIn, bind, Except.bind]
      constructor
      · intro hh
        split_ifs at hh with h1 h2
        · cases hh; subst h1; exact .speed _ ⟨c, hn, h⟩
        · cases hh; subst h2; exact .energy _ ⟨c, hn, h⟩
      · rintro (h' | ⟨e, c', h', h2⟩ | ⟨e, c', h', h2⟩)
        · simp [hn] at h'
        · obtain rfl : c = c' := by simpa [hn] using h'
          rw [h] at h2
          cases h2
          simp [show SIDim.energy ≠ SIDim.speed by decide]
        · obtain rfl : c = c' := by simpa [hn] using h'
          rw [h] at h2
          cases h2
          simp
  · simp only [reduceCtorEq, false_iff]
    rintro (h' | ⟨e, c', h', h2⟩ | ⟨e, c', h', h2⟩) <;> simp [hn] at h'

private theorem row_iff {q : Qty × Qty} {r : RowDoc} : readRow q = .ok r ↔ RowSays q r := by
  obtain ⟨⟨v, d⟩, ⟨y, e⟩⟩ := q
  unfold readRow
  simp only [Qty.coeffIn, bind, Except.bind]
  constructor
  · intro h
    split_ifs at h with h1 h2 h2 h3
    all_goals first
      | (cases h; subst h1; subst h2; exact .energy _ _)
      | (cases h; subst h2; subst h3; exact .speed _ _)
  · rintro (⟨e, y⟩ | ⟨v, y⟩)
    · simp
    · simp [show SIDim.speed ≠ SIDim.energy by decide]

private theorem mapM_iff {α β : Type} {f : α → Except ReadErr β} : ∀ {l : List α} {m : List β},
    l.mapM f = .ok m ↔ List.Forall₂ (fun a b => f a = .ok b) l m
  | [], m => by
    simp only [List.mapM_nil, pure, Except.pure, Except.ok.injEq, List.forall₂_nil_left_iff]
    exact eq_comm
  | a :: l, m => by
    rw [List.mapM_cons, bind_iff]
    constructor
    · rintro ⟨b, hb, h⟩
      rw [bind_iff] at h
      obtain ⟨m', hm, h⟩ := h
      cases h
      exact .cons hb (mapM_iff.1 hm)
    · intro h
      cases h with
      | cons hb hm =>
        refine ⟨_, hb, ?_⟩
        rw [bind_iff]
        exact ⟨_, mapM_iff.2 hm, rfl⟩

private theorem shell_iff {R : Reader} {x : Xml} {s : LotzPar} : R.lotzPar x = .ok s ↔ R.FindsShell x s := by
  unfold Reader.lotzPar Reader.FindsShell
  simp only [bind_iff, value_iff, Except.ok.injEq]
  constructor
  · rintro ⟨P, h1, q, h2, a, h3, b, h4, c, h5, rfl⟩
    exact ⟨h1, h2, h3, h4, h5, rfl⟩
  · rintro ⟨h1, h2, h3, h4, h5, h6⟩
    refine ⟨_, h1, _, h2, _, h3, _, h4, _, h5, ?_⟩
    rw [LotzPar.load, ← h6]

/-! ### C110 -/

/-- **C110**  A `cross_section` element is read exactly if it names a model of the library and every parameter of that
model is written once, as a quantity of the right dimension (a threshold may be left out, and may be an energy or a
speed; so may the first column of a table); and it is read as the cross section with those values. -/
theorem C110_read (R : Reader) (x : Xml) (d : CSDoc) : R.crossSection x = .ok d ↔ R.Describes x d := by
  constructor
  · intro h
    unfold Reader.crossSection at h
    split at h
    · rename_i hm
      simp only [bind_iff, value_iff, threshold_iff] at h
      obtain ⟨v, h1, t, h2, h⟩ := h
      cases h
      exact .constant v t hm h1 h2
    · rename_i hm
      simp only [bind_iff, value_iff, threshold_iff] at h
      obtain ⟨v, h1, T, h2, w, h3, t, h4, h⟩ := h
      cases h
      exact .vhs v T w t hm h1 h2 h3 h4
    · rename_i hm
      simp only [bind_iff, value_iff, threshold_iff] at h
      obtain ⟨v, h1, t, h2, h⟩ := h
      cases h
      exact .inverse v t hm h1 h2
    · rename_i hm
      simp only [bind_iff, value_iff, threshold_iff] at h
      obtain ⟨A, h1, B, h2, t, h3, h⟩ := h
      cases h
      exact .log A B t hm h1 h2 h3
    · rename_i hm
      simp only [bind_iff, mapM_iff, row_iff] at h
      obtain ⟨ps, h1, rows, h2, h⟩ := h
      cases h
      exact .data ps rows hm h1 h2
    · rename_i hm
      simp only [bind_iff, mapM_iff, shell_iff] at h
      obtain ⟨ss, h1, h⟩ := h
      cases h
      exact .lotz ss hm h1
    · cases h
  · intro h
    unfold Reader.crossSection
    cases h with
    | constant v t hm h1 h2 =>
      rw [hm]
      simp only [bind_iff, value_iff, threshold_iff]
      exact ⟨v, h1, t, h2, rfl⟩
    | vhs v T w t hm h1 h2 h3 h4 =>
      rw [hm]
      simp only [bind_iff, value_iff, threshold_iff]
      exact ⟨v, h1, T, h2, w, h3, t, h4, rfl⟩
    | inverse k t hm h1 h2 =>
      rw [hm]
      simp only [bind_iff, value_iff, threshold_iff]
      exact ⟨k, h1, t, h2, rfl⟩
    | log A B t hm h1 h2 h3 =>
      rw [hm]
      simp only [bind_iff, value_iff, threshold_iff]
      exact ⟨A, h1, B, h2, t, h3, rfl⟩
    | data ps rows hm h1 h2 =>
      rw [hm]
      simp only [bind_iff, mapM_iff, row_iff]
      exact ⟨ps, h1, rows, h2, rfl⟩
    | lotz ss hm h1 =>
      rw [hm]
      simp only [bind_iff, mapM_iff, shell_iff]
      exact ⟨ss, h1, rfl⟩

/-- The parameters of each model and their dimensions. -/
def paramDims : String → List (String × SIDim)
  | "constant" => [("value", .area)]
  | "vhs" => [("value", .area), ("T_ref", .temperature), ("visc_T_law", .unity)]
  | "inverse" => [("value_vref", .rate)]
  | "log" => [("A", .area), ("B", .area)]
  | _ => []

/-- **C110**  No number enters with the wrong units: an element in which a parameter is missing, or has another
dimension, or is written twice, is not read; the same for a threshold that is neither an energy nor a speed. -/
theorem C110_rejected (R : Reader) (x : Xml) {m : String} (hm : x.attr "model" = some m) :
    (∀ p d, (p, d) ∈ paramDims m → (∀ v, ¬ R.Finds x p v d) → ∀ c, R.crossSection x ≠ .ok c) ∧
    (m ∈ ["constant", "vhs", "inverse", "log"] → x.named "threshold" ≠ [] → (∀ e, ¬ R.Finds x "threshold" e .energy) →
      (∀ v, ¬ R.Finds x "threshold" v .speed) → ∀ c, R.crossSection x ≠ .ok c) := by
  constructor
  · intro p d hp hn c hc
    rw [C110_read] at hc
    cases hc with
    | constant v t h h1 h2 =>
      obtain rfl : m = "constant" := by simpa [hm] using h
      simp only [paramDims, List.mem_singleton, Prod.mk.injEq] at hp
      obtain ⟨rfl, rfl⟩ := hp
      exact hn _ h1
    | vhs v T w t h h1 h2 h3 h4 =>
      obtain rfl : m = "vhs" := by simpa [hm] using h
      simp only [paramDims, List.mem_cons, List.not_mem_nil, or_false, Prod.mk.injEq] at hp
      rcases hp with ⟨rfl, rfl⟩ | ⟨rfl, rfl⟩ | ⟨rfl, rfl⟩
      exacts [hn _ h1, hn _ h2, hn _ h3]
    | inverse k t h h1 h2 =>
      obtain rfl : m = "inverse" := by simpa [hm] using h
      simp only [paramDims, List.mem_singleton, Prod.mk.injEq] at hp
      obtain ⟨rfl, rfl⟩ := hp
      exact hn _ h1
    | log A B t h h1 h2 h3 =>
      obtain rfl : m = "log" := by simpa [hm] using h
      simp only [paramDims, List.mem_cons, List.not_mem_nil, or_false, Prod.mk.injEq] at hp
      rcases hp with ⟨rfl, rfl⟩ | ⟨rfl, rfl⟩
      exacts [hn _ h1, hn _ h2]
    | data ps rows h h1 h2 =>
      obtain rfl : m = "data" := by simpa [hm] using h
      simp [paramDims] at hp
    | lotz ss h h1 =>
      obtain rfl : m = "lotz" := by simpa [hm] using h
      simp [paramDims] at hp
  · intro hmem hne hE hV c hc
    have key : ∀ t, ¬ R.FindsThreshold x t := by
      rintro t (h | ⟨e, h⟩ | ⟨e, h⟩)
      exacts [hne h, hE _ h, hV _ h]
    rw [C110_read] at hc
    cases hc with
    | constant v t h h1 h2 => exact key _ h2
    | vhs v T w t h h1 h2 h3 h4 => exact key _ h4
    | inverse k t h h1 h2 => exact key _ h2
    | log A B t h h1 h2 h3 => exact key _ h3
    | data ps rows h h1 h2 =>
      obtain rfl : m = "data" := by simpa [hm] using h
      simp at hmem
    | lotz ss h h1 =>
      obtain rfl : m = "lotz" := by simpa [hm] using h
      simp at hmem

/-- An energy and a speed that belong together for the reduced mass `mu`, in either order, or the same twice. -/
inductive SamePoint (mu : ℝ) : ThrDoc → ThrDoc → Prop
  | refl (t : ThrDoc) : SamePoint mu t t
  | energy (v : ℝ) : 0 ≤ v → SamePoint mu (.energy (1 / 2 * mu * v ^ 2)) (.speed v)
  | speed (v : ℝ) : 0 ≤ v → SamePoint mu (.speed v) (.energy (1 / 2 * mu * v ^ 2))

/-- Documents that differ only in whether energies or speeds are written. -/
inductive SameDoc (mu : ℝ) : CSDoc → CSDoc → Prop
  | constant (v : ℝ) {t u : Option ThrDoc} : Option.Rel (SamePoint mu) t u → SameDoc mu (.constant v t) (.constant v u)
  | vhs (p : VHSParam) {t u : Option ThrDoc} : Option.Rel (SamePoint mu) t u → SameDoc mu (.vhs p t) (.vhs p u)
  | inverse (k : ℝ) {t u : Option ThrDoc} : Option.Rel (SamePoint mu) t u → SameDoc mu (.inverse k t) (.inverse k u)
  | log (A B : ℝ) {t u : Option ThrDoc} : Option.Rel (SamePoint mu) t u → SameDoc mu (.log A B t) (.log A B u)
  | data {r s : List RowDoc} : List.Forall₂ (fun a b : RowDoc => SamePoint mu a.1 b.1 ∧ a.2 = b.2) r s →
      SameDoc mu (.data r) (.data s)

private theorem same_threshold {mu : ℝ} {t u : Option ThrDoc} (h : Option.Rel (SamePoint mu) t u) :
    loadThreshold mu t = loadThreshold mu u := by
  rcases h with ⟨h⟩ | _
  · cases h <;> simp [loadThreshold, sq]
  · rfl

/-- **C110**  Energies and the speeds that belong to them can be used interchangeably: the loaded cross section is the
same, for every threshold and every row of a table. -/
theorem C110_energy_or_speed (solve : RootFinder) (ext : Bool) {mu : ℝ} (hmu : 0 < mu) {d e : CSDoc} (h : SameDoc mu d e) :
    d.load solve ext mu = e.load solve ext mu := by
  cases h with
  | constant v h => simp only [CSDoc.load, same_threshold h]
  | vhs p h => simp only [CSDoc.load, same_threshold h]
  | inverse k h => simp only [CSDoc.load, same_threshold h]
  | log A B h => simp only [CSDoc.load, same_threshold h]
  | data h =>
    rename_i r s
    have key : ∀ t : XTable, r.foldl (fun t r => XTable.insert t
        (match r.1 with
          | .energy e => Real.sqrt (e / (1 / 2 * mu))
          | .speed v => v, r.2)) t = s.foldl (fun t r => XTable.insert t
        (match r.1 with
          | .energy e => Real.sqrt (e / (1 / 2 * mu))
          | .speed v => v, r.2)) t := by
      induction h with
      | nil => intro t; rfl
      | cons hab _ ih =>
        intro t
        rename_i a b _ _ _
        obtain ⟨a1, a2⟩ := a
        obtain ⟨b1, b2⟩ := b
        obtain ⟨h1, rfl⟩ : SamePoint mu a1 b1 ∧ a2 = b2 := hab
        have hs : ∀ v : ℝ, 0 ≤ v → Real.sqrt (1 / 2 * mu * v ^ 2 / (1 / 2 * mu)) = v := by
          intro v hv
          rw [mul_div_cancel_left₀ _ (by positivity), Real.sqrt_sq hv]
        rw [List.foldl_cons, List.foldl_cons, ih]
        cases h1 with
        | refl => rfl
        | energy v hv => simp only [hs v hv]
        | speed v hv => simp only [hs v hv]
    exact congrArg (mkData ext mu) (key [])

/-- **C110**  A threshold that is written as a speed is the threshold speed of the loaded cross section.  The sign is
lost (finding): a negative speed counts as its absolute value, whereas a negative energy is refused. -/
theorem C110_threshold_sign (solve : RootFinder) (ext : Bool) {mu : ℝ} (hmu : 0 < mu) (value : ℝ) :
    (∀ u : ℝ, ∃ cs, CSDoc.load solve ext mu (.constant value (some (.speed u))) = .ok cs ∧
      cs.thrE = 1 / 2 * mu * u ^ 2 ∧ ∀ v, cs.sigma v = .ok (if |u| ≤ v then value else 0)) ∧
    (∀ E : ℝ, E < 0 → CSDoc.load solve ext mu (.constant value (some (.energy E))) = .error .badThreshold) := by
  constructor
  · intro u
    have h0 : ¬ 1 / 2 * mu * (u * u) < 0 := by
      have := mul_self_nonneg u
      have : 0 ≤ 1 / 2 * mu * (u * u) := by positivity
      linarith
    have hs : Real.sqrt (1 / 2 * mu * (u * u) / (1 / 2 * mu)) = |u| := by
      rw [mul_div_cancel_left₀ _ (by positivity), Real.sqrt_mul_self_eq_abs]
    refine ⟨_, by simp only [CSDoc.load, mkConstant, setThreshold, loadThreshold, h0, if_false]; rfl, ?_, ?_⟩
    · ring
    · intro v
      simp only [hs, ge_iff_le]
  · intro E hE
    simp [CSDoc.load, mkConstant, setThreshold, loadThreshold, hE]

/-- **C110**  The declared change of energy of an inelastic interaction: written once as an energy it is read; written
once as anything else it is an error.  Written twice (finding) it counts as not written at all, and no error is thrown. -/
theorem C110_declared (R : Reader) (x : Xml) :
    (∀ e, R.declared x = .ok (some e) ↔ R.Finds x "KineticEnergyChange" e .energy) ∧
    (R.declared x = .ok none ↔ (x.named "KineticEnergyChange").length ≠ 1) := by
  unfold Reader.declared
  rcases hv : R.value x "KineticEnergyChange" .energy with err | v
  · have hno : ∀ e, ¬ R.Finds x "KineticEnergyChange" e .energy := fun e he => by
      rw [value_iff.2 he] at hv
      cases hv
    unfold Reader.value Reader.query at hv
    rcases hn : x.named "KineticEnergyChange" with _ | ⟨c, _ | ⟨c', l⟩⟩
    · simp only [hn, bind, Except.bind, Except.error.injEq] at hv
      subst hv
      simp [hno]
    · simp only [hn] at hv
      have : err = .notAQuantity ∨ err = .dimension := by
        rcases he : R.eval c.str with _ | q
        · simp only [he, bind, Except.bind, Except.error.injEq] at hv
          exact .inl hv.symm
        · simp only [he, bind, Except.bind, Qty.coeffIn] at hv
          split_ifs at hv
          · simp only [Except.error.injEq] at hv
            exact .inr hv.symm
      rcases this with rfl | rfl <;> simp [hno]
    · simp only [hn, bind, Except.bind, Except.error.injEq] at hv
      subst hv
      simp [hno]
  · have hf := value_iff.1 hv
    obtain ⟨c, hc, hq⟩ := hf
    refine ⟨fun e => ?_, ?_⟩
    · simp only [Except.ok.injEq, Option.some.injEq]
      constructor
      · rintro rfl
        exact ⟨c, hc, hq⟩
      · rintro ⟨c', hc', hq'⟩
        obtain rfl : c = c' := by simpa [hc] using hc'
        rw [hq] at hq'
        cases hq'
        rfl
    · simp [hc]

/-! ### Elements written by the Python module -/

private theorem named_ref (t : String) (ht : t ≠ "reference") (ref : Option (String × Option String)) :
    (ref.map fun r => pyReference r.1 r.2).toList.filter (Xml.hasTag t) = [] := by
  cases ref with
  | none => rfl
  | some r => simp [pyReference, Xml.hasTag, Ne.symm ht]

/-- **C110**  A VHS cross section written by the Python module is read with the values it was written for, provided
that their texts are an area, a temperature and a number; otherwise it is not read. -/
theorem C110_python_vhs (R : Reader) (v t w : String) (ref : Option (String × Option String)) (d : CSDoc) :
    R.crossSection (pyVHS v t w (ref.map fun r => pyReference r.1 r.2)) = .ok d ↔
      ∃ a T ω, R.eval v.toList = some ⟨a, .area⟩ ∧ R.eval t.toList = some ⟨T, .temperature⟩ ∧
        R.eval w.toList = some ⟨ω, .unity⟩ ∧ d = .vhs (vhsInfo R.KB R.tiny a T ω) none := by
  set x := pyVHS v t w (ref.map fun r => pyReference r.1 r.2) with hx
  have hm : x.attr "model" = some "vhs" := by simp [hx, pyVHS, Xml.attr, List.lookup]
  have h1 : x.named "value" = [.elem "value" [] [.text v]] := by
    simp [hx, pyVHS, Xml.named, Xml.hasTag, named_ref]
  have h2 : x.named "T_ref" = [.elem "T_ref" [] [.text t]] := by
    simp [hx, pyVHS, Xml.named, Xml.hasTag, named_ref]
  have h3 : x.named "visc_T_law" = [.elem "visc_T_law" [] [.text w]] := by
    simp [hx, pyVHS, Xml.named, Xml.hasTag, named_ref]
  have h4 : x.named "threshold" = [] := by
    simp [hx, pyVHS, Xml.named, Xml.hasTag, named_ref]
  have hf : ∀ {p s : String} {a : ℝ} {dm : SIDim} {tag : String}, x.named p = [.elem tag [] [.text s]] →
      (R.Finds x p a dm ↔ R.eval s.toList = some ⟨a, dm⟩) := by
    intro p s a dm tag h
    unfold Reader.Finds
    rw [h]
    constructor
    · rintro ⟨c, hc, he⟩
      obtain rfl : _ = c := by simpa using hc
      simpa [Xml.str, Xml.strs] using he
    · intro he
      exact ⟨_, rfl, by simpa [Xml.str, Xml.strs] using he⟩
  rw [C110_read]
  constructor
  · intro h
    cases h with
    | vhs a T ω t h e1 e2 e3 e4 =>
      refine ⟨a, T, ω, (hf h1).1 e1, (hf h2).1 e2, (hf h3).1 e3, ?_⟩
      rcases e4 with e | ⟨e, c, e, -⟩ | ⟨e, c, e, -⟩
      · rfl
      · simp [h4] at e
      · simp [h4] at e
    | _ => simp_all
  · rintro ⟨a, T, ω, e1, e2, e3, rfl⟩
    exact .vhs a T ω none hm ((hf h1).2 e1) ((hf h2).2 e2) ((hf h3).2 e3) (.missing h4)

/-- **C110** (finding)  A Lotz cross section written by the Python module is not read as such.  If the parser for
vectors takes the children named `LotzParameters`, as the data file of the library has them, it finds none, and the
cross section does not load.  If it takes every child, it fails on the reference that comes with them. -/
theorem C110_python_lotz (R : Reader) (ps : List PyLotz) (ref : Option (String × Option String)) :
    let x := pyLotz ps (ref.map fun r => pyReference r.1 r.2)
    ((∀ c, R.takes c = c.hasTag "LotzParameters") →
      R.crossSection x = .ok (.lotz []) ∧
      ∀ solve ext mu, CSDoc.load solve ext mu (.lotz []) = .error .nonfinite) ∧
    ((∀ c, R.takes c = true) → ref ≠ none → ∀ d, R.crossSection x ≠ .ok d) := by
  intro x
  have hm : x.attr "model" = some "lotz" := by simp [x, pyLotz, Xml.attr, List.lookup]
  constructor
  · intro hs
    constructor
    · rw [C110_read]
      refine .lotz [] hm ?_
      have : x.kids.filter R.takes = [] := by
        rw [List.filter_eq_nil_iff]
        intro c hc
        rw [hs]
        simp only [x, pyLotz, Xml.kids, List.mem_append, List.mem_map, Option.mem_toList] at hc
        rcases hc with ⟨p, -, rfl⟩ | hc
        · simp [pyLotzParameter, Xml.hasTag]
        · cases ref with
          | none => simp at hc
          | some r =>
            simp only [Option.map_some, Option.some.injEq] at hc
            subst hc
            simp [pyReference, Xml.hasTag]
      rw [this]
      exact .nil
    · intro solve ext mu
      rfl
  · intro hs hr d hd
    rw [C110_read] at hd
    cases hd with
    | lotz ss h h1 =>
      obtain ⟨r, rfl⟩ := Option.ne_none_iff_exists'.1 hr
      have hk : pyReference r.1 r.2 ∈ x.kids.filter R.takes := by
        rw [List.mem_filter]
        exact ⟨by simp [x, pyLotz, Xml.kids], hs _⟩
      obtain ⟨s, -, hs'⟩ : ∃ s ∈ ss, R.FindsShell (pyReference r.1 r.2) s := by
        clear hm h
        revert hk
        generalize x.kids.filter R.takes = l at h1
        intro hk
        induction h1 with
        | nil => simp at hk
        | cons hab _ ih =>
          rcases List.mem_cons.1 hk with rfl | hk
          · exact ⟨_, List.mem_cons_self, hab⟩
          · obtain ⟨s, hs, h⟩ := ih hk
            exact ⟨s, List.mem_cons_of_mem _ hs, h⟩
      obtain ⟨c, hc, -⟩ := hs'.1
      obtain ⟨r1, r2⟩ := r
      cases r2 <;> simp [pyReference, Xml.named, Xml.hasTag] at hc
    | _ => simp_all

/-- **C110**  What the Python class for Lotz parameters writes is read as a subshell exactly if its five texts are an
energy, a number, an area times the square of an energy, and two numbers; and then with these values. -/
theorem C110_python_shell (R : Reader) (p : PyLotz) (s : LotzPar) :
    R.lotzPar (pyLotzParameter p.P p.q p.a p.b p.c) = .ok s ↔
      R.eval p.P.toList = some ⟨s.P, .energy⟩ ∧ R.eval p.q.toList = some ⟨s.q, .unity⟩ ∧
      R.eval p.a.toList = some ⟨s.a, .areaEnergy2⟩ ∧ R.eval p.b.toList = some ⟨s.b, .unity⟩ ∧
      R.eval p.c.toList = some ⟨s.c, .unity⟩ ∧ s.beta = R.me / (2 * s.P) := by
  rw [shell_iff]
  unfold Reader.FindsShell Reader.Finds
  simp [pyLotzParameter, Xml.named, Xml.hasTag, Xml.str, Xml.strs]

/-- **C110**  With a parser for vectors that takes the children under the name the Python module gives them, a Lotz
cross section written by the module is read as the list of its subshells, reference or not. -/
theorem C110_python_lotz_named (R : Reader) (ps : List PyLotz) (ref : Option (String × Option String)) (d : CSDoc)
    (ht : ∀ c, R.takes c = c.hasTag "LotzParameter") :
    R.crossSection (pyLotz ps (ref.map fun r => pyReference r.1 r.2)) = .ok d ↔
      ∃ ss, d = .lotz ss ∧ List.Forall₂ (fun (p : PyLotz) (s : LotzPar) =>
        R.eval p.P.toList = some ⟨s.P, .energy⟩ ∧ R.eval p.q.toList = some ⟨s.q, .unity⟩ ∧
        R.eval p.a.toList = some ⟨s.a, .areaEnergy2⟩ ∧ R.eval p.b.toList = some ⟨s.b, .unity⟩ ∧
        R.eval p.c.toList = some ⟨s.c, .unity⟩ ∧ s.beta = R.me / (2 * s.P)) ps ss := by
  set x := pyLotz ps (ref.map fun r => pyReference r.1 r.2) with hx
  have hm : x.attr "model" = some "lotz" := by simp [hx, pyLotz, Xml.attr, List.lookup]
  have hk : x.kids.filter R.takes = ps.map fun p => pyLotzParameter p.P p.q p.a p.b p.c := by
    have e : R.takes = Xml.hasTag "LotzParameter" := funext ht
    rw [e, hx, pyLotz, Xml.kids, List.filter_append, named_ref _ (by decide), List.append_nil, List.filter_eq_self]
    intro c hc
    obtain ⟨p, -, rfl⟩ := List.mem_map.1 hc
    simp [pyLotzParameter, Xml.hasTag]
  have hs : ∀ (p : PyLotz) (s : LotzPar), R.FindsShell (pyLotzParameter p.P p.q p.a p.b p.c) s ↔ _ := fun p s =>
    shell_iff.symm.trans (C110_python_shell R p s)
  rw [C110_read]
  constructor
  · intro h
    cases h with
    | lotz ss h h1 =>
      refine ⟨ss, rfl, ?_⟩
      rw [hk, List.forall₂_map_left_iff] at h1
      exact h1.imp fun p s => (hs p s).1
    | _ => simp_all
  · rintro ⟨ss, rfl, h⟩
    refine .lotz ss hm ?_
    rw [hk, List.forall₂_map_left_iff]
    exact h.imp fun p s => (hs p s).2

/-- **C110**  The parameter of the VSS model is the number in the one `vss_param_inv` element. -/
theorem C110_vss (R : Reader) (x : Xml) (k : ℝ) : R.vssParamInv x = .ok k ↔ R.Finds x "vss_param_inv" k .unity :=
  value_iff

/-! ### Examples -/

section ReadingExample

/-- A calculator that knows a few texts. -/
noncomputable def fewTexts : Reader where
  eval s := if s = "3 m^2".toList then some ⟨3, .area⟩ else if s = "273 K".toList then some ⟨273, .temperature⟩
    else if s = "1".toList then some ⟨1, .unity⟩ else if s = "5 m/s".toList then some ⟨5, .speed⟩ else none
  pairs _ := .error .notAQuantity
  takes c := c.hasTag "LotzParameters"
  KB := 1
  tiny := 1
  me := 1

private theorem few_area : fewTexts.eval "3 m^2".toList = some ⟨3, .area⟩ := by
  unfold fewTexts; beta_reduce; dsimp only
  rw [if_pos rfl]
private theorem few_temp : fewTexts.eval "273 K".toList = some ⟨273, .temperature⟩ := by
  unfold fewTexts; beta_reduce; dsimp only
  rw [if_neg (by decide), if_pos rfl]
private theorem few_one : fewTexts.eval "1".toList = some ⟨1, .unity⟩ := by
  unfold fewTexts; beta_reduce; dsimp only
  rw [if_neg (by decide), if_neg (by decide), if_pos rfl]
private theorem few_speed : fewTexts.eval "5 m/s".toList = some ⟨5, .speed⟩ := by
  unfold fewTexts; beta_reduce; dsimp only
  rw [if_neg (by decide), if_neg (by decide), if_neg (by decide), if_pos rfl]

private theorem str_one (t s : String) : (Xml.elem t [] [.text s]).str = s.toList := by simp [Xml.str, Xml.strs]

/-- Non-trivial case: a constant cross section with a threshold speed. -/
example : fewTexts.crossSection (.elem "cross_section" [("model", "constant")]
    [.text "\n", .elem "value" [] [.text "3 m^2"], .elem "threshold" [] [.text "5 m/s"]]) =
    .ok (.constant 3 (some (.speed 5))) := by
  rw [C110_read]
  refine .constant _ _ rfl ⟨.elem "value" [] [.text "3 m^2"], by simp [Xml.named, Xml.hasTag], ?_⟩
    (.speed _ ⟨.elem "threshold" [] [.text "5 m/s"], by simp [Xml.named, Xml.hasTag], ?_⟩)
  · rw [str_one, few_area]
  · rw [str_one, few_speed]

/-- The same with a temperature for the value is not read. -/
example (d : CSDoc) : fewTexts.crossSection (.elem "cross_section" [("model", "constant")]
    [.elem "value" [] [.text "273 K"]]) ≠ .ok d := by
  refine (C110_rejected fewTexts _ rfl).1 "value" .area (by simp [paramDims]) ?_ d
  rintro v ⟨c, hc, he⟩
  obtain rfl : Xml.elem "value" [] [.text "273 K"] = c := by simpa [Xml.named, Xml.hasTag] using hc
  rw [str_one, few_temp] at he
  simp [SIDim.area, SIDim.temperature] at he

/-- Non-trivial case: the Python writer. -/
example : ∃ d, fewTexts.crossSection (pyVHS "3 m^2" "273 K" "1" (some (pyReference "Bird" none))) = .ok d :=
  ⟨_, (C110_python_vhs fewTexts "3 m^2" "273 K" "1" (some ("Bird", none)) _).2
    ⟨_, _, _, few_area, few_temp, few_one, rfl⟩⟩

end ReadingExample

end Chimp
