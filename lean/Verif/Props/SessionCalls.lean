import Verif.Props.Session

/-!
# C82: what each call does to a database
-/

namespace Chimp

variable {W : Type}

/-! ## Specification -/

/-- Reading species by name from a document: the names of `done` are read, and reading stops at the first of `rest`. -/
structure ReadsNames (particles : List (Props ℝ)) (r r' : Registry ℝ) (done rest : List String) : Prop where
  /-- species there keep their places -/
  keeps : r <+: r'
  /-- each name has exactly one `Particle` -/
  unique : ∀ n ∈ done, particles.countP (fun p => p.name = n) = 1
  /-- the species afterwards are the old ones and, for names not known before, those read -/
  mem : ∀ q, q ∈ r' ↔ q ∈ r ∨ (q.name ∈ done ∧ q ∈ particles ∧ ∀ p ∈ r, p.name ≠ q.name)
  /-- the first name of `rest` has no `Particle` or several -/
  stops : ∀ n, rest.head? = some n → particles.countP (fun p => p.name = n) ≠ 1

/-! ## Lemmas -/

theorem addByName_ok {doc : List (Props ℝ)} {r r' : Registry ℝ} {n : String} (h : addParticleByName doc r n = .ok r') :
    ∃ p, doc.filter (fun p => p.name = n) = [p] ∧ r' = addParticleType r p := by
  unfold addParticleByName at h
  split at h
  · rename_i p hp; cases h; exact ⟨p, hp, rfl⟩
  · cases h
  · cases h

theorem addByName_error {doc : List (Props ℝ)} {r : Registry ℝ} {n : String} {e : String}
    (h : addParticleByName doc r n = .error e) : doc.countP (fun p => p.name = n) ≠ 1 := by
  rw [List.countP_eq_length_filter]
  intro hl
  obtain ⟨p, hp⟩ := List.length_eq_one_iff.1 hl
  unfold addParticleByName at h
  rw [hp] at h
  cases h

theorem mem_addType {r : Registry ℝ} {p q : Props ℝ} :
    q ∈ addParticleType r p ↔ q ∈ r ∨ (q = p ∧ ∀ x ∈ r, x.name ≠ p.name) := by
  unfold addParticleType
  by_cases h : findParticle r p.name = r.length
  · rw [if_neg (not_not.2 h)]
    have h' : ∀ x ∈ r, x.name ≠ p.name := (findParticle_eq_length_iff r p.name).1 h
    rw [List.mem_append, List.mem_singleton, and_iff_left h']
  · rw [if_pos h]
    have : ¬ ∀ x ∈ r, x.name ≠ p.name := fun hh => h ((findParticle_eq_length_iff r p.name).2 hh)
    simp [this]

theorem addNamesLoop_spec (doc : List (Props ℝ)) : ∀ (ns : List String) (r : Registry ℝ),
    ∃ done rest, ns = done ++ rest ∧ ReadsNames doc r (addNamesLoop doc ns r).1 done rest ∧
      ((addNamesLoop doc ns r).2 = none ↔ rest = []) ∧ ∀ e, (addNamesLoop doc ns r).2 = some e → ∃ t, e = .xml t
  | [], r => ⟨[], [], rfl, ⟨List.prefix_refl _, by simp, by simp [addNamesLoop], by simp⟩, by simp [addNamesLoop],
      by simp [addNamesLoop]⟩
  | n :: ns, r => by
    cases h : addParticleByName doc r n with
    | error e =>
      refine ⟨[], n :: ns, rfl, ⟨?_, by simp, ?_, ?_⟩, ?_, ?_⟩
      · simp [addNamesLoop, h]
      · simp [addNamesLoop, h]
      · intro m hm
        cases hm
        exact addByName_error h
      · simp [addNamesLoop, h]
      · simp [addNamesLoop, h]
    | ok r1 =>
      obtain ⟨p, hp, rfl⟩ := addByName_ok h
      have hpd : p ∈ doc ∧ p.name = n := by
        have : p ∈ doc.filter (fun p => p.name = n) := by rw [hp]; simp
        simpa using this
      have hpu : ∀ q ∈ doc, q.name = n → q = p := by
        intro q hq hqn
        have : q ∈ doc.filter (fun p => p.name = n) := by simpa using ⟨hq, hqn⟩
        rw [hp] at this
        simpa using this
      obtain ⟨done, rest, hns, ⟨k1, k2, k3, k4⟩, h2, h3⟩ := addNamesLoop_spec doc ns (addParticleType r p)
      have hloop : addNamesLoop doc (n :: ns) r = addNamesLoop doc ns (addParticleType r p) := by
        simp only [addNamesLoop, h]
      rw [hloop]
      refine ⟨n :: done, rest, by rw [hns]; rfl, ⟨?_, ?_, ?_, k4⟩, h2, h3⟩
      · refine List.IsPrefix.trans ?_ k1
        unfold addParticleType
        split
        · exact List.prefix_refl _
        · exact List.prefix_append _ _
      · intro m hm
        rcases List.mem_cons.1 hm with rfl | hm
        · rw [List.countP_eq_length_filter, hp]; rfl
        · exact k2 m hm
      · intro q
        rw [k3, mem_addType]
        constructor
        · rintro ((hq | ⟨rfl, hq⟩) | ⟨h1, h2, h3⟩)
          · exact .inl hq
          · exact .inr ⟨by simp [hpd.2], hpd.1, hq⟩
          · exact .inr ⟨List.mem_cons_of_mem _ h1, h2, fun x hx => h3 x (mem_addType.2 (.inl hx))⟩
        · rintro (hq | ⟨g1, g2, g3⟩)
          · exact .inl (.inl hq)
          · by_cases hqn : q.name = n
            · obtain rfl := hpu q g2 hqn
              exact .inl (.inr ⟨rfl, g3⟩)
            · refine .inr ⟨(List.mem_cons.1 g1).resolve_left hqn, g2, fun x hx => ?_⟩
              rcases mem_addType.1 hx with hx | ⟨rfl, -⟩
              · exact g3 x hx
              · rw [hpd.2]; exact fun he => hqn he.symm

/-! ## C82 -/

/-- **C82**  Adding species by name: names are read in order up to the first that does not have exactly one `Particle`
in the document; the call returns if there is none, and throws otherwise, and nothing else changes. -/
theorem C82_add_names (T : Tools W) (auto : Bool) (s s' : Session W) (ns : List String) {r : Except SErr ℕ}
    (h : (Call.addNames ns).run T auto s = (s', r)) :
    ∃ done rest, ns = done ++ rest ∧ ReadsNames s.doc.particles s.props s'.props done rest ∧
      (rest = [] → r = .ok 0) ∧ (rest ≠ [] → ∃ t, r = .error (.xml t)) ∧ s' = { s with props := s'.props } := by
  obtain ⟨done, rest, h1, h2, h3, h4⟩ := addNamesLoop_spec s.doc.particles ns s.props
  unfold Call.run at h
  dsimp only at h
  obtain ⟨e1, e2⟩ := Prod.mk.inj h
  have hp : s'.props = (addNamesLoop s.doc.particles ns s.props).1 := by rw [← e1]
  refine ⟨done, rest, h1, by rw [hp]; exact h2, fun hr => ?_, fun hr => ?_, by rw [hp]; exact e1.symm⟩
  · rw [h3.2 hr] at e2; exact e2.symm
  · cases hx : (addNamesLoop s.doc.particles ns s.props).2 with
    | none => exact absurd (h3.1 hx) hr
    | some e =>
      rw [hx] at e2
      obtain ⟨t, rfl⟩ := h4 e hx
      exact ⟨t, e2.symm⟩

/-- **C82**  Adding a model: its species are added by name, and then, if the document has exactly one `equation-filter`
for it that describes a filter, that filter replaces the one in force.  Otherwise the call throws and the filter stays. -/
theorem C82_add_model (T : Tools W) (auto : Bool) (s s' : Session W) (m : String) {r : Except SErr ℕ}
    (h : (Call.addModel m).run T auto s = (s', r)) :
    ∃ done rest, (s.doc.models.filter (fun x => x.name = m)).flatMap ModelDoc.particles = done ++ rest ∧
      ReadsNames s.doc.particles s.props s'.props done rest ∧
      s'.doc = s.doc ∧ s'.dflt = s.dflt ∧ s'.table = s.table ∧
      ((r = .ok 0 ∧ rest = [] ∧ ∃ x, (s.doc.models.filter (fun x => x.name = m)).flatMap ModelDoc.filters = [x] ∧
          ((x.children = [] ∧ s'.filter = .null) ∨ ∃ c, x.children = [c] ∧ Denotes c s'.filter)) ∨
       ((∃ e, r = .error e) ∧ s'.filter = s.filter ∧
          (rest ≠ [] ∨ ((s.doc.models.filter (fun x => x.name = m)).flatMap ModelDoc.filters).length ≠ 1 ∨
            ∃ x, (s.doc.models.filter (fun x => x.name = m)).flatMap ModelDoc.filters = [x] ∧
              ∃ e, loadEquationFilter x = .error e))) := by
  obtain ⟨done, rest, h1, h2, h3, h4⟩ := addNamesLoop_spec s.doc.particles
    ((s.doc.models.filter (fun x => x.name = m)).flatMap ModelDoc.particles) s.props
  refine ⟨done, rest, h1, ?_⟩
  change s.addModel m = (s', r) at h
  unfold Session.addModel at h
  dsimp only at h
  split at h
  · rename_i e he
    cases h
    exact ⟨h2, rfl, rfl, rfl, .inr ⟨⟨e, rfl⟩, rfl, .inl fun hr => by rw [h3.2 hr] at he; cases he⟩⟩
  · rename_i he
    have hrest := h3.1 he
    split at h
    · rename_i x hx
      split at h
      · rename_i e hf
        cases h
        exact ⟨h2, rfl, rfl, rfl, .inr ⟨⟨_, rfl⟩, rfl, .inr (.inr ⟨x, hx, e, hf⟩)⟩⟩
      · rename_i f hf
        cases h
        exact ⟨h2, rfl, rfl, rfl, .inl ⟨rfl, hrest, x, hx, (C23_equation_filter x f).1 hf⟩⟩
    · rename_i hx
      cases h
      exact ⟨h2, rfl, rfl, rfl, .inr ⟨⟨_, rfl⟩, rfl, .inr (.inl (by rw [hx]; simp))⟩⟩
    · rename_i hx1 hx2
      cases h
      refine ⟨h2, rfl, rfl, rfl, .inr ⟨⟨_, rfl⟩, rfl, .inr (.inl fun hl => ?_)⟩⟩
      obtain ⟨x, hx⟩ := List.length_eq_one_iff.1 hl
      exact hx1 x hx

/-- **C82**  Without a call that sets a filter only interactions written with the same text on both sides are loaded. -/
theorem C82_default_filter {T : Tools W} {auto : Bool} {D0 : SDoc} {cs : List Call} (h : SpeciesFirst cs) {s : Session W}
    (hs : runCalls T auto cs (Session.new D0) = s) (hf : ∀ c ∈ cs, (∀ f, c ≠ .filter f) ∧ ∀ m, c ≠ .addModel m)
    {A B : ℕ} (hAB : A ≤ B) (hB : B < s.props.length) {w : WEq W} (hw : w ∈ s.eqs A B) :
    (∃ D f, ∃ k : ℕ, ∃ x : XInter, InForce T auto D0 cs D f ∧ D.doc.nodes[k]? = some x ∧ x.inText = x.outText ∧
      loadEq s.props csNames modelNames ⟨x.ins, x.outs, x.csModel, x.modelAttr⟩ = .ok w.eq) ∨
    MadeIn T s.props s.table A B w := by
  have hrun : ∀ (l : List Call), (∀ c ∈ l, (∀ f, c ≠ .filter f) ∧ ∀ m, c ≠ .addModel m) → ∀ r : Session W,
      (runCalls T auto l r).filter = r.filter := by
    intro l
    induction l with
    | nil => intro _ r; rfl
    | cons c l ih =>
      intro hl r
      show (runCalls T auto l (c.run T auto r).1).filter = _
      rw [ih (fun x hx => hl x (List.mem_cons_of_mem _ hx))]
      obtain ⟨h1, h2⟩ := hl c List.mem_cons_self
      cases c with
      | filter f => exact absurd rfl (h1 f)
      | addModel m => exact absurd rfl (h2 m)
      | init =>
        show (r.init T auto).1.filter = _
        unfold Session.init Session.create
        dsimp only
        split
        · rfl
        · cases auto <;> rfl
      | _ => rfl
  have hist := history_inv (T := T) (auto := auto) (D0 := D0) h
  rw [hs] at hist
  rcases hist with ⟨hb, -⟩ | hi
  · unfold Session.eqs UTable.get? at hw
    rw [hb.side, if_neg (by omega)] at hw
    simp at hw
  · rw [eqs_of_le hAB (by rw [hi.all.1]; exact hB)] at hw
    rcases hi.all.2 A B hAB hB w hw with ⟨D, f, hD, k, hk, x, hx, hl, -⟩ | hm
    · left
      refine ⟨D, f, k, x, hD, hx, ?_, hl⟩
      obtain ⟨pre, post, hc, -, hfl⟩ := hD
      have hfil : f = .elastic := by
        rw [← hfl, hrun pre (fun c hc' => hf c (by rw [hc]; simp [hc'])) (Session.new D0)]; rfl
      subst hfil
      unfold cellNodes at hk
      split at hk
      · unfold Filter.apply keepIf at hk
        have := (List.mem_filter.1 hk).2
        rw [hx] at this
        simpa using this
      · simp at hk
    · exact .inr hm

theorem none_lacking {T : Tools W} {H : SDoc → Filter → Prop} {s s' : Session W} (hi : SInv T H s) {vmax dv : ℝ}
    {n : ℕ} (hr : s.create T (-1) (-1) vmax dv = (s', .ok n)) {a b : ℕ} (hab : a < b) (hb : b < s'.props.length)
    (h1 : HasElastic s' a a) (h2 : HasElastic s' b b)
    (h3 : 0 < vmax ∨ 0 < s.dflt.vmax ∨ (EasyAt s' a ∧ EasyAt s' b)) : HasElastic s' a b := by
  obtain ⟨k1, -, -, -, L, l1, l2, l3, l4⟩ := session_create_spec hi hr
  rw [k1] at hb
  have hd : ∀ c, s'.eqs c c = s.eqs c c := fun c => l3 c c le_rfl fun hc => absurd (l2 c c hc).1 (lt_irrefl _)
  rcases l4 with ⟨-, l4⟩ | ⟨x, hx⟩
  · by_cases hL : (a, b) ∈ L
    · obtain ⟨-, -, -, -, w, hw, he, -⟩ := l2 a b hL
      exact ⟨w, by rw [hw]; simp, he⟩
    · by_contra hno
      refine hL (l4 a b hab hb (.inl ⟨.inl (by omega), .inl (by omega)⟩) ⟨?_, ?_, ?_, ?_⟩)
      · unfold HasElastic at hno ⊢
        rwa [l3 a b hab.le hL] at hno
      · unfold HasElastic at h1 ⊢; rwa [hd] at h1
      · unfold HasElastic at h2 ⊢; rwa [hd] at h2
      · unfold EasyAt at h3 ⊢
        rw [hd, hd] at h3
        tauto
  · cases hx

/-- **C80**  After creating cross sections without restriction, and, with `auto_create_missing_elastic`, after every
initialisation that returns, no pair lacks an elastic equation that could be made: if both species have an elastic
equation with themselves, and both are of the easy kinds or a largest speed is given, the pair has one. -/
theorem C80_none_lacking {T : Tools W} {auto : Bool} {D0 : SDoc} {cs : List Call} (h : SpeciesFirst cs)
    {s s' : Session W} (hs : runCalls T auto cs (Session.new D0) = s) {n : ℕ} {vmax dv : ℝ}
    (hr : (Call.init ∈ cs ∧ (Call.create (-1) (-1) vmax dv).run T auto s = (s', .ok n)) ∨
      (auto = true ∧ vmax = 0 ∧ SpeciesFirst (cs ++ [.init]) ∧ Call.init.run T auto s = (s', .ok n)))
    {a b : ℕ} (hab : a < b) (hb : b < s'.props.length) (h1 : HasElastic s' a a) (h2 : HasElastic s' b b)
    (h3 : 0 < vmax ∨ 0 < s.dflt.vmax ∨ (EasyAt s' a ∧ EasyAt s' b)) : HasElastic s' a b := by
  have hist := history_inv (T := T) (auto := auto) (D0 := D0) h
  rw [hs] at hist
  rcases hr with ⟨hin, hr⟩ | ⟨rfl, rfl, hsf, hr⟩
  · rcases hist with ⟨-, hno⟩ | hi
    · exact absurd trivial (hno _ hin)
    · exact none_lacking hi hr hab hb h1 h2 h3
  · have hinv : SBare s ∨ SInv T (InForce T true D0 (cs ++ [.init])) s := by
      rcases hist with ⟨hb, -⟩ | hi
      · exact .inl hb
      · refine .inr (hi.mono ?_)
        rintro D f ⟨p, q, e1, e2, e3⟩
        exact ⟨p, q ++ [.init], by rw [e1]; simp, e2, e3⟩
    have hfill := fill_inv hinv (⟨cs, [], rfl, by rw [hs], by rw [hs]⟩ :
      InForce T true D0 (cs ++ [.init]) s.doc s.filter)
    change s.init T true = (s', .ok n) at hr
    unfold Session.init at hr
    dsimp only at hr
    split at hr
    · cases hr
    · simp only [if_true] at hr
      exact none_lacking hfill hr hab hb h1 h2 h3

/-- **C82**  Creating cross sections for two names is creating them for the indices of the two species; a name that is
not a species means no restriction. -/
theorem C82_create_names {T : Tools W} {auto : Bool} {D0 : SDoc} {cs : List Call} (h : SpeciesFirst cs)
    {s : Session W} (hs : runCalls T auto cs (Session.new D0) = s) (n m : String) (vmax dv : ℝ) :
    ∃ i j : ℤ, (Call.createNames n m vmax dv).run T auto s = (Call.create i j vmax dv).run T auto s ∧
      (∀ (a : ℕ) p, s.props[a]? = some p → p.name = n → i = a) ∧ ((∀ p ∈ s.props, p.name ≠ n) → i = -1) ∧
      (∀ (b : ℕ) q, s.props[b]? = some q → q.name = m → j = b) ∧ ((∀ p ∈ s.props, p.name ≠ m) → j = -1) := by
  have hnd := (C79_every_state h hs).1
  have key : ∀ (x : String), (∀ (a : ℕ) p, s.props[a]? = some p → p.name = x → findParticleIndx s.props x = a) ∧
      ((∀ p ∈ s.props, p.name ≠ x) → findParticleIndx s.props x = -1) := by
    intro x
    constructor
    · rintro a p ha rfl
      unfold findParticleIndx
      rw [findParticle_unique hnd ha]
      have := (List.getElem?_eq_some_iff.1 ha).1
      rw [if_neg (by omega)]
    · intro hx
      unfold findParticleIndx
      rw [if_pos ((findParticle_eq_length_iff _ _).2 hx)]
  exact ⟨findParticleIndx s.props n, findParticleIndx s.props m, rfl, (key n).1, (key n).2, (key m).1, (key m).2⟩

/-- **C82**  Looking up a pair by names in an initialised database: an exception if a name is not a species, and else the
entry of the two species, which exists. -/
theorem C82_lookup {T : Tools W} {auto : Bool} {D0 : SDoc} {cs : List Call} (h : SpeciesFirst cs)
    {s : Session W} (hs : runCalls T auto cs (Session.new D0) = s) (hin : Call.init ∈ cs) (n m : String) :
    ((∃ e, lookupPair s.props s.table n m = .error e) ↔ (∀ p ∈ s.props, p.name ≠ n) ∨ ∀ p ∈ s.props, p.name ≠ m) ∧
    ∀ a b p q, s.props[a]? = some p → p.name = n → s.props[b]? = some q → q.name = m →
      ∃ c, lookupPair s.props s.table n m = .ok (some c) ∧ c.rhs = s.eqs a b := by
  obtain ⟨hnd, hin', -⟩ := C79_every_state h hs
  obtain ⟨-, hsome⟩ := hin' hin
  have hidx : ∀ x, findParticleIndx s.props x = -1 ↔ ∀ p ∈ s.props, p.name ≠ x := by
    intro x
    unfold findParticleIndx
    rw [← findParticle_eq_length_iff]
    split
    · simpa
    · rename_i hx
      simp only [hx, iff_false]
      omega
  constructor
  · unfold lookupPair
    dsimp only
    rw [← hidx n, ← hidx m]
    split
    · rename_i hx; simp [hx]
    · rename_i hx
      split
      · rename_i hy; simp [hy]
      · rename_i hy; simp [hx, hy]
  · rintro a b p q ha rfl hb rfl
    have hx : ∀ (c : ℕ) (z : Props ℝ), s.props[c]? = some z → findParticleIndx s.props z.name = c := by
      intro c z hc
      unfold findParticleIndx
      rw [findParticle_unique hnd hc]
      have := (List.getElem?_eq_some_iff.1 hc).1
      rw [if_neg (by omega)]
    obtain ⟨c, hc⟩ := Option.isSome_iff_exists.1 (hsome a b (List.getElem?_eq_some_iff.1 ha).1
      (List.getElem?_eq_some_iff.1 hb).1)
    refine ⟨c, ?_, ?_⟩
    · unfold lookupPair
      dsimp only
      rw [hx a p ha, hx b q hb, if_neg (by omega), if_neg (by omega)]
      simp [hc]
    · unfold Session.eqs
      rw [hc]

/-! ## Examples -/

namespace SessionExample

/-- Reading stops at a name without a `Particle`; the names before it are added. -/
example (T : Tools W) : ∃ s' : Session W, (Call.addNames ["y", "z", "x"]).run T false (Session.new doc) =
    (s', .error (.xml "no_results")) ∧ s'.props = [y] ∧ ReadsNames doc.particles [] [y] ["y"] ["z", "x"] := by
  refine ⟨{ Session.new doc with props := [y] }, rfl, rfl, ?_⟩
  obtain ⟨done, rest, h1, h2, h3, h4, -⟩ := C82_add_names T false (Session.new doc) { Session.new doc with props := [y] }
    ["y", "z", "x"] (r := .error (.xml "no_results")) rfl
  have hu := h2.unique
  have hz : (doc.particles.countP fun p => p.name = "z") = 0 := by decide +kernel
  have hy : (doc.particles.countP fun p => p.name = "y") = 1 := by decide +kernel
  match done, h1 with
  | [], h1 =>
    obtain rfl : rest = ["y", "z", "x"] := h1.symm
    exact absurd hy (h2.stops "y" rfl)
  | [a], h1 =>
    simp only [List.singleton_append, List.cons.injEq] at h1
    obtain ⟨rfl, rfl⟩ := h1
    exact h2
  | a :: b :: l, h1 =>
    simp only [List.cons_append, List.cons.injEq] at h1
    obtain ⟨rfl, rfl, -⟩ := h1
    have := hu "z" (by simp)
    exact absurd (hz.symm.trans this) (by decide)

/-- A document with a model of both species and all interactions. -/
def modelDoc : SDoc :=
  { doc with models := [⟨"gas", ["x", "y"], [.mk "equation-filter" (fun _ => none) "" none none
    [.mk "Null" (fun _ => none) "" none none []]]⟩] }

/-- Adding the model adds the species and sets the filter. -/
example (T : Tools W) : ∃ s' : Session W, (Call.addModel "gas").run T false (Session.new modelDoc) = (s', .ok 0) ∧
    s'.props = [x, y] ∧ s'.filter = .null :=
  ⟨{ Session.new modelDoc with props := [x, y], filter := .null }, rfl, rfl, rfl⟩

/-- The pair of the example lacks nothing after the call that creates. -/
example (T : Tools W) {s' : Session W} {n : ℕ} (hr : (Call.create (-1) (-1) 0 0).run T false
    (runCalls T false [.addNames ["y", "x"], .init] (Session.new doc)) = (s', .ok n)) : HasElastic s' 0 1 := by
  have hr' := hr
  rw [created T] at hr'
  obtain ⟨rfl, -⟩ := Prod.mk.inj hr'
  exact C80_none_lacking ⟨[.addNames ["y", "x"]], [.init], rfl, by simp [Call.IsInit], by simp [Call.AddsSpecies]⟩ rfl
    (.inl ⟨by simp, hr⟩) (by omega) (by show 1 < 2; omega) ⟨wx, by show wx ∈ [wx]; simp, rfl⟩
    ⟨wy, by show wy ∈ [wy]; simp, rfl⟩
    (.inr (.inr ⟨⟨wx, ⟨[], [], rfl, rfl, by simp⟩, .inr (.inr (.inl rfl))⟩,
      ⟨wy, ⟨[], [], rfl, rfl, by simp⟩, .inr (.inr (.inl rfl))⟩⟩))

/-- The names of the example find the created equation. -/
example (T : Tools W) {s : Session W} (hs : runCalls T false calls (Session.new doc) = s) :
    ∃ c, lookupPair s.props s.table "y" "x" = .ok (some c) ∧ c.rhs = [wxy] := by
  have hc : s = _ := hs.symm.trans (congrArg Prod.fst (created T))
  obtain ⟨c, h1, h2⟩ := (C82_lookup first hs (by simp [calls]) "y" "x").2 1 0 y x (by rw [hc]; rfl) rfl
    (by rw [hc]; rfl) rfl
  exact ⟨c, h1, by rw [h2, hc]; rfl⟩

/-- The document with a table for `y`: the value 16 at the speeds 0 and 10. -/
def dataNode : XInter := { node "y" with csModel := "data" }

def dataDoc : SDoc :=
  { doc := { nodes := [node "x", dataNode], inSection := fun _ _ => false }
    inter := fun k => if k = 0 then { cs := .constant 4 none } else { cs := .data [(.speed 0, 16), (.speed 10, 16)] }
    particles := [y, x] }

noncomputable def wd (d : XSec) : WEq W :=
  ⟨⟨Term.single 1, Term.single 1, [Term.many 1 2], "data", "elastic"⟩, ReducedMass.mk' 2 2, d, .elastic, none⟩

noncomputable def dataTable (d : XSec) : UTable (WSet W) :=
  (((resizeW ⟨0, fun _ _ => {}⟩ 2).modify 0 0 fun _ => ⟨(Term.single 0, Term.single 0), [wx]⟩).modify 0 1
    fun _ => ⟨(Term.single 0, Term.single 1), []⟩).modify 1 1 fun _ => ⟨(Term.single 1, Term.single 1), [wd d]⟩

theorem dataInited (T : Tools W) (hT : T.extrapolate = false) : ∃ d,
    mkData false (ReducedMass.mk' 2 2).value [((0 : ℝ), (16 : ℝ)), (10, 16)] = .ok d ∧
    runCalls T false [.addNames ["y", "x"], .init] (Session.new dataDoc) =
    { doc := dataDoc, filter := .elastic, dflt := ⟨0, 0⟩, props := [x, y], table := dataTable d } := by
  obtain ⟨d, hd⟩ : ∃ d, mkData false (ReducedMass.mk' 2 2).value [((0 : ℝ), (16 : ℝ)), (10, 16)] = .ok d := by
    unfold mkData
    rw [show checkThreshold [((0 : ℝ), (16 : ℝ)), (10, 16)] = _ from
      checkThreshold_eq [] (by simp) (0, 16) (by norm_num) [(10, 16)]]
    exact ⟨_, rfl⟩
  refine ⟨d, hd, ?_⟩
  have l0 : loadNode T dataDoc [x, y] 0 = .ok wx := loadx T
  have e1 : loadEq [x, y] csNames modelNames dataNode.node =
      .ok ⟨Term.single 1, Term.single 1, [Term.many 1 2], "data", "elastic"⟩ := by
    have : loadAndSortTerms [x, y] dataNode.ins = .ok ([(y, ⟨2, [-1, -1], ["", ""]⟩)], 2) := by rfl
    unfold loadEq
    rw [show dataNode.node.ins = dataNode.ins from rfl, show dataNode.node.outs = dataNode.ins from rfl, this]
    have h2 : chooseModel dataNode.node [(y, ⟨2, [-1, -1], ["", ""]⟩)] [(y, ⟨2, [-1, -1], ["", ""]⟩)] = "elastic" := by
      show (if _ then "elastic" else "inelastic") = _
      rw [if_pos rfl]
    dsimp only
    rw [h2]
    rfl
  have hl : loadTable (ReducedMass.mk' y.mass y.mass).value [(.speed 0, 16), (.speed 10, 16)] =
      [((0 : ℝ), (16 : ℝ)), (10, 16)] := by
    simp [loadTable, XTable.insert]
  have l1 : loadNode T dataDoc [x, y] 1 = .ok (wd d) := by
    unfold loadNode
    rw [show dataDoc.doc.nodes[1]? = some dataNode from rfl]
    dsimp only
    rw [e1]
    dsimp only
    have : completeEq T [x, y] ⟨Term.single 1, Term.single 1, [Term.many 1 2], "data", "elastic"⟩ (dataDoc.inter 1) =
        .ok (wd d) := by
      unfold completeEq
      rw [show ([x, y] : Registry ℝ)[(Term.single 1).species.toNat]? = some y from rfl]
      dsimp only
      rw [if_pos (by decide +kernel), show (dataDoc.inter 1).cs.load T.solve T.extrapolate
        (ReducedMass.mk' y.mass y.mass).value = .ok d by
          show mkData T.extrapolate _ (loadTable _ _) = _
          rw [hl, hT]
          exact hd]
      rfl
    rw [this]
  have c1 : Filter.elastic.apply dataDoc.doc (queryNodes dataDoc.doc [x, y] 0 0 "x" "x") = [0] := by decide +kernel
  have c2 : Filter.elastic.apply dataDoc.doc (queryNodes dataDoc.doc [x, y] 0 1 "x" "y") = [] := by decide +kernel
  have c3 : Filter.elastic.apply dataDoc.doc (queryNodes dataDoc.doc [x, y] 1 1 "y" "y") = [1] := by decide +kernel
  have hfill : fillW T dataDoc .elastic [x, y] (indexPairs 2) (resizeW ⟨0, fun _ _ => {}⟩ 2) = (dataTable d, none) := by
    rw [show indexPairs 2 = [(0, 0), (0, 1), (1, 1)] from rfl]
    rw [fillW]
    rw [show ([x, y] : Registry ℝ)[0]? = some x from rfl]
    dsimp only
    rw [show x.name = "x" from rfl, c1, pushAll, l0]
    dsimp only
    rw [pushAll]
    dsimp only
    rw [fillW]
    rw [show ([x, y] : Registry ℝ)[0]? = some x from rfl, show ([x, y] : Registry ℝ)[1]? = some y from rfl]
    dsimp only
    rw [show x.name = "x" from rfl, show y.name = "y" from rfl, c2, pushAll]
    dsimp only
    rw [fillW]
    rw [show ([x, y] : Registry ℝ)[1]? = some y from rfl]
    dsimp only
    rw [show y.name = "y" from rfl, c3, pushAll, l1]
    dsimp only
    rw [pushAll]
    dsimp only
    rw [fillW]
    rfl
  show (Session.init T false ⟨dataDoc, .elastic, ⟨0, 0⟩, [y, x], ⟨0, fun _ _ => {}⟩⟩).1 = _
  unfold Session.init
  dsimp only
  rw [sorted, show ([x, y] : Registry ℝ).length = 2 from rfl, hfill]
  rfl

/-- Sampling up to 4 in steps of 2 appends an equation to the pair, which has the mean diameter at the speeds 5, 3
and 1. -/
example (T : Tools W) (hT : T.extrapolate = false) : ∃ (s' : Session W) (d : XSec) (w : WEq W),
    (Call.create (-1) (-1) 4 2).run T false (runCalls T false [.addNames ["y", "x"], .init] (Session.new dataDoc)) =
      (s', .ok 1) ∧ s'.eqs 0 1 = [w] ∧ ∀ k : ℕ, k < 3 → MeanDiameter (xs 4) d w.cs (5 - k * 2) := by
  obtain ⟨d, hd, hs⟩ := dataInited T hT
  have hsf : SpeciesFirst [.addNames ["y", "x"], .init] :=
    ⟨[.addNames ["y", "x"]], [.init], rfl, by simp [Call.IsInit], by simp [Call.AddsSpecies]⟩
  have hno : ¬ (EasyKind (wx : WEq W) ∧ EasyKind (wd d : WEq W)) := by
    rintro ⟨-, h⟩
    simp [EasyKind, wd] at h
  have hsr : SampleRange (⟨0, 0⟩ : CMDefaults ℝ) 4 2 4 2 :=
    ⟨.inl ⟨by norm_num, rfl⟩, .inl ⟨by norm_num, rfl⟩⟩
  have fx : FirstElasticW [(wx : WEq W)] wx := ⟨[], [], rfl, rfl, by simp⟩
  have fd : FirstElasticW [(wd d : WEq W)] (wd d) := ⟨[], [], rfl, rfl, by simp⟩
  have hval : ∀ v : ℝ, 0 ≤ v → v ≤ 10 → d.sigma v = .ok 16 := by
    intro v h0 h1
    have := C57_linear (l1 := []) (l2 := []) (by simp [Increasing]) hd (v := v) h0 h1
    simpa using this
  obtain ⟨s', r, hr⟩ : ∃ s' r, (Call.create (-1) (-1) 4 2).run T false
      (runCalls T false [.addNames ["y", "x"], .init] (Session.new dataDoc)) = (s', r) := ⟨_, _, rfl⟩
  rw [hs] at hr
  obtain ⟨-, -, -, -, L, l1, l2, l3, l4⟩ := C80_create hsf hs (by simp) hr
  have hx : ∀ z, r ≠ .error (.average z) := by
    rintro z rfl
    obtain ⟨-, a, b, wa, wb, vm, dd, hab, hsel, fa, fb, hr1, hno⟩ := (C79_exceptions hsf hs).1 _ _ _ _ (by simp) hr
    have e1 := sampleRange_eq hr1 (by rcases hno with h | h <;> exact h.1)
    have e2 := sampleRange_eq hsr (by norm_num)
    obtain ⟨rfl, rfl⟩ := Prod.mk.inj (e1.symm.trans e2)
    have hb : a = 0 ∧ b = 1 := by
      by_contra hne
      have : b < 2 := by
        by_contra hb
        have : (Session.mk dataDoc .elastic ⟨0, 0⟩ [x, y] (dataTable d) : Session W).eqs b b = [] := by
          unfold Session.eqs UTable.get?
          rw [if_neg (by show ¬ (b < 2 ∧ b < 2); omega)]
        rw [this] at fb
        obtain ⟨p, q, h, -⟩ := fb
        simp at h
      omega
    obtain ⟨rfl, rfl⟩ := hb
    obtain rfl : wa = wx := FirstElasticW.unique fa fx
    obtain rfl : wb = wd d := FirstElasticW.unique fb fd
    have hsx : ∀ v : ℝ, 0 < v → (xs 4).sigma v = .ok 4 := by
      intro v hv
      simp only [xs, Real.sqrt_zero, ge_iff_le, hv.le, if_true]
    have hsd : ∀ k : ℕ, 0 < (4 : ℝ) + 1 / 2 * 2 - k * 2 → d.sigma (4 + 1 / 2 * 2 - k * 2) = .ok 16 := by
      intro k hk
      refine hval _ hk.le ?_
      have : (0 : ℝ) ≤ k := k.cast_nonneg
      linarith
    have hone : (0 : ℝ) < 4 + 1 / 2 * 2 - (0 : ℕ) * 2 := by norm_num
    rcases hno with ⟨-, -, ⟨k, hk, h⟩ | h⟩ | ⟨-, -, ⟨k, hk, h⟩ | h⟩
    · exact h ⟨⟨4, by norm_num, hsx _ hk⟩, 16, by norm_num, hsd k hk⟩
    · have := ((hsx _ hone).symm.trans (h 0 hone).1)
      norm_num at this
    · exact h ⟨⟨16, by norm_num, hsd k hk⟩, 4, by norm_num, hsx _ hk⟩
    · have := ((hsx _ hone).symm.trans (h 0 hone).2)
      norm_num at this
  rcases l4 with ⟨rfl, l4⟩ | ⟨z, rfl⟩
  swap
  · exact absurd rfl (hx z)
  have hL : (0, 1) ∈ L := by
    refine l4 0 1 (by omega) (by show 1 < 2; omega) (by simp [Selected]) ⟨?_, ⟨wx, by show wx ∈ [wx]; simp, rfl⟩,
      ⟨wd d, by show wd d ∈ [wd d]; simp, rfl⟩, .inl (.inl (by norm_num))⟩
    rintro ⟨w, hw, -⟩
    have : w ∈ ([] : List (WEq W)) := hw
    cases this
  have hlen : L.length = 1 := by
    have hsub : ∀ p ∈ L, p = (0, 1) := by
      rintro ⟨a, b⟩ hp
      obtain ⟨h1, h2, -⟩ := l2 a b hp
      have : b < 2 := h2
      have : a = 0 ∧ b = 1 := by omega
      rw [this.1, this.2]
    match L, hL, l1, hsub with
    | [p], _, _, _ => rfl
    | p :: q :: l, _, hn, hsub =>
      rw [hsub p (by simp), hsub q (by simp)] at hn
      simp at hn
  obtain ⟨-, -, -, -, w, hw, -⟩ := l2 0 1 hL
  obtain ⟨-, -, hk⟩ := C80_sampling hsf hs (by simp) hr hsr (by omega) hw fx fd hno
  refine ⟨s', d, w, by rw [hs, hr, hlen], hw, fun k hk3 => ?_⟩
  have := hk k (by
    have : (k : ℝ) ≤ 2 := by exact_mod_cast (by omega : k ≤ 2)
    linarith)
  rw [show (4 : ℝ) + 1 / 2 * 2 - k * 2 = 5 - k * 2 by ring] at this
  exact this

/-- Sampling up to 20 leaves the table, and the call throws. -/
example (T : Tools W) (hT : T.extrapolate = false) : ∃ (s' : Session W) (z : XErr),
    (Call.create (-1) (-1) 20 2).run T false (runCalls T false [.addNames ["y", "x"], .init] (Session.new dataDoc)) =
      (s', .error (.average z)) := by
  obtain ⟨d, hd, hs⟩ := dataInited T hT
  have hsf : SpeciesFirst [.addNames ["y", "x"], .init] :=
    ⟨[.addNames ["y", "x"]], [.init], rfl, by simp [Call.IsInit], by simp [Call.AddsSpecies]⟩
  obtain ⟨s', r, hr⟩ : ∃ s' r, (Call.create (-1) (-1) 20 2).run T false
      (runCalls T false [.addNames ["y", "x"], .init] (Session.new dataDoc)) = (s', r) := ⟨_, _, rfl⟩
  rw [hs] at hr
  obtain ⟨-, -, -, -, L, -, l2, -, l4⟩ := C80_create hsf hs (by simp) hr
  rcases l4 with ⟨rfl, l4⟩ | ⟨z, rfl⟩
  swap
  · exact ⟨s', z, by rw [hs, hr]⟩
  have hL : (0, 1) ∈ L := by
    refine l4 0 1 (by omega) (by show 1 < 2; omega) (by simp [Selected]) ⟨?_, ⟨wx, by show wx ∈ [wx]; simp, rfl⟩,
      ⟨wd d, by show wd d ∈ [wd d]; simp, rfl⟩, .inl (.inl (by norm_num))⟩
    rintro ⟨w, hw, -⟩
    have : w ∈ ([] : List (WEq W)) := hw
    cases this
  obtain ⟨-, -, -, -, w, hw, -⟩ := l2 0 1 hL
  obtain ⟨-, -, hk⟩ := C80_sampling hsf hs (by simp) hr (vm := 20) (d := 2)
    ⟨.inl ⟨by norm_num, rfl⟩, .inl ⟨by norm_num, rfl⟩⟩ (by omega) hw (wa := wx) (wb := wd d)
    ⟨[], [], rfl, rfl, by simp⟩ ⟨[], [], rfl, rfl, by simp⟩ (by rintro ⟨-, h⟩; simp [EasyKind, wd] at h)
  obtain ⟨sa, sb, s, -, h2, -⟩ := hk 0 (by norm_num)
  have := C59_unavailable (l := [(0, 16)]) (d := (10, 16)) (by simp [Increasing]) hd (by norm_num) (.inl rfl)
    (v := 20 + 1 / 2 * 2 - (0 : ℕ) * 2) (by norm_num)
  exact absurd (h2.symm.trans this) (by simp)

end SessionExample

end Chimp
