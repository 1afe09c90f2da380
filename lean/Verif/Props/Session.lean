import Verif.Lemmas.Session

/-!
# C79-C81: a database in use

The theorems about single calls are joined here: they hold after every history of public calls, exceptions included.
-/

namespace Chimp

variable {S W : Type}

/-! ## Specification -/

/-- The calls that may add species. -/
def Call.AddsSpecies : Call → Prop
  | .add _ => True
  | .addNames _ => True
  | .addModel _ => True
  | _ => False

/-- The call to `initBinaryInteractions`. -/
def Call.IsInit : Call → Prop
  | .init => True
  | _ => False

/-- No species is added after the first initialisation. -/
def SpeciesFirst (cs : List Call) : Prop :=
  ∃ pre post, cs = pre ++ post ∧ (∀ c ∈ pre, ¬ c.IsInit) ∧ ∀ c ∈ post, ¬ c.AddsSpecies

/-- The document and filter in force at one of the initialisations. -/
def InForce (T : Tools W) (auto : Bool) (D0 : SDoc) (cs : List Call) (D : SDoc) (f : Filter) : Prop :=
  ∃ pre post, cs = pre ++ Call.init :: post ∧ (runCalls T auto pre (Session.new D0)).doc = D ∧
    (runCalls T auto pre (Session.new D0)).filter = f

/-- The equation was loaded from an `Interaction` that the filter keeps among those wanted for the two species. -/
def KeptIn (T : Tools W) (D : SDoc) (f : Filter) (db : Registry ℝ) (a b : String) (k : ℕ) (w : WEq W) : Prop :=
  f.Keeps D.doc (Wanted D.doc db a b) k ∧ ∃ x, D.doc.nodes[k]? = some x ∧
    loadEq db csNames modelNames ⟨x.ins, x.outs, x.csModel, x.modelAttr⟩ = .ok w.eq ∧
    completeEq T db w.eq (D.inter k) = .ok w

/-! ## Lemmas -/

theorem FromDoc.loaded {T : Tools W} {D : SDoc} {f : Filter} {db : Registry ℝ} (hnd : NodupNames db)
    (hs : db.Pairwise MassNameBefore) {A B : ℕ} (hAB : A ≤ B) (hB : B < db.length) {w : WEq W}
    (h : FromDoc T D f db A B w) : w.Loaded T db A B := by
  obtain ⟨k, hk, x, hx, hl, hc⟩ := h
  obtain ⟨a, hA'⟩ : ∃ a, db[A]? = some a := ⟨_, List.getElem?_eq_getElem (by omega : A < db.length)⟩
  obtain ⟨b, hB'⟩ : ∃ b, db[B]? = some b := ⟨_, List.getElem?_eq_getElem hB⟩
  obtain ⟨y, hy, hr⟩ := cellNodes_reactants hnd hA' hB' hk
  rw [hx] at hy
  cases hy
  obtain ⟨eA, eB⟩ := loaded_reactants (x := x.node) hnd hs hAB hA' hB' hr hl
  exact ⟨eA, eB, C70_loaded_wellFormed (x := x.node) hnd (reactants_pos hr) hl, _, hc⟩

theorem FromDoc.kept {T : Tools W} {D : SDoc} {f : Filter} {db : Registry ℝ} (hnd : NodupNames db)
    (hc : CleanNames D.doc db) {A B : ℕ} {a b : Props ℝ} (hA : db[A]? = some a) (hB : db[B]? = some b) {w : WEq W}
    (h : FromDoc T D f db A B w) : ∃ k, KeptIn T D f db a.name b.name k w := by
  obtain ⟨k, hk, x, hx, hl, hcq⟩ := h
  exact ⟨k, ((cellNodes_spec hnd hc hA hB).2 k).1 hk, x, hx, hl, hcq⟩

/-- What holds of a database that was initialised. -/
structure SInv (T : Tools W) (H : SDoc → Filter → Prop) (s : Session W) : Prop where
  names : NodupNames s.props
  sorted : s.props.Pairwise MassNameBefore
  all : AllFrom T (fun A B w => ∃ D f, H D f ∧ FromDoc T D f s.props A B w) s.props s.table

theorem SInv.mono {T : Tools W} {H H' : SDoc → Filter → Prop} {s : Session W} (h : SInv T H s)
    (hH : ∀ D f, H D f → H' D f) : SInv T H' s :=
  ⟨h.names, h.sorted, h.all.1, fun A B hAB hB w hw => (h.all.2 A B hAB hB w hw).imp
    (fun ⟨D, f, h1, h2⟩ => ⟨D, f, hH D f h1, h2⟩) id⟩

theorem SInv.diag {T : Tools W} {H : SDoc → Filter → Prop} {s : Session W} (h : SInv T H s) :
    DiagOK s.props s.table := by
  refine ⟨h.all.1, fun a ha w hw => ?_⟩
  rcases h.all.2 a a le_rfl ha w hw with ⟨D, f, -, hf⟩ | hm
  · have := hf.loaded h.names h.sorted le_rfl ha
    exact ⟨this.1, this.2.1⟩
  · exact absurd hm.1 (lt_irrefl _)

theorem cmPairs_lt {n : ℕ} {i j : ℤ} : ∀ p ∈ cmPairs n i j, p.1 < n ∧ p.2 < n := by
  rintro ⟨a, b⟩ hp
  have := (mem_cmPairs n i j a b).1 hp
  exact ⟨this.1.1, this.2.1⟩

theorem SInv.create {T : Tools W} {H : SDoc → Filter → Prop} {s : Session W} (h : SInv T H s) (i j : ℤ) (vmax dv : ℝ) :
    SInv T H (s.create T i j vmax dv).1 := by
  unfold Session.create
  dsimp only
  obtain ⟨h1, h2, h3, -⟩ := cmLoopW_spec (T := T) h.sorted (vmax := (effectiveRange s.dflt.vmax s.dflt.dv vmax dv).1)
    (dv := (effectiveRange s.dflt.vmax s.dflt.dv vmax dv).2) (cmPairs s.props.length i j) s.table 0 h.diag cmPairs_lt
  refine ⟨h.names, h.sorted, h1.1, fun A B hAB hB w hw => ?_⟩
  obtain ⟨new, n1, n2⟩ := h3 A B
  dsimp only at hw
  rw [n1] at hw
  rcases List.mem_append.1 hw with hw' | hw'
  · exact (h.all.2 A B hAB hB w hw').imp id fun hm => hm.mono h2
  · exact .inr (n2 w hw').made

/-- Before the first initialisation. -/
structure SBare (s : Session W) : Prop where
  names : NodupNames s.props
  side : s.table.side = 0

theorem fill_inv {T : Tools W} {H : SDoc → Filter → Prop} {s : Session W} (h : SBare s ∨ SInv T H s)
    (hH : H s.doc s.filter) :
    SInv T H { s with props := sortProps s.props, table := (fillW T s.doc s.filter (sortProps s.props)
      (indexPairs (sortProps s.props).length) (resizeW s.table (sortProps s.props).length)).1 } := by
  have hn : NodupNames s.props := h.elim SBare.names SInv.names
  have hn' : NodupNames (sortProps s.props) := (nodupNames_of_perm (sortProps_perm s.props)).2 hn
  have hs' : (sortProps s.props).Pairwise MassNameBefore := (sortProps_strict hn).imp fun hab => (Props.lt_iff _ _).1 hab
  obtain ⟨f1, f2, -, -⟩ := fillW_spec (T := T) (d := s.doc) (f := s.filter) (indexPairs (sortProps s.props).length)
    (resizeW s.table (sortProps s.props).length) (nodup_indexPairs _) (fun A B hAB => (mem_indexPairs _ A B).1 hAB)
  refine ⟨hn', hs', f1, fun A B hAB hB w hw => ?_⟩
  obtain ⟨es, e1, e2⟩ := f2 A B
  rw [e1] at hw
  rcases List.mem_append.1 hw with hw | hw
  · rcases h with h | h
    · simp [resizeW, h.side] at hw
    · have hsame : sortProps s.props = s.props := sortProps_of_sorted h.sorted
      dsimp only at hB ⊢
      have hcell : ∀ C D, D < s.props.length → (resizeW s.table (sortProps s.props).length).cell C D = s.table.cell C D := by
        intro C D hD
        unfold resizeW
        dsimp only
        rw [if_pos (by rw [h.all.1]; exact hD)]
      rw [hsame] at hB
      rw [hcell A B hB] at hw
      rcases h.all.2 A B hAB hB w hw with hd | ⟨m1, m2, wa, wb, m3, m4, m5⟩
      · left; rw [hsame]; exact hd
      · right
        obtain ⟨la, hla, -⟩ := f2 A A
        obtain ⟨lb, hlb, -⟩ := f2 B B
        rw [hcell A A (by omega)] at hla
        rw [hcell B B hB] at hlb
        refine ⟨m1, by rw [hsame]; exact m2, wa, wb, ?_, ?_, m5⟩
        · rw [hla]; exact m3.append la
        · rw [hlb]; exact m4.append lb
  · obtain ⟨k, hk, hl⟩ := e2 w hw
    exact .inl ⟨s.doc, s.filter, hH, k, hk, loadNode_ok hl⟩

theorem init_inv {T : Tools W} {auto : Bool} {H : SDoc → Filter → Prop} {s : Session W} (h : SBare s ∨ SInv T H s)
    (hH : H s.doc s.filter) : SInv T H (s.init T auto).1 := by
  have := fill_inv h hH
  unfold Session.init
  dsimp only
  split
  · exact this
  · split
    · exact this.create _ _ _ _
    · exact this

theorem nodupNames_addNames (doc : List (Props ℝ)) : ∀ (ns : List String) (r : Registry ℝ), NodupNames r →
    NodupNames (addNamesLoop doc ns r).1
  | [], _, h => h
  | n :: ns, r, h => by
    unfold addNamesLoop
    cases ha : addParticleByName doc r n with
    | error e => exact h
    | ok r' =>
      refine nodupNames_addNames doc ns r' ?_
      unfold addParticleByName at ha
      split at ha
      · cases ha; exact nodupNames_add h _
      · cases ha
      · cases ha

theorem addModel_fields (m : String) (s : Session W) : (s.addModel m).1.table = s.table ∧
    (NodupNames s.props → NodupNames (s.addModel m).1.props) := by
  unfold Session.addModel
  dsimp only
  split
  · exact ⟨rfl, fun h => nodupNames_addNames _ _ _ h⟩
  · split
    · split <;> exact ⟨rfl, fun h => nodupNames_addNames _ _ _ h⟩
    · exact ⟨rfl, fun h => nodupNames_addNames _ _ _ h⟩
    · exact ⟨rfl, fun h => nodupNames_addNames _ _ _ h⟩

/-- An access outside the table. -/
theorem cmStepW_bare {T : Tools W} {db : Registry ℝ} {vmax dv : ℝ} {t : UTable (WSet W)} (h : t.side = 0) (a b : ℕ) :
    cmStepW T db vmax dv t a b = .error (.create .ub) := by
  unfold cmStepW
  have : ∀ a b, t.get? a b = none := by
    intro a b; unfold UTable.get?; rw [if_neg (by omega)]
  simp only [this]

theorem cmLoopW_bare {T : Tools W} {db : Registry ℝ} {vmax dv : ℝ} {t : UTable (WSet W)} (h : t.side = 0) :
    ∀ (l : List (ℕ × ℕ)) (n : ℕ), (cmLoopW T db vmax dv l t n).1 = t
  | [], _ => rfl
  | (a, b) :: l, n => by unfold cmLoopW; rw [cmStepW_bare h]

theorem SBare.step {T : Tools W} {auto : Bool} {s : Session W} (h : SBare s) {c : Call} (hc : ¬ c.IsInit) :
    SBare (c.run T auto s).1 := by
  cases c with
  | document d => exact ⟨h.names, h.side⟩
  | filter f => exact ⟨h.names, h.side⟩
  | defaults d => exact ⟨h.names, h.side⟩
  | add p => exact ⟨nodupNames_add h.names p, h.side⟩
  | addNames ns => exact ⟨nodupNames_addNames _ _ _ h.names, h.side⟩
  | addModel m =>
    obtain ⟨h1, h2⟩ := addModel_fields m s
    exact ⟨h2 h.names, by show (s.addModel m).1.table.side = 0; rw [h1]; exact h.side⟩
  | init => exact absurd trivial hc
  | create i j vmax dv => exact ⟨h.names, by simp only [Call.run, Session.create, cmLoopW_bare h.side]; exact h.side⟩
  | createNames i j vmax dv =>
    exact ⟨h.names, by simp only [Call.run, Session.create, cmLoopW_bare h.side]; exact h.side⟩

theorem SInv.step {T : Tools W} {auto : Bool} {H : SDoc → Filter → Prop} {s : Session W} (h : SInv T H s) {c : Call}
    (hc : ¬ c.AddsSpecies) (hH : c.IsInit → H s.doc s.filter) : SInv T H (c.run T auto s).1 := by
  cases c with
  | document d => exact ⟨h.names, h.sorted, h.all⟩
  | filter f => exact ⟨h.names, h.sorted, h.all⟩
  | defaults d => exact ⟨h.names, h.sorted, h.all⟩
  | add p => exact absurd trivial hc
  | addNames ns => exact absurd trivial hc
  | addModel m => exact absurd trivial hc
  | init => exact init_inv (.inr h) (hH trivial)
  | create i j vmax dv => exact h.create i j vmax dv
  | createNames i j vmax dv => exact h.create _ _ vmax dv

theorem runCalls_append (T : Tools W) (auto : Bool) (a b : List Call) (s : Session W) :
    runCalls T auto (a ++ b) s = runCalls T auto b (runCalls T auto a s) := List.foldl_append

theorem bare_new (D : SDoc) : SBare (Session.new D : Session W) := ⟨List.nodup_nil, rfl⟩

theorem bare_run {T : Tools W} {auto : Bool} {cs : List Call} (hcs : ∀ c ∈ cs, ¬ c.IsInit) {s : Session W}
    (h : SBare s) : SBare (runCalls T auto cs s) := by
  induction cs generalizing s with
  | nil => exact h
  | cons c cs ih =>
    exact ih (fun x hx => hcs x (List.mem_cons_of_mem _ hx)) (h.step (hcs c List.mem_cons_self))

theorem isInit_iff (c : Call) : c.IsInit ↔ c = .init := by
  cases c <;> simp [Call.IsInit]

/-- The state after a history is that of a database not initialised, or satisfies the invariant. -/
theorem history_inv {T : Tools W} {auto : Bool} {D0 : SDoc} {cs : List Call} (h : SpeciesFirst cs) :
    (SBare (runCalls T auto cs (Session.new D0)) ∧ ∀ c ∈ cs, ¬ c.IsInit) ∨
    SInv T (InForce T auto D0 cs) (runCalls T auto cs (Session.new D0)) := by
  obtain ⟨pre, post, rfl, hpre, hpost⟩ := h
  induction post using List.reverseRecOn with
  | nil =>
    refine .inl ⟨?_, by simpa using hpre⟩
    rw [List.append_nil]
    exact bare_run hpre (bare_new D0)
  | append_singleton post c ih =>
    have ih := ih fun x hx => hpost x (List.mem_append_left _ hx)
    have hc : ¬ c.AddsSpecies := hpost c (List.mem_append_right _ (List.mem_singleton.2 rfl))
    rw [← List.append_assoc, runCalls_append]
    have hmono : ∀ D f, InForce T auto D0 (pre ++ post) D f → InForce T auto D0 (pre ++ post ++ [c]) D f := by
      rintro D f ⟨a, b, h1, h2, h3⟩
      exact ⟨a, b ++ [c], by rw [h1]; simp, h2, h3⟩
    have hforce : c.IsInit → InForce T auto D0 (pre ++ post ++ [c])
        (runCalls T auto (pre ++ post) (Session.new D0)).doc (runCalls T auto (pre ++ post) (Session.new D0)).filter := by
      intro hi
      exact ⟨pre ++ post, [], by rw [(isInit_iff c).1 hi], rfl, rfl⟩
    rcases ih with ⟨ih, hno⟩ | ih
    · by_cases hi : c.IsInit
      · have := hforce hi
        rw [(isInit_iff c).1 hi] at this ⊢
        exact .inr (init_inv (.inl ih) this)
      · refine .inl ⟨ih.step hi, fun x hx => ?_⟩
        rcases List.mem_append.1 hx with hx | hx
        · exact hno x hx
        · rw [List.mem_singleton.1 hx]; exact hi
    · exact .inr ((ih.mono hmono).step hc hforce)

theorem eqs_of_le {s : Session W} {A B : ℕ} (hAB : A ≤ B) (hB : B < s.table.side) : s.eqs A B = (s.table.cell A B).rhs := by
  unfold Session.eqs
  rw [get?W_of_lt (by omega) hB, min_eq_left hAB, max_eq_right hAB]

theorem created_cells {T : Tools W} {s : Session W} (hs : s.props.Pairwise MassNameBefore)
    (hd : DiagOK s.props s.table) (i j : ℤ) (vmax dv : ℝ) (A B : ℕ) :
    (s.create T i j vmax dv).1.table.side = s.table.side ∧
    ∃ new, (s.create T i j vmax dv).1.table.cell A B = ⟨(s.table.cell A B).lhs, (s.table.cell A B).rhs ++ new⟩ ∧
      ∀ w ∈ new, MadeIn T s.props (s.create T i j vmax dv).1.table A B w := by
  obtain ⟨-, h2, h3, -⟩ := cmLoopW_spec (T := T) hs (vmax := (effectiveRange s.dflt.vmax s.dflt.dv vmax dv).1)
    (dv := (effectiveRange s.dflt.vmax s.dflt.dv vmax dv).2) (cmPairs s.props.length i j) s.table 0 hd cmPairs_lt
  obtain ⟨new, n1, n2⟩ := h3 A B
  exact ⟨h2.1, new, n1, fun w hw => (n2 w hw).made⟩

/-! ## C79 -/

/-- **C79**  After any history of calls in which no species is added after the first initialisation, whatever
exceptions were thrown and caught on the way: names are distinct; if the database was ever initialised the species are
in order of mass and name and the table has an entry for every pair; both orders of a pair give the same equations;
and every equation for species `A ≤ B` was either loaded, with exactly these two reactants, from an `Interaction`
wanted for the two species and kept by the filter, in a document and with a filter that were in force at an
initialisation, or created from the equations that stand in the table for `A` and for `B`. -/
theorem C79_every_state {T : Tools W} {auto : Bool} {D0 : SDoc} {cs : List Call} (h : SpeciesFirst cs) {s : Session W}
    (hs : runCalls T auto cs (Session.new D0) = s) :
    NodupNames s.props ∧
    (Call.init ∈ cs → s.props.Pairwise MassNameBefore ∧
      ∀ A B, A < s.props.length → B < s.props.length → (s.table.get? A B).isSome) ∧
    (∀ A B, s.eqs A B = s.eqs B A) ∧
    ∀ A B a b, A ≤ B → s.props[A]? = some a → s.props[B]? = some b → ∀ w ∈ s.eqs A B,
      (w.Loaded T s.props A B ∧ ∃ D f, InForce T auto D0 cs D f ∧
        (CleanNames D.doc s.props → ∃ k, KeptIn T D f s.props a.name b.name k w)) ∨
      MadeIn T s.props s.table A B w := by
  have hsym : ∀ A B, s.eqs A B = s.eqs B A := by
    intro A B
    unfold Session.eqs UTable.get?
    rw [min_comm, max_comm]
    simp only [and_comm]
  rcases history_inv (T := T) (auto := auto) (D0 := D0) h with ⟨hb, hno⟩ | hi
  · rw [hs] at hb
    refine ⟨hb.names, fun hin => absurd trivial (hno _ hin), hsym, fun A B a b _ _ _ w hw => ?_⟩
    unfold Session.eqs UTable.get? at hw
    rw [if_neg (by rw [hb.side]; omega)] at hw
    cases hw
  · rw [hs] at hi
    refine ⟨hi.names, fun _ => ⟨hi.sorted, fun A B hA hB => ?_⟩, hsym, fun A B a b hAB ha hb w hw => ?_⟩
    · rw [get?W_of_lt (by rw [hi.all.1]; exact hA) (by rw [hi.all.1]; exact hB)]; rfl
    · have hB : B < s.props.length := (List.getElem?_eq_some_iff.1 hb).1
      rw [eqs_of_le hAB (by rw [hi.all.1]; exact hB)] at hw
      rcases hi.all.2 A B hAB hB w hw with ⟨D, f, hD, hf⟩ | hm
      · exact .inl ⟨hf.loaded hi.names hi.sorted hAB hB, D, f, hD, fun hc => hf.kept hi.names hc ha hb⟩
      · exact .inr hm

/-- **C79**  An initialisation that returns, in such a history: every pair `A ≤ B` has an entry with these inputs, and
its equations are those it had before, then all those wanted and kept, in document order and each once, then (only if
`auto_create_missing_elastic` is on) created ones. -/
theorem C79_init_returns {T : Tools W} {auto : Bool} {D0 : SDoc} {cs : List Call} (h : SpeciesFirst (cs ++ [.init]))
    {s s' : Session W} (hs : runCalls T auto cs (Session.new D0) = s) {n : ℕ}
    (hr : Call.init.run T auto s = (s', .ok n)) (hc : CleanNames s.doc.doc s.props) {A B : ℕ} {a b : Props ℝ}
    (hAB : A ≤ B) (ha : s'.props[A]? = some a) (hb : s'.props[B]? = some b) :
    s'.props.Perm s.props ∧
    ∃ (ks : List ℕ) (es new : List (WEq W)), s'.table.get? A B = some ⟨(Term.single A, Term.single B),
        s.eqs A B ++ es ++ new⟩ ∧
      ks.Pairwise (· < ·) ∧ (∀ k, k ∈ ks ↔ s.filter.Keeps s.doc.doc (Wanted s.doc.doc s'.props a.name b.name) k) ∧
      List.Forall₂ (KeptIn T s.doc s.filter s'.props a.name b.name) ks es ∧
      (auto = false → new = []) ∧ ∀ w ∈ new, MadeIn T s'.props s'.table A B w := by
  have hlen : (sortProps s.props).length = s.props.length := (sortProps_perm s.props).length_eq
  have hinv : SBare s ∨ SInv T (InForce T auto D0 (cs ++ [.init])) s := by
    have hsf : SpeciesFirst cs := by
      obtain ⟨pre, post, he, h1, h2⟩ := h
      rcases List.eq_nil_or_concat post with rfl | ⟨post', c, rfl⟩
      · rw [List.append_nil] at he
        exact absurd trivial (h1 .init (by rw [← he]; simp))
      · rw [List.concat_eq_append, ← List.append_assoc] at he
        obtain ⟨e1, -⟩ := List.append_inj' he rfl
        exact ⟨pre, post', e1, h1, fun c hc => h2 c (by simp [hc])⟩
    rcases history_inv (T := T) (auto := auto) (D0 := D0) hsf with ⟨hb, -⟩ | hi
    · rw [hs] at hb; exact .inl hb
    · rw [hs] at hi
      refine .inr (hi.mono ?_)
      rintro D f ⟨p, q, e1, e2, e3⟩
      exact ⟨p, q ++ [.init], by rw [e1]; simp, e2, e3⟩
  have hforce : InForce T auto D0 (cs ++ [.init]) s.doc s.filter := ⟨cs, [], rfl, by rw [hs], by rw [hs]⟩
  have hfill := fill_inv hinv hforce
  obtain ⟨f1, -, f3, -, -⟩ := fillW_spec (T := T) (d := s.doc) (f := s.filter) (indexPairs (sortProps s.props).length)
    (resizeW s.table (sortProps s.props).length) (nodup_indexPairs _) (fun A B hAB => (mem_indexPairs _ A B).1 hAB)
  change s.init T auto = (s', .ok n) at hr
  unfold Session.init at hr
  dsimp only at hr
  set F := fillW T s.doc s.filter (sortProps s.props) (indexPairs (sortProps s.props).length)
    (resizeW s.table (sortProps s.props).length) with hF
  set s1 : Session W := { s with props := sortProps s.props, table := F.1 } with hs1
  cases hF2 : F.2 with
  | some e => rw [hF2] at hr; exact absurd (congrArg Prod.snd hr) (by simp)
  | none =>
  rw [hF2] at hr
  dsimp only at hr
  -- the state after creating
  have hfin : s'.props = sortProps s.props ∧ s'.table.side = s'.props.length ∧ ∃ new, s'.table.cell A B =
      ⟨(s1.table.cell A B).lhs, (s1.table.cell A B).rhs ++ new⟩ ∧ (auto = false → new = []) ∧
      ∀ w ∈ new, MadeIn T s'.props s'.table A B w := by
    cases auto with
    | false =>
      simp only [Bool.false_eq_true, if_false] at hr
      obtain rfl := (Prod.mk.inj hr).1
      exact ⟨rfl, f1, [], by simp, fun _ => rfl, by simp⟩
    | true =>
      simp only [if_true] at hr
      have e1 : (s1.create T (-1) (-1) 0 0).1 = s' := by rw [hr]
      have hcr := created_cells (T := T) hfill.sorted hfill.diag (-1) (-1) 0 0 A B
      rw [e1] at hcr
      have hp : s'.props = sortProps s.props := by rw [← e1]; rfl
      refine ⟨hp, ?_, ?_⟩
      · rw [hcr.1, hp]; exact hfill.all.1
      · obtain ⟨new, n1, n2⟩ := hcr.2
        exact ⟨new, n1, by simp, by rw [hp]; exact n2⟩
  obtain ⟨hp, hside, new, hcell, hnew1, hnew2⟩ := hfin
  have hB : B < (sortProps s.props).length := by rw [← hp]; exact (List.getElem?_eq_some_iff.1 hb).1
  obtain ⟨es, g1, g2⟩ := f3 hF2 A B ((mem_indexPairs _ A B).2 ⟨hAB, hB⟩)
  have hold : ((resizeW s.table (sortProps s.props).length).cell A B).rhs = s.eqs A B := by
    rcases hinv with hb' | hi
    · unfold Session.eqs UTable.get? resizeW
      simp [hb'.side]
    · rw [eqs_of_le hAB (by rw [hi.all.1, ← hlen]; exact hB)]
      unfold resizeW
      dsimp only
      rw [if_pos (by rw [hi.all.1, ← hlen]; exact hB)]
  have hclean : CleanNames s.doc.doc (sortProps s.props) :=
    ⟨fun p hp' => hc.1 p ((sortProps_perm s.props).mem_iff.1 hp'), hc.2⟩
  rw [hp] at ha hb
  have hks := cellNodes_spec (f := s.filter) hfill.names hclean ha hb
  refine ⟨by rw [hp]; exact sortProps_perm s.props, cellNodes s.doc.doc s.filter (sortProps s.props) A B, es, new, ?_,
    hks.1, by rw [hp]; exact hks.2, ?_, hnew1, hnew2⟩
  · rw [get?W_of_lt (by rw [hside, hp]; omega) (by rw [hside, hp]; exact hB), min_eq_left hAB, max_eq_right hAB, hcell]
    have : s1.table.cell A B = F.1.cell A B := rfl
    rw [this, g2, hold]
  · rw [hp]
    have key : ∀ (l : List ℕ) (m : List (WEq W)), (∀ k ∈ l, k ∈ cellNodes s.doc.doc s.filter (sortProps s.props) A B) →
        List.Forall₂ (fun k w => loadNode T s.doc (sortProps s.props) k = .ok w) l m →
        List.Forall₂ (KeptIn T s.doc s.filter (sortProps s.props) a.name b.name) l m := by
      intro l m hl hF'
      induction hF' with
      | nil => exact .nil
      | @cons k w l m h1 _ ih =>
        obtain ⟨x, hx, hl1, hc1⟩ := loadNode_ok h1
        exact .cons ⟨(hks.2 k).1 (hl k List.mem_cons_self), x, hx, hl1, hc1⟩
          (ih fun j hj => hl j (List.mem_cons_of_mem _ hj))
    exact key _ _ (fun _ hk => hk) g1

/-- The state before a call of such a history. -/
theorem speciesFirst_init {cs : List Call} (h : SpeciesFirst (cs ++ [.init])) : SpeciesFirst cs := by
  obtain ⟨pre, post, he, h1, h2⟩ := h
  rcases List.eq_nil_or_concat post with rfl | ⟨post', c, rfl⟩
  · rw [List.append_nil] at he
    exact absurd trivial (h1 .init (by rw [← he]; simp))
  · rw [List.concat_eq_append, ← List.append_assoc] at he
    obtain ⟨e1, -⟩ := List.append_inj' he rfl
    exact ⟨pre, post', e1, h1, fun c hc => h2 c (by simp [hc])⟩

/-- The speeds sampled by a call with `vmax` and `dv` go up to `vm` in steps of `d`: the arguments where these are
positive, otherwise the defaults, and a hundredth of the range if no resolution is given. -/
def SampleRange (dflt : CMDefaults ℝ) (vmax dv vm d : ℝ) : Prop :=
  (0 < vmax ∧ vm = vmax ∨ vmax ≤ 0 ∧ vm = dflt.vmax) ∧
  (0 < dv ∧ d = dv ∨ dv ≤ 0 ∧ (0 < dflt.dv ∧ d = dflt.dv ∨ dflt.dv ≤ 0 ∧ d = vm / 100))

theorem sampleRange_eq {dflt : CMDefaults ℝ} {vmax dv vm d : ℝ} (h : SampleRange dflt vmax dv vm d) (hvm : 0 < vm) :
    effectiveRange dflt.vmax dflt.dv vmax dv = (vm, d) := by
  obtain ⟨h1, h2⟩ := h
  have e1 : (if vmax ≤ 0 then dflt.vmax else vmax) = vm := by
    rcases h1 with ⟨a, b⟩ | ⟨a, b⟩
    · rw [if_neg (not_le.2 a), b]
    · rw [if_pos a, b]
  unfold effectiveRange
  dsimp only
  rw [e1, if_pos hvm]
  rcases h2 with ⟨a, b⟩ | ⟨a, ⟨c, b⟩ | ⟨c, b⟩⟩
  · rw [if_neg (not_le.2 a), if_neg (not_le.2 a), b]
  · rw [if_pos a, if_neg (not_le.2 c), b]
  · rw [if_pos a, if_pos c, b]

theorem sampleRange_of {dflt : CMDefaults ℝ} {vmax dv : ℝ} (h : 0 < (effectiveRange dflt.vmax dflt.dv vmax dv).1) :
    SampleRange dflt vmax dv (effectiveRange dflt.vmax dflt.dv vmax dv).1
      (effectiveRange dflt.vmax dflt.dv vmax dv).2 := by
  have h' : 0 < if vmax ≤ 0 then dflt.vmax else vmax := by
    revert h; unfold effectiveRange; dsimp only; split_ifs <;> exact id
  unfold effectiveRange SampleRange
  dsimp only
  rw [if_pos h']
  dsimp only
  constructor
  · rcases le_or_gt vmax 0 with hv | hv
    · exact .inr ⟨hv, if_pos hv⟩
    · exact .inl ⟨hv, if_neg (not_le.2 hv)⟩
  · rcases le_or_gt dv 0 with hd | hd
    · refine .inr ⟨hd, ?_⟩
      rw [if_pos hd]
      rcases le_or_gt dflt.dv 0 with he | he
      · exact .inr ⟨he, if_pos he⟩
      · exact .inl ⟨he, if_neg (not_le.2 he)⟩
    · refine .inl ⟨hd, ?_⟩
      rw [if_neg (not_le.2 hd), if_neg (not_le.2 hd)]

/-- At one of the sampled speeds the cross section of one of the two species has no value or a negative one, or all
samples of both are zero. -/
def NoAverage (vmax dv : ℝ) (a b : XSec) : Prop :=
  0 < vmax ∧ 0 < dv ∧
    ((∃ k : ℕ, 0 < vmax + 1 / 2 * dv - k * dv ∧ ¬ ((∃ x, 0 ≤ x ∧ a.sigma (vmax + 1 / 2 * dv - k * dv) = .ok x) ∧
        ∃ y, 0 ≤ y ∧ b.sigma (vmax + 1 / 2 * dv - k * dv) = .ok y)) ∨
     ∀ k : ℕ, 0 < vmax + 1 / 2 * dv - k * dv → a.sigma (vmax + 1 / 2 * dv - k * dv) = .ok 0 ∧
        b.sigma (vmax + 1 / 2 * dv - k * dv) = .ok 0)

theorem avgSigma_ok {s0 s1 : ℝ → Except XErr ℝ} {v s : ℝ} (h : avgSigma s0 s1 v = .ok s) :
    ∃ x y, s0 v = .ok x ∧ s1 v = .ok y ∧ 0 ≤ x ∧ 0 ≤ y ∧ s = 1 / 4 * (Real.sqrt x + Real.sqrt y) ^ 2 := by
  unfold avgSigma at h
  cases h0 : s0 v with
  | error e => simp [h0, bind, Except.bind] at h
  | ok x =>
    by_cases hx : 0 ≤ x
    swap
    · simp [h0, sqrtE, hx, bind, Except.bind] at h
    cases h1 : s1 v with
    | error e => simp [h0, h1, sqrtE, hx, bind, Except.bind] at h
    | ok y =>
      by_cases hy : 0 ≤ y
      swap
      · simp [h0, h1, sqrtE, hx, hy, bind, Except.bind] at h
      simp [h0, h1, sqrtE, hx, hy, bind, Except.bind, pure, Except.pure] at h
      exact ⟨x, y, rfl, rfl, hx, hy, by rw [← h]; norm_num⟩

theorem noAverage_of_fails {T : Tools W} {t : UTable (WSet W)} {vmax dv : ℝ} {a b : ℕ} {x : XErr}
    (h : AverageFails T t vmax dv a b x) : ∃ wa wb, FirstElasticW (t.cell a a).rhs wa ∧
      FirstElasticW (t.cell b b).rhs wb ∧ NoAverage vmax dv wa.cs wb.cs := by
  obtain ⟨wa, wb, mu, h1, h2, hv, hdv, h3⟩ := h
  refine ⟨wa, wb, h1, h2, hv, hdv, ?_⟩
  rcases averaged_error hv hdv h3 with ⟨k, hk, he⟩ | ⟨-, hz⟩
  · refine .inl ⟨k, hk, ?_⟩
    rintro ⟨⟨p, hp, ep⟩, q, hq, eq⟩
    unfold avgSigma at he
    rw [ep, eq] at he
    simp [sqrtE, hp, hq, bind, Except.bind, pure, Except.pure] at he
  · refine .inr fun k hk => ?_
    obtain ⟨p, q, e1, e2, hp, hq, hs⟩ := avgSigma_ok (hz k hk)
    have np := Real.sqrt_nonneg p
    have nq := Real.sqrt_nonneg q
    have hz' : Real.sqrt p + Real.sqrt q = 0 := by
      have : (Real.sqrt p + Real.sqrt q) ^ 2 = 0 := by linarith
      exact pow_eq_zero_iff (two_ne_zero) |>.1 this
    rw [e1, e2, (Real.sqrt_eq_zero hp).1 (by linarith), (Real.sqrt_eq_zero hq).1 (by linarith)]
    exact ⟨rfl, rfl⟩

/-- **C79**  In such a history, once the database has been initialised, creating cross sections throws only if an
average cannot be formed for two species selected; initialising throws only if an `Interaction` that is wanted and kept for
two species cannot be loaded, or (with `auto_create_missing_elastic`) an average cannot be formed.  In particular
nothing is accessed outside the table and no equation is found to be of the wrong form. -/
theorem C79_exceptions {T : Tools W} {auto : Bool} {D0 : SDoc} {cs : List Call} (h : SpeciesFirst cs) {s s' : Session W}
    (hs : runCalls T auto cs (Session.new D0) = s) {e : SErr} :
    (∀ i j vmax dv, Call.init ∈ cs → (Call.create i j vmax dv).run T auto s = (s', .error e) →
      (∃ x, e = .average x) ∧ ∃ a b wa wb vm d, a < b ∧ Selected i j a b ∧ FirstElasticW (s.eqs a a) wa ∧
        FirstElasticW (s.eqs b b) wb ∧ SampleRange s.dflt vmax dv vm d ∧
        (NoAverage vm d wa.cs wb.cs ∨ NoAverage vm d wb.cs wa.cs)) ∧
    (SpeciesFirst (cs ++ [.init]) → CleanNames s.doc.doc s.props → Call.init.run T auto s = (s', .error e) →
      (auto = true ∧ (∃ x, e = .average x) ∧ ∃ a b wa wb vm d, a < b ∧ FirstElasticW (s'.eqs a a) wa ∧
        FirstElasticW (s'.eqs b b) wb ∧ SampleRange s.dflt 0 0 vm d ∧
        (NoAverage vm d wa.cs wb.cs ∨ NoAverage vm d wb.cs wa.cs)) ∨
      ∃ a b k x, a ∈ s.props ∧ b ∈ s.props ∧
        s.filter.Keeps s.doc.doc (Wanted s.doc.doc s'.props a.name b.name) k ∧ s.doc.doc.nodes[k]? = some x ∧
        ((∃ l, e = .load l ∧
            loadEq s'.props csNames modelNames ⟨x.ins, x.outs, x.csModel, x.modelAttr⟩ = .error l) ∨
         ∃ q z, e = .complete z ∧
            loadEq s'.props csNames modelNames ⟨x.ins, x.outs, x.csModel, x.modelAttr⟩ = .ok q ∧
            completeEq T s'.props q (s.doc.inter k) = .error z)) := by
  have hcreate : ∀ (r r' : Session W) (H : SDoc → Filter → Prop) (i j : ℤ) (vmax dv : ℝ), SInv T H r →
      r.create T i j vmax dv = (r', .error e) → (∃ x, e = .average x) ∧ ∃ a b wa wb vm d, a < b ∧ Selected i j a b ∧
        FirstElasticW (r.eqs a a) wa ∧ FirstElasticW (r.eqs b b) wb ∧ SampleRange r.dflt vmax dv vm d ∧
        (NoAverage vm d wa.cs wb.cs ∨ NoAverage vm d wb.cs wa.cs) ∧ r'.eqs a a = r.eqs a a ∧ r'.eqs b b = r.eqs b b := by
    intro r r' H i j vmax dv hi hc
    unfold Session.create at hc
    dsimp only at hc
    obtain ⟨h1, h2, h3, h4⟩ := cmLoopW_spec (T := T) hi.sorted (vmax := (effectiveRange r.dflt.vmax r.dflt.dv vmax dv).1)
      (dv := (effectiveRange r.dflt.vmax r.dflt.dv vmax dv).2) (cmPairs r.props.length i j) r.table 0 hi.diag cmPairs_lt
    obtain ⟨hc1, hc2⟩ := Prod.mk.inj hc
    rcases h4 with ⟨k, h4⟩ | ⟨x, h4, ⟨p, q⟩, hpq, hne, hf⟩
    · rw [hc2] at h4; cases h4
    rw [hc2] at h4
    cases h4
    refine ⟨⟨x, rfl⟩, ?_⟩
    obtain ⟨hp, hq⟩ := cmPairs_lt (p, q) hpq
    dsimp only at hp hq hne hf
    have hsel := (mem_cmPairs r.props.length i j p q).1 hpq
    obtain ⟨wa, wb, f1, f2, f3⟩ := noAverage_of_fails hf
    have hsame : ∀ c, c < r.props.length → r'.eqs c c = r.eqs c c := by
      intro c hc'
      obtain ⟨new, n1, n2⟩ := h3 c c
      have : new = [] := List.eq_nil_iff_forall_not_mem.2 fun w hw => absurd (n2 w hw).1 (lt_irrefl _)
      rw [this, List.append_nil] at n1
      rw [← hc1, eqs_of_le le_rfl (by show c < _; rw [h2.1, hi.all.1]; exact hc'),
        eqs_of_le le_rfl (by rw [hi.all.1]; exact hc')]
      dsimp only
      rw [n1]
    rw [← eqs_of_le le_rfl (by rw [hi.all.1]; exact hp)] at f1
    rw [← eqs_of_le le_rfl (by rw [hi.all.1]; exact hq)] at f2
    rcases lt_or_gt_of_ne hne with hlt | hgt
    · exact ⟨p, q, wa, wb, _, _, hlt, .inl ⟨hsel.1.2, hsel.2.2⟩, f1, f2, sampleRange_of f3.1, .inl f3, hsame p hp, hsame q hq⟩
    · exact ⟨q, p, wb, wa, _, _, hgt, .inr ⟨hsel.1.2, hsel.2.2⟩, f2, f1, sampleRange_of f3.1, .inr f3, hsame q hq, hsame p hp⟩
  have hist := history_inv (T := T) (auto := auto) (D0 := D0) h
  rw [hs] at hist
  constructor
  · intro i j vmax dv hin hc
    rcases hist with ⟨-, hno⟩ | hi
    · exact absurd trivial (hno _ hin)
    · obtain ⟨h1, a, b, wa, wb, vm, d, h2, h3, h4, h5, h6, h7, -⟩ := hcreate s s' _ i j vmax dv hi hc
      exact ⟨h1, a, b, wa, wb, vm, d, h2, h3, h4, h5, h6, h7⟩
  · intro hsf hclean hr
    have hinv : SBare s ∨ SInv T (InForce T auto D0 (cs ++ [.init])) s := by
      rcases hist with ⟨hb, -⟩ | hi
      · exact .inl hb
      · refine .inr (hi.mono ?_)
        rintro D f ⟨p, q, e1, e2, e3⟩
        exact ⟨p, q ++ [.init], by rw [e1]; simp, e2, e3⟩
    have hforce : InForce T auto D0 (cs ++ [.init]) s.doc s.filter := ⟨cs, [], rfl, by rw [hs], by rw [hs]⟩
    have hfill := fill_inv hinv hforce
    obtain ⟨-, -, -, -, f5⟩ := fillW_spec (T := T) (d := s.doc) (f := s.filter)
      (indexPairs (sortProps s.props).length) (resizeW s.table (sortProps s.props).length) (nodup_indexPairs _)
      (fun A B hAB => (mem_indexPairs _ A B).1 hAB)
    change s.init T auto = (s', .error e) at hr
    unfold Session.init at hr
    dsimp only at hr
    set F := fillW T s.doc s.filter (sortProps s.props) (indexPairs (sortProps s.props).length)
      (resizeW s.table (sortProps s.props).length) with hF
    cases hF2 : F.2 with
    | some e' =>
      rw [hF2] at hr
      obtain ⟨hr1, hr2⟩ := Prod.mk.inj hr
      cases hr2
      right
      obtain ⟨A, B, hAB, k, hk, hl⟩ := f5 e hF2
      obtain ⟨hAB, hB⟩ := (mem_indexPairs _ A B).1 hAB
      obtain ⟨a, hA'⟩ : ∃ a, (sortProps s.props)[A]? = some a :=
        ⟨_, List.getElem?_eq_getElem (by omega : A < (sortProps s.props).length)⟩
      obtain ⟨b, hB'⟩ : ∃ b, (sortProps s.props)[B]? = some b := ⟨_, List.getElem?_eq_getElem hB⟩
      have hclean' : CleanNames s.doc.doc (sortProps s.props) :=
        ⟨fun p hp' => hclean.1 p ((sortProps_perm s.props).mem_iff.1 hp'), hclean.2⟩
      have hk' := ((cellNodes_spec (f := s.filter) hfill.names hclean' hA' hB').2 k).1 hk
      obtain ⟨x, hx, -⟩ := cellNodes_reactants hfill.names hA' hB' hk
      rw [← hr1]
      refine ⟨a, b, k, x, (sortProps_perm s.props).mem_iff.1 (List.mem_of_getElem? hA'),
        (sortProps_perm s.props).mem_iff.1 (List.mem_of_getElem? hB'), hk', hx, ?_⟩
      unfold loadNode at hl
      rw [hx] at hl
      dsimp only at hl
      split at hl
      · rename_i l he
        cases hl
        exact .inl ⟨l, rfl, he⟩
      · rename_i q he
        split at hl
        · rename_i z hz
          cases hl
          exact .inr ⟨q, z, rfl, he, hz⟩
        · cases hl
    | none =>
      rw [hF2] at hr
      dsimp only at hr
      left
      cases auto with
      | false =>
        simp only [Bool.false_eq_true, if_false] at hr
        exact absurd (congrArg Prod.snd hr) (by simp)
      | true =>
        simp only [if_true] at hr
        obtain ⟨h1, a, b, wa, wb, vm, d, h2, -, h4, h5, h6, h6', h7, h8⟩ := hcreate _ s' _ (-1) (-1) 0 0 hfill hr
        exact ⟨rfl, h1, a, b, wa, wb, vm, d, h2, by rw [h7]; exact h4, by rw [h8]; exact h5, h6, h6'⟩

/-! ## C80 -/

/-- The diameter that belongs to the cross section of `w` at speed `v` is the mean of those of `a` and `b`. -/
def MeanDiameter (a b w : XSec) (v : ℝ) : Prop :=
  ∃ sa sb s, a.sigma v = .ok sa ∧ b.sigma v = .ok sb ∧ w.sigma v = .ok s ∧ 0 ≤ sa ∧ 0 ≤ sb ∧ 0 ≤ s ∧
    Real.sqrt s = (Real.sqrt sa + Real.sqrt sb) / 2

theorem MeanDiameter.comm {a b w : XSec} {v : ℝ} (h : MeanDiameter a b w v) : MeanDiameter b a w v := by
  obtain ⟨x, y, s, h1, h2, h3, h4, h5, h6, h7⟩ := h
  exact ⟨y, x, s, h2, h1, h3, h5, h4, h6, by rw [h7, add_comm]⟩

theorem meanDiameter_of_avg {a b w : XSec} {v s : ℝ} (h : avgSigma a.sigma b.sigma v = .ok s)
    (hw : w.sigma v = .ok s) : MeanDiameter a b w v := by
  obtain ⟨x, y, h1, h2, hx, hy, rfl⟩ := avgSigma_ok h
  refine ⟨x, y, _, h1, h2, hw, hx, hy, by positivity, ?_⟩
  have : (1 / 4 * (Real.sqrt x + Real.sqrt y) ^ 2 : ℝ) = ((Real.sqrt x + Real.sqrt y) / 2) ^ 2 := by ring
  rw [this, Real.sqrt_sq (by positivity)]

/-- Of a kind whose averages are formed at every speed. -/
def EasyKind (w : WEq W) : Prop :=
  w.eq.csModel = "vhs" ∨ w.eq.csModel = "log" ∨ w.eq.csModel = "constant" ∨ w.eq.csModel = "inverse"

theorem easyKind_iff (w : WEq W) : w.eq.csModel ∈ easyLabels ↔ EasyKind w := by
  simp [easyLabels, EasyKind]

/-- **C80**  The cross section of an equation created for species `A` and `B` has the mean diameter of those of the
first elastic equations of `A` with `A` and of `B` with `B`: at every speed at which these have values if both are of
the kinds `vhs`, `log`, `constant` or `inverse`, and otherwise at speeds in equal steps down from the largest. -/
theorem C80_mean_of_diameters {T : Tools W} {auto : Bool} {D0 : SDoc} {cs : List Call} (h : SpeciesFirst cs)
    {s : Session W} (hs : runCalls T auto cs (Session.new D0) = s) {A B : ℕ} {w : WEq W}
    (hin : Call.init ∈ cs) (hm : MadeIn T s.props s.table A B w) :
    ∃ wa wb, FirstElasticW (s.eqs A A) wa ∧ FirstElasticW (s.eqs B B) wb ∧
      (EasyKind wa ∧ EasyKind wb → ∀ v x y, wa.cs.sigma v = .ok x → 0 ≤ x → wb.cs.sigma v = .ok y → 0 ≤ y →
        MeanDiameter wa.cs wb.cs w.cs v) ∧
      (¬ (EasyKind wa ∧ EasyKind wb) → ∃ vmax dv : ℝ, 0 < vmax ∧ 0 < dv ∧ ∀ k : ℕ, 0 < vmax + 1 / 2 * dv - k * dv →
        MeanDiameter wa.cs wb.cs w.cs (vmax + 1 / 2 * dv - k * dv)) := by
  have hist := history_inv (T := T) (auto := auto) (D0 := D0) h
  rw [hs] at hist
  rcases hist with ⟨-, hno⟩ | hi
  · exact absurd trivial (hno _ hin)
  obtain ⟨hlt, ⟨-, -, -, a, b, ha, hb, -⟩, wa, wb, f1, f2, hav⟩ := hm
  have hB : B < s.props.length := (List.getElem?_eq_some_iff.1 hb).1
  refine ⟨wa, wb, by rw [eqs_of_le le_rfl (by rw [hi.all.1]; omega)]; exact f1,
    by rw [eqs_of_le le_rfl (by rw [hi.all.1]; omega)]; exact f2, ?_⟩
  have key : ∀ w1 w2 : WEq W, Averages T w w1 w2 →
      (EasyKind w1 ∧ EasyKind w2 → ∀ v x y, w1.cs.sigma v = .ok x → 0 ≤ x → w2.cs.sigma v = .ok y → 0 ≤ y →
        MeanDiameter w1.cs w2.cs w.cs v) ∧
      (¬ (EasyKind w1 ∧ EasyKind w2) → ∃ vmax dv : ℝ, 0 < vmax ∧ 0 < dv ∧ ∀ k : ℕ, 0 < vmax + 1 / 2 * dv - k * dv →
        MeanDiameter w1.cs w2.cs w.cs (vmax + 1 / 2 * dv - k * dv)) := by
    rintro w1 w2 (⟨e1, e2, e3⟩ | ⟨hn, vmax, dv, hv, hdv, hmk⟩)
    · refine ⟨fun _ v x y h1 hx h2 hy => ?_, fun hno => absurd ⟨(easyKind_iff _).1 e1, (easyKind_iff _).1 e2⟩ hno⟩
      refine meanDiameter_of_avg (s := 1 / 4 * (Real.sqrt x + Real.sqrt y) ^ 2) ?_ ?_
      · simp [avgSigma, h1, h2, sqrtE, hx, hy, bind, Except.bind, pure, Except.pure]
      · rw [e3]; simp [mkAvgEasy, avgSigma, h1, h2, sqrtE, hx, hy, bind, Except.bind, pure, Except.pure]
    · rw [easyKind_iff, easyKind_iff] at hn
      refine ⟨fun he => absurd he hn, fun _ => ⟨vmax, dv, hv, hdv, fun k hk => ?_⟩⟩
      obtain ⟨c, h1, h2⟩ := averaged_ok hdv hmk k hk
      exact meanDiameter_of_avg h1 h2
  rcases hav with hav | hav
  · exact key wa wb hav
  · obtain ⟨k1, k2⟩ := key wb wa hav
    refine ⟨fun he v x y h1 hx h2 hy => (k1 he.symm v y x h2 hy h1 hx).comm, fun hn => ?_⟩
    obtain ⟨vmax, dv, hv, hdv, hk⟩ := k2 fun he => hn he.symm
    exact ⟨vmax, dv, hv, hdv, fun k h => (hk k h).comm⟩

/-- The pair has an elastic equation. -/
def HasElastic (s : Session W) (a b : ℕ) : Prop := ∃ w ∈ s.eqs a b, w.eq.isElastic = true

/-- The elastic equation that stands for a species is of an easy kind. -/
def EasyAt (s : Session W) (a : ℕ) : Prop := ∃ w, FirstElasticW (s.eqs a a) w ∧ EasyKind w

/-- The pair lacks an elastic equation and one can be made. -/
def LacksElastic (s : Session W) (ranged : Prop) (a b : ℕ) : Prop :=
  ¬ HasElastic s a b ∧ HasElastic s a a ∧ HasElastic s b b ∧ (ranged ∨ (EasyAt s a ∧ EasyAt s b))

theorem eqs_of_lt {s : Session W} {a b : ℕ} (ha : a < s.table.side) (hb : b < s.table.side) :
    s.eqs a b = (s.table.cell (min a b) (max a b)).rhs := by
  unfold Session.eqs
  rw [get?W_of_lt ha hb]

theorem entry_erase {s : Session W} {a b : ℕ} (ha : a < s.table.side) (hb : b < s.table.side) :
    ((eraseT s.table).entry a b).rhs = (s.eqs a b).map WEq.eq := by
  rw [eqs_of_lt ha hb]; rfl

theorem firstElastic_map {l : List (WEq W)} {e : LEq} :
    FirstElastic (l.map WEq.eq) e ↔ ∃ w, FirstElasticW l w ∧ w.eq = e := by
  constructor
  · rintro ⟨pre, post, h1, h2, h3⟩
    obtain ⟨p, q, rfl, hp, hq⟩ := List.map_eq_append_iff.1 h1
    obtain ⟨w, q', rfl, hw, hq'⟩ := List.map_eq_cons_iff.1 hq
    refine ⟨w, ⟨p, q', rfl, by rw [hw]; exact h2, fun x hx => h3 _ (by rw [← hp]; exact List.mem_map_of_mem hx)⟩, hw⟩
  · rintro ⟨w, ⟨pre, post, rfl, h2, h3⟩, rfl⟩
    refine ⟨pre.map WEq.eq, post.map WEq.eq, by simp, h2, fun x hx => ?_⟩
    obtain ⟨y, hy, rfl⟩ := List.mem_map.1 hx
    exact h3 y hy

theorem lacks_iff {s : Session W} {P : Prop} {a b : ℕ} (ha : a < s.table.side) (hb : b < s.table.side) :
    Missing (eraseT s.table) P a b ↔ LacksElastic s P a b := by
  have he : ∀ x y, x < s.table.side → y < s.table.side → (ElasticIn (eraseT s.table) x y ↔ HasElastic s x y) := by
    intro x y hx hy
    unfold ElasticIn HasElastic
    rw [entry_erase hx hy]
    simp
  have hz : ∀ x, x < s.table.side → (EasySpecies (eraseT s.table) x ↔ EasyAt s x) := by
    intro x hx
    unfold EasySpecies EasyAt
    rw [entry_erase hx hx]
    constructor
    · rintro ⟨e, h1, h2⟩
      obtain ⟨w, h3, rfl⟩ := firstElastic_map.1 h1
      exact ⟨w, h3, h2⟩
    · rintro ⟨w, h1, h2⟩
      exact ⟨w.eq, firstElastic_map.2 ⟨w, h1, rfl⟩, h2⟩
  unfold Missing LacksElastic
  rw [he a b ha hb, he a a ha ha, he b b hb hb, hz a ha, hz b hb]

theorem session_create_spec {T : Tools W} {H : SDoc → Filter → Prop} {s s' : Session W} (hi : SInv T H s) {i j : ℤ} {vmax dv : ℝ}
    {r : Except SErr ℕ} (hr : s.create T i j vmax dv = (s', r)) :
    s'.props = s.props ∧ s'.doc = s.doc ∧ s'.filter = s.filter ∧ s'.dflt = s.dflt ∧ ∃ L : List (ℕ × ℕ), L.Nodup ∧
      (∀ a b, (a, b) ∈ L → a < b ∧ b < s.props.length ∧ Selected i j a b ∧
        LacksElastic s (0 < vmax ∨ 0 < s.dflt.vmax) a b ∧
        ∃ w, s'.eqs a b = s.eqs a b ++ [w] ∧ w.eq.isElastic = true ∧
          MadeAt T (effectiveRange s.dflt.vmax s.dflt.dv vmax dv).1 (effectiveRange s.dflt.vmax s.dflt.dv vmax dv).2
            s'.props s'.table a b w) ∧
      (∀ a b, a ≤ b → (a, b) ∉ L → s'.eqs a b = s.eqs a b) ∧
      ((r = .ok L.length ∧ ∀ a b, a < b → b < s.props.length → Selected i j a b →
          LacksElastic s (0 < vmax ∨ 0 < s.dflt.vmax) a b → (a, b) ∈ L) ∨
       ∃ x, r = .error (.average x)) := by
  unfold Session.create at hr
  dsimp only at hr
  obtain ⟨h1, h2, h3, h4⟩ := cmLoopW_spec (T := T) hi.sorted (vmax := (effectiveRange s.dflt.vmax s.dflt.dv vmax dv).1)
    (dv := (effectiveRange s.dflt.vmax s.dflt.dv vmax dv).2) (cmPairs s.props.length i j) s.table 0 hi.diag cmPairs_lt
  have her := cmLoop_erase (T := T) hi.sorted (vmax := (effectiveRange s.dflt.vmax s.dflt.dv vmax dv).1)
    (dv := (effectiveRange s.dflt.vmax s.dflt.dv vmax dv).2) (t0 := s.table) (cmPairs s.props.length i j) s.table 0
    hi.diag (fun _ => rfl) cmPairs_lt
  have hok : TableOK s.props (eraseT s.table) := by
    refine ⟨hi.all.1, fun a ha e he => ?_⟩
    obtain ⟨w, hw, rfl⟩ := List.mem_map.1 he
    exact hi.diag.2 a ha w hw
  have hcore := createMissing_core (fun v d => avgOkOf T s.props s.table v d) s.dflt ⟨s.props, eraseT s.table⟩ hok i j
    vmax dv
  unfold createMissing at hcore
  dsimp only at hcore
  rw [her] at hcore
  obtain ⟨hr1, hr2⟩ := Prod.mk.inj hr
  have hside : ∀ b, b < s.props.length → b < s.table.side := fun b hb => by rw [hi.all.1]; exact hb
  have hside' : s'.table.side = s.table.side := by rw [← hr1]; exact h2.1
  have hcell : ∀ a b, s'.table.cell a b = (cmLoopW T s.props (effectiveRange s.dflt.vmax s.dflt.dv vmax dv).1
      (effectiveRange s.dflt.vmax s.dflt.dv vmax dv).2 (cmPairs s.props.length i j) s.table 0).1.cell a b := by
    intro a b; rw [← hr1]
  have hprops : s'.props = s.props := by rw [← hr1]
  rw [hr2] at h4 hcore
  obtain ⟨L, l1, -, -, l3, l4, l5⟩ := hcore
  refine ⟨hprops, by rw [← hr1], by rw [← hr1], by rw [← hr1], L, l1, ?_, ?_, ?_⟩
  · intro a b hab
    obtain ⟨q1, q2, q3, q4, e, -, q6, q7⟩ := l3 a b hab
    refine ⟨q1, q2, q3, (lacks_iff (hside a (by omega)) (hside b q2)).1 q4, ?_⟩
    obtain ⟨new, n1, n2⟩ := h3 a b
    have hb' := hside b q2
    have q8 := congrArg ISet.rhs q7
    change List.map WEq.eq (WSet.rhs _) = List.map WEq.eq (WSet.rhs _) ++ [e] at q8
    rw [n1] at q8
    simp only [List.map_append, List.append_cancel_left_eq] at q8
    obtain ⟨w, t, rfl, rfl, ht⟩ := List.map_eq_cons_iff.1 q8
    obtain rfl := List.map_eq_nil_iff.1 ht
    refine ⟨w, ?_, q6, ?_⟩
    · rw [eqs_of_le q1.le (by rw [hside']; exact hb'), eqs_of_le q1.le hb', hcell, n1]
    · have := n2 w (by simp)
      rw [hprops, ← hr1]
      exact this
  · intro a b hab hL
    have q7 := l4 a b hL
    obtain ⟨new, n1, -⟩ := h3 a b
    have q8 := congrArg ISet.rhs q7
    change List.map WEq.eq (WSet.rhs _) = List.map WEq.eq (WSet.rhs _) at q8
    rw [n1] at q8
    simp only [List.map_append, List.append_right_eq_self, List.map_eq_nil_iff] at q8
    by_cases hb : b < s.table.side
    · rw [eqs_of_le hab (by rw [hside']; exact hb), eqs_of_le hab hb, hcell, n1, q8, List.append_nil]
    · unfold Session.eqs UTable.get?
      rw [hside', if_neg (by omega), if_neg (by omega)]
  · rcases h4 with ⟨k, rfl⟩ | ⟨x, rfl, -⟩
    · left
      rcases l5 with ⟨r1, r2⟩ | ⟨r1, -⟩
      · refine ⟨?_, fun a b hab hb hsel hl => r2 a b hab hb hsel ((lacks_iff (hside a (by omega)) (hside b hb)).2 hl)⟩
        dsimp only at r1
        injection r1 with r1
        rw [r1]
      · simp at r1
    · exact .inr ⟨x, rfl⟩

/-- **C80**  Creating cross sections in such a database: exactly one equation is appended for each pair in a list, each
a selected pair that lacks an elastic equation for which one can be made, and nothing else changes.  If the call
returns, the list has all such pairs and the number returned is its length; otherwise an average could not be formed. -/
theorem C80_create {T : Tools W} {auto : Bool} {D0 : SDoc} {cs : List Call} (h : SpeciesFirst cs)
    {s s' : Session W} (hs : runCalls T auto cs (Session.new D0) = s) (hin : Call.init ∈ cs) {i j : ℤ} {vmax dv : ℝ}
    {r : Except SErr ℕ} (hr : (Call.create i j vmax dv).run T auto s = (s', r)) :
    s'.props = s.props ∧ s'.doc = s.doc ∧ s'.filter = s.filter ∧ s'.dflt = s.dflt ∧ ∃ L : List (ℕ × ℕ), L.Nodup ∧
      (∀ a b, (a, b) ∈ L → a < b ∧ b < s.props.length ∧ Selected i j a b ∧
        LacksElastic s (0 < vmax ∨ 0 < s.dflt.vmax) a b ∧
        ∃ w, s'.eqs a b = s.eqs a b ++ [w] ∧ w.eq.isElastic = true ∧ MadeIn T s'.props s'.table a b w) ∧
      (∀ a b, a ≤ b → (a, b) ∉ L → s'.eqs a b = s.eqs a b) ∧
      ((r = .ok L.length ∧ ∀ a b, a < b → b < s.props.length → Selected i j a b →
          LacksElastic s (0 < vmax ∨ 0 < s.dflt.vmax) a b → (a, b) ∈ L) ∨
       ∃ x, r = .error (.average x)) := by
  have hist := history_inv (T := T) (auto := auto) (D0 := D0) h
  rw [hs] at hist
  rcases hist with ⟨-, hno⟩ | hi
  · exact absurd trivial (hno _ hin)
  obtain ⟨h1, h2, h3, h4, L, h5, h6, h7⟩ := session_create_spec hi hr
  refine ⟨h1, h2, h3, h4, L, h5, fun a b hab => ?_, h7⟩
  obtain ⟨q1, q2, q3, q4, w, q5, q6, q7⟩ := h6 a b hab
  exact ⟨q1, q2, q3, q4, w, q5, q6, q7.made⟩

/-- **C80**  The speeds at which a created cross section is sampled.  An equation appended by a call for two species,
whose elastic equations are not both of the kinds averaged at every speed, has the mean diameter at every speed
`vm + d/2 − k d` that is positive, where `vm` and `d` are the arguments of the call or the defaults for them. -/
theorem C80_sampling {T : Tools W} {auto : Bool} {D0 : SDoc} {cs : List Call} (h : SpeciesFirst cs)
    {s s' : Session W} (hs : runCalls T auto cs (Session.new D0) = s) (hin : Call.init ∈ cs) {i j : ℤ} {vmax dv : ℝ}
    {r : Except SErr ℕ} (hr : (Call.create i j vmax dv).run T auto s = (s', r)) {vm d : ℝ}
    (hsr : SampleRange s.dflt vmax dv vm d) {a b : ℕ} (hab : a ≤ b) {w wa wb : WEq W}
    (hw : s'.eqs a b = s.eqs a b ++ [w])
    (fa : FirstElasticW (s.eqs a a) wa) (fb : FirstElasticW (s.eqs b b) wb) (hn : ¬ (EasyKind wa ∧ EasyKind wb)) :
    0 < vm ∧ 0 < d ∧ ∀ k : ℕ, 0 < vm + 1 / 2 * d - k * d → MeanDiameter wa.cs wb.cs w.cs (vm + 1 / 2 * d - k * d) := by
  have hist := history_inv (T := T) (auto := auto) (D0 := D0) h
  rw [hs] at hist
  rcases hist with ⟨-, hno⟩ | hi
  · exact absurd trivial (hno _ hin)
  obtain ⟨h1, -, -, -, L, -, h6, h7, -⟩ := session_create_spec hi hr
  have hL : (a, b) ∈ L := by
    by_contra hL
    have := h7 a b hab hL
    rw [hw] at this
    simp at this
  obtain ⟨q1, q2, -, q4, w', q5, -, -, -, wa', wb', f1, f2, hav⟩ := h6 a b hL
  obtain rfl : w = w' := by rw [hw] at q5; simpa using q5
  have hside : s'.table.side = s.table.side := by
    have e : (Session.create T i j vmax dv s).1 = s' := congrArg Prod.fst hr
    rw [← e]
    exact (cmLoopW_spec (T := T) hi.sorted (vmax := (effectiveRange s.dflt.vmax s.dflt.dv vmax dv).1)
      (dv := (effectiveRange s.dflt.vmax s.dflt.dv vmax dv).2) (cmPairs s.props.length i j) s.table 0 hi.diag
      cmPairs_lt).2.1.1
  have hdiag : ∀ c, c < s.props.length → s.eqs c c = (s'.table.cell c c).rhs := by
    intro c hc
    rw [← h7 c c le_rfl fun hcL => absurd (h6 c c hcL).1 (lt_irrefl _)]
    exact eqs_of_le le_rfl (by rw [hside, hi.all.1]; exact hc)
  rw [hdiag a (by omega)] at fa
  rw [hdiag b q2] at fb
  obtain rfl := fa.unique f1
  obtain rfl := fb.unique f2
  have hvm : 0 < vm := by
    rcases q4.2.2.2 with (h' | h') | ⟨⟨x, hx, hx'⟩, y, hy, hy'⟩
    · rcases hsr.1 with ⟨-, e⟩ | ⟨e, -⟩
      · rw [e]; exact h'
      · exact absurd h' (not_lt.2 e)
    · rcases hsr.1 with ⟨e', e⟩ | ⟨-, e⟩
      · rw [e]; exact e'
      · rw [e]; exact h'
    · rw [hdiag a (by omega)] at hx
      rw [hdiag b q2] at hy
      obtain rfl := fa.unique hx
      obtain rfl := fb.unique hy
      exact absurd ⟨hx', hy'⟩ hn
  rw [sampleRange_eq hsr hvm] at hav
  dsimp only at hav
  have key : ∀ w1 w2 : WEq W, ¬ (EasyKind w1 ∧ EasyKind w2) → AveragesAt T vm d w w1 w2 →
      0 < d ∧ ∀ k : ℕ, 0 < vm + 1 / 2 * d - k * d → MeanDiameter w1.cs w2.cs w.cs (vm + 1 / 2 * d - k * d) := by
    rintro w1 w2 hn (⟨e1, e2, e3⟩ | ⟨-, hv, hdv, hmk⟩)
    · exact absurd ⟨(easyKind_iff _).1 e1, (easyKind_iff _).1 e2⟩ hn
    · refine ⟨hdv, fun k hk => ?_⟩
      obtain ⟨c, h1, h2⟩ := averaged_ok hdv hmk k hk
      exact meanDiameter_of_avg h1 h2
  rcases hav with hav | hav
  · exact ⟨hvm, key _ _ hn hav⟩
  · obtain ⟨k1, k2⟩ := key _ _ (fun he => hn he.symm) hav
    exact ⟨hvm, k1, fun k hk => (k2 k hk).comm⟩

/-! ## C81 -/

/-- **C81**  The database of any such history is one to which the theorems about whole runs apply: every equation has
its pair as reactants and the objects made from its `Interaction` or by averaging.  If the cross sections of all
documents in force are sane the database is. -/
theorem C81_database {T : Tools W} {auto : Bool} {D0 : SDoc} {cs : List Call} (h : SpeciesFirst cs) {s : Session W}
    (hs : runCalls T auto cs (Session.new D0) = s) (hm : ∀ x ∈ s.props, 0 < x.mass) :
    WholeDB T s.props s.eqs ∧
    ((∀ D f, InForce T auto D0 cs D f → ∀ k, (D.inter k).cs.Sane T.solve) → SaneDB T s.props s.props.length s.eqs) := by
  have hist := history_inv (T := T) (auto := auto) (D0 := D0) h
  rw [hs] at hist
  rcases hist with ⟨hb, -⟩ | hi
  · have he : ∀ A B, s.eqs A B = [] := by
      intro A B
      unfold Session.eqs UTable.get?
      rw [hb.side, if_neg (by omega)]
    exact ⟨⟨hm, fun A B _ _ w hw => by simp [he] at hw⟩, fun _ A B _ _ w hw => by simp [he] at hw⟩
  · have hcell : ∀ A B, A ≤ B → B < s.props.length → s.eqs A B = (s.table.cell A B).rhs := fun A B hAB hB =>
      eqs_of_le hAB (by rw [hi.all.1]; exact hB)
    refine ⟨⟨hm, fun A B hAB hB w hw => ?_⟩, fun hsane A B hAB hB w hw => ?_⟩
    · rw [hcell A B hAB hB] at hw
      rcases hi.all.2 A B hAB hB w hw with ⟨D, f, -, hf⟩ | hm'
      · exact .inl (hf.loaded hi.names hi.sorted hAB hB)
      · exact .inr hm'.2.1
    · rw [hcell A B hAB hB] at hw
      rcases hi.all.2 A B hAB hB w hw with ⟨D, f, hD, k, hk, x, hx, -, hcq⟩ | hm'
      · exact .inl ⟨D.inter k, hcq, hsane D f hD k⟩
      · exact .inr hm'.2.1

/-- **C81**  Runs of the collision driver on such a database.  Mass and charge are conserved if the inelastic
equations balance them, momentum if they balance mass and do not touch velocities; and energy if all models are elastic.
Every interaction performed is between particles of the two species at a speed at which its cross section is positive,
has the energy it needs, and can be carried out. -/
theorem C81_runs {T : Tools W} {auto : Bool} {D0 : SDoc} {cs : List Call} (h : SpeciesFirst cs) {s : Session W}
    (hs : runCalls T auto cs (Session.new D0) = s) (hm : ∀ x ∈ s.props, 0 < x.mass) {c : CellConst S W}
    (hin : c.inplace = true) (hv : c.rng.Valid) {fi fs : ℕ} {st0 st : DState (Part W) S ℝ} (hf : Fresh st0)
    (hwf : WFRanges s.props.length st0.range) (hom : Homogeneous (wholeEnv T s.props.length s.eqs c) st0)
    (hrun : driver (wholeEnv T s.props.length s.eqs c) fi fs st0 = .ok st) (hev : TestsEvaluate s.eqs st) :
    (∀ g : Props ℝ → ℝ, (∀ A B, ∀ w ∈ s.eqs A B, w.IsInelastic → SameSum s.props g w.eq) →
      grandTotal s.props.length (fun p => speciesVal s.props g p.species.toNat) st =
        grandTotal s.props.length (fun p => speciesVal s.props g p.species.toNat) st0) ∧
    ((∀ A B, ∀ w ∈ s.eqs A B, w.IsInelastic → SameSum s.props Props.mass w.eq ∧ OpsKeepVel T.oc w.eq) →
      grandTotal s.props.length (momentumOf s.props) st = grandTotal s.props.length (momentumOf s.props) st0) ∧
    ((∀ A B, ∀ w ∈ s.eqs A B, w.model = .elastic) →
      grandTotal s.props.length (energyOf s.props) st = grandTotal s.props.length (energyOf s.props) st0) ∧
    ((∀ D f, InForce T auto D0 cs D f → ∀ k, (D.inter k).cs.Sane T.solve) →
      (∀ A B, ∀ w ∈ s.eqs A B, w.Runnable s.props) →
      ∀ ev ∈ st.log, 0 ≤ ev.path.first → ∃ w, (s.eqs ev.A ev.B)[ev.path.first.toNat]? = some w ∧
        ev.a.species.toNat = ev.A ∧ ev.b.species.toNat = ev.B ∧
        (∃ y, w.cs.sigma (ev.a.vel - ev.b.vel).abs = .ok y ∧ 0 < y) ∧
        (w.eq.A = Term.single ev.A ∧ w.eq.B = Term.single ev.B ∧
          w.cs.thrE ≤ 1 / 2 * w.mu.value * (ev.a.vel - ev.b.vel).normSq ∨ w.Created s.props ev.A ev.B) ∧
        ∀ g, ∃ r, w.act T c.rng c.inplace ev.a ev.b g = some r) := by
  obtain ⟨hdb, hsane⟩ := C81_database h hs hm
  refine ⟨fun g hg => ?_, fun hg => ?_, fun hg => ?_, fun hD hg ev he hp => ?_⟩
  · exact C66_mass_and_charge hdb le_rfl hin hv g (fun A B _ _ w hw => hg A B w hw) hev hwf hf.1 hom hrun
  · exact C66_momentum hdb le_rfl hin hv (fun A B _ _ w hw => hg A B w hw) hev hwf hf.1 hom hrun
  · exact C66_energy_elastic hdb le_rfl hin hv (fun A B _ _ w hw => hg A B w hw) hev hwf hf.1 hom hrun
  · obtain ⟨w, h1, h2, h3, h4, h5, h6, -⟩ := C72_interactions_possible hdb le_rfl (hsane hD)
      (fun A B _ _ w hw => hg A B w hw) hv hev hwf hf hom hrun ev he hp
    exact ⟨w, h1, h2, h3, h4, h5, h6⟩

/-! ## A history -/

namespace SessionExample

/-- Two species, and a document with an elastic interaction of constant cross section for each. -/
def x : Props ℝ := ⟨"x", 1, 0⟩
def y : Props ℝ := ⟨"y", 2, 0⟩

def node (p : String) : XInter := { ins := [{ P := p, n := some 2 }], outs := [{ P := p, n := some 2 }], inText := "2 " ++ p, outText := "2 " ++ p, hasCS := true, csModel := "constant" }

def doc : SDoc :=
  { doc := { nodes := [node "x", node "y"], inSection := fun _ _ => false }
    inter := fun k => { cs := .constant (if k = 0 then 4 else 16) none }
    particles := [y, x] }

def calls : List Call := [.addNames ["y", "x"], .init, .create (-1) (-1) 0 0]

theorem added (T : Tools W) : runCalls T false [.addNames ["y", "x"]] (Session.new doc) =
    { doc := doc, filter := .elastic, dflt := ⟨0, 0⟩, props := [y, x], table := ⟨0, fun _ _ => {}⟩ } := rfl

theorem sorted : sortProps [y, x] = [x, y] := by
  simp [sortProps, List.insertionSort, List.orderedInsert, Props.lt, x, y]

theorem cells : defaultFilter.apply doc.doc (queryNodes doc.doc [x, y] 0 0 "x" "x") = [0] ∧
    defaultFilter.apply doc.doc (queryNodes doc.doc [x, y] 0 1 "x" "y") = [] ∧
    defaultFilter.apply doc.doc (queryNodes doc.doc [x, y] 1 1 "y" "y") = [1] := by
  refine ⟨by decide +kernel, by decide +kernel, by decide +kernel⟩

theorem eqx : loadEq [x, y] csNames modelNames (node "x").node = .ok ⟨Term.single 0, Term.single 0, [Term.many 0 2], "constant", "elastic"⟩ := by
  have : loadAndSortTerms [x, y] (node "x").ins = .ok ([(x, ⟨2, [-1, -1], ["", ""]⟩)], 2) := by rfl
  unfold loadEq
  rw [show (node "x").node.ins = (node "x").ins from rfl, show (node "x").node.outs = (node "x").ins from rfl, this]
  have h2 : chooseModel (node "x").node [(x, ⟨2, [-1, -1], ["", ""]⟩)] [(x, ⟨2, [-1, -1], ["", ""]⟩)] = "elastic" := by
    show (if _ then "elastic" else "inelastic") = _
    rw [if_pos rfl]
  dsimp only
  rw [h2]
  rfl

theorem eqy : loadEq [x, y] csNames modelNames (node "y").node = .ok ⟨Term.single 1, Term.single 1, [Term.many 1 2], "constant", "elastic"⟩ := by
  have : loadAndSortTerms [x, y] (node "y").ins = .ok ([(y, ⟨2, [-1, -1], ["", ""]⟩)], 2) := by rfl
  unfold loadEq
  rw [show (node "y").node.ins = (node "y").ins from rfl, show (node "y").node.outs = (node "y").ins from rfl, this]
  have h2 : chooseModel (node "y").node [(y, ⟨2, [-1, -1], ["", ""]⟩)] [(y, ⟨2, [-1, -1], ["", ""]⟩)] = "elastic" := by
    show (if _ then "elastic" else "inelastic") = _
    rw [if_pos rfl]
  dsimp only
  rw [h2]
  rfl

noncomputable def xs (c : ℝ) : XSec where
  sigma v := .ok (if v ≥ Real.sqrt 0 then c else 0)
  thrE := 0
  maxSV vmax := .ok (if vmax ≥ Real.sqrt 0 then (c * vmax, vmax) else (0, 0))

theorem loadConst (mu c : ℝ) : mkConstant c mu (loadThreshold mu none) = .ok (xs c) := by
  unfold mkConstant setThreshold loadThreshold xs
  rw [if_neg (lt_irrefl _), zero_div]

noncomputable def wx : WEq W :=
  ⟨⟨Term.single 0, Term.single 0, [Term.many 0 2], "constant", "elastic"⟩, ReducedMass.mk' 1 1, xs 4, .elastic, none⟩

noncomputable def wy : WEq W :=
  ⟨⟨Term.single 1, Term.single 1, [Term.many 1 2], "constant", "elastic"⟩, ReducedMass.mk' 2 2, xs 16, .elastic, none⟩

theorem loadx (T : Tools W) : loadNode T doc [x, y] 0 = .ok wx := by
  unfold loadNode
  rw [show doc.doc.nodes[0]? = some (node "x") from rfl]
  dsimp only
  rw [eqx]
  dsimp only
  have : completeEq T [x, y] ⟨Term.single 0, Term.single 0, [Term.many 0 2], "constant", "elastic"⟩ (doc.inter 0) =
      .ok wx := by
    unfold completeEq
    rw [show ([x, y] : Registry ℝ)[(Term.single 0).species.toNat]? = some x from rfl]
    dsimp only
    rw [if_pos (by decide +kernel), show (doc.inter 0).cs.load T.solve T.extrapolate
      (ReducedMass.mk' x.mass x.mass).value = .ok (xs 4) from loadConst _ 4]
    rfl
  rw [this]

theorem loady (T : Tools W) : loadNode T doc [x, y] 1 = .ok wy := by
  unfold loadNode
  rw [show doc.doc.nodes[1]? = some (node "y") from rfl]
  dsimp only
  rw [eqy]
  dsimp only
  have : completeEq T [x, y] ⟨Term.single 1, Term.single 1, [Term.many 1 2], "constant", "elastic"⟩ (doc.inter 1) =
      .ok wy := by
    unfold completeEq
    rw [show ([x, y] : Registry ℝ)[(Term.single 1).species.toNat]? = some y from rfl]
    dsimp only
    rw [if_pos (by decide +kernel), show (doc.inter 1).cs.load T.solve T.extrapolate
      (ReducedMass.mk' y.mass y.mass).value = .ok (xs 16) from loadConst _ 16]
    rfl
  rw [this]

/-- The table after initialisation. -/
noncomputable def table : UTable (WSet W) :=
  (((resizeW ⟨0, fun _ _ => {}⟩ 2).modify 0 0 fun _ => ⟨(Term.single 0, Term.single 0), [wx]⟩).modify 0 1
    fun _ => ⟨(Term.single 0, Term.single 1), []⟩).modify 1 1 fun _ => ⟨(Term.single 1, Term.single 1), [wy]⟩

theorem filled (T : Tools W) : fillW T doc .elastic [x, y] (indexPairs 2) (resizeW ⟨0, fun _ _ => {}⟩ 2) =
    (table, none) := by
  obtain ⟨c1, c2, c3⟩ := cells
  unfold defaultFilter at c1 c2 c3
  rw [show indexPairs 2 = [(0, 0), (0, 1), (1, 1)] from rfl]
  rw [fillW]
  rw [show ([x, y] : Registry ℝ)[0]? = some x from rfl]
  dsimp only
  rw [show x.name = "x" from rfl, c1, pushAll, loadx]
  dsimp only
  rw [pushAll]
  dsimp only
  rw [fillW]
  rw [show ([x, y] : Registry ℝ)[0]? = some x from rfl, show ([x, y] : Registry ℝ)[1]? = some y from rfl]
  dsimp only
  rw [show x.name = "x" from rfl, show y.name = "y" from rfl, c2, pushAll]
  dsimp only
  rw [fillW]
  rw [show ([x, y] : Registry ℝ)[1]? = some y from rfl]
  dsimp only
  rw [show y.name = "y" from rfl, c3, pushAll, loady]
  dsimp only
  rw [pushAll]
  dsimp only
  rw [fillW]
  rfl

theorem inited (T : Tools W) : runCalls T false [.addNames ["y", "x"], .init] (Session.new doc) =
    { doc := doc, filter := .elastic, dflt := ⟨0, 0⟩, props := [x, y], table := table } := by
  show (Call.init.run T false (runCalls T false [.addNames ["y", "x"]] (Session.new doc))).1 = _
  rw [added]
  show (Session.init T false _).1 = _
  unfold Session.init
  dsimp only
  rw [sorted, show ([x, y] : Registry ℝ).length = 2 from rfl, filled]
  rfl

/-- The equation created for the two species. -/
noncomputable def wxy : WEq W :=
  ⟨⟨Term.single 0, Term.single 1, [Term.single 0, Term.single 1], "averaged_diameters_easy", "elastic"⟩,
    ReducedMass.mk' 1 2, mkAvgEasy (xs 4) (xs 16), .elastic, none⟩

theorem step01 (T : Tools W) (t : UTable (WSet W)) (h : t = table) : cmStepW T [x, y] 0 0 t 0 1 = .ok (pushEq t 0 1 wxy, true) := by
  unfold cmStepW
  rw [show t.get? 0 0 = some ⟨(Term.single 0, Term.single 0), [wx]⟩ by rw [h]; rfl,
    show t.get? 1 1 = some ⟨(Term.single 1, Term.single 1), [wy]⟩ by rw [h]; rfl,
    show t.get? 0 1 = some ⟨(Term.single 0, Term.single 1), []⟩ by rw [h]; rfl]
  dsimp only
  rw [if_pos (by rfl), show WSet.getElastic ⟨(Term.single 0, Term.single 0), [wx]⟩ = some (wx : WEq W) by rfl,
    show WSet.getElastic ⟨(Term.single 1, Term.single 1), [wy]⟩ = some (wy : WEq W) by rfl]
  dsimp only
  rw [if_neg (by simp [wx, wy, Term.eqv, Term.single]), show orderByMass [x, y] (wx : WEq W).eq.A (wy : WEq W).eq.A =
    some (Term.single 0, Term.single 1) by
      show (if (1 : ℝ) ≤ 2 then _ else _) = _
      rw [if_pos (by norm_num)]; rfl]
  dsimp only
  rw [show ([x, y] : Registry ℝ)[(Term.single 0).species.toNat]? = some x from rfl,
    show ([x, y] : Registry ℝ)[(Term.single 1).species.toNat]? = some y from rfl]
  dsimp only
  rw [if_pos (by simp [wx, wy, easyLabels])]
  rfl

theorem skip {T : Tools W} {db : Registry ℝ} {v d : ℝ} {t : UTable (WSet W)} {a b : ℕ} {s1 s2 s3 : WSet W}
    (h1 : t.get? a a = some s1) (h2 : t.get? b b = some s2) (h3 : t.get? a b = some s3) (h : s3.hasElastic = true) :
    cmStepW T db v d t a b = .ok (t, false) := by
  unfold cmStepW
  rw [h1, h2, h3]
  dsimp only
  rw [h]
  rfl

theorem created (T : Tools W) : (Call.create (-1) (-1) 0 0).run T false
    (runCalls T false [.addNames ["y", "x"], .init] (Session.new doc)) =
    ({ doc := doc, filter := .elastic, dflt := ⟨0, 0⟩, props := [x, y], table := pushEq table 0 1 wxy }, .ok 1) := by
  rw [inited]
  show Session.create T _ _ _ _ _ = _
  unfold Session.create
  dsimp only
  rw [show effectiveRange (0 : ℝ) 0 0 0 = (0, 0) by simp [effectiveRange],
    show cmPairs ([x, y] : Registry ℝ).length (-1) (-1) = [(0, 0), (0, 1), (1, 0), (1, 1)] from rfl]
  dsimp only
  rw [cmLoopW, skip (s1 := ⟨_, [wx]⟩) (s2 := ⟨_, [wx]⟩) (s3 := ⟨_, [wx]⟩) rfl rfl rfl rfl]
  dsimp only
  rw [cmLoopW, step01 T _ rfl]
  dsimp only
  rw [cmLoopW, skip (s1 := ⟨_, [wy]⟩) (s2 := ⟨_, [wx]⟩) (s3 := ⟨_, [wxy]⟩) rfl rfl rfl rfl]
  dsimp only
  rw [cmLoopW, skip (s1 := ⟨_, [wy]⟩) (s2 := ⟨_, [wy]⟩) (s3 := ⟨_, [wy]⟩) rfl rfl rfl rfl]
  rfl

theorem first : SpeciesFirst calls :=
  ⟨[.addNames ["y", "x"]], [.init, .create (-1) (-1) 0 0], rfl, by simp [Call.IsInit], by simp [Call.AddsSpecies]⟩

/-- The history ends with one loaded equation for each species and one created for the pair, whose cross section
is 9 where those of the species are 4 and 16. -/
theorem result (T : Tools W) : SpeciesFirst calls ∧ Call.init ∈ calls ∧
    ∃ s : Session W, runCalls T false calls (Session.new doc) = s ∧ s.props = [x, y] ∧ (∀ p ∈ s.props, 0 < p.mass) ∧
      s.eqs 0 0 = [wx] ∧ s.eqs 1 1 = [wy] ∧ s.eqs 1 0 = [wxy] ∧ MadeIn T s.props s.table 0 1 wxy ∧
      InForce T false doc calls doc .elastic ∧ (∀ k, (doc.inter k).cs.Sane T.solve) ∧
      (wxy : WEq W).cs.sigma 7 = .ok 9 := by
  refine ⟨first, by simp [calls], _, rfl, ?_⟩
  have hrun : runCalls T false calls (Session.new doc) = ((Call.create (-1) (-1) 0 0).run T false
      (runCalls T false [.addNames ["y", "x"], .init] (Session.new doc))).1 := rfl
  have h0 : SpeciesFirst [.addNames ["y", "x"], .init] :=
    ⟨[.addNames ["y", "x"]], [.init], rfl, by simp [Call.IsInit], by simp [Call.AddsSpecies]⟩
  obtain ⟨-, -, -, -, L, -, l2, l3, -⟩ := C80_create (auto := false) h0 (inited T) (by simp) (i := -1) (j := -1) (vmax := 0) (dv := 0)
    (s' := ⟨doc, .elastic, ⟨0, 0⟩, [x, y], pushEq table 0 1 wxy⟩) (r := .ok 1) (by rw [← inited T]; exact created T)
  rw [hrun, created]
  have hm : MadeIn T [x, y] (pushEq table 0 1 wxy) 0 1 wxy := by
    by_cases hL : (0, 1) ∈ L
    · obtain ⟨-, -, -, -, w, hw, -, hm⟩ := l2 0 1 hL
      have : ([wxy] : List (WEq W)) = [] ++ [w] := hw
      cases this
      exact hm
    · have := l3 0 1 (by omega) hL
      have h10 : (1 : ℕ) = 0 := congrArg List.length this
      omega
  refine ⟨rfl, ?_, rfl, rfl, rfl, hm, ⟨[.addNames ["y", "x"]], [.create (-1) (-1) 0 0], rfl, rfl, rfl⟩,
    fun k => trivial, ?_⟩
  · simp [x, y]
  · show avgSigma (xs 4).sigma (xs 16).sigma 7 = _
    have h4 : Real.sqrt 4 = 2 := by rw [show (4 : ℝ) = 2 ^ 2 by norm_num]; exact Real.sqrt_sq (by norm_num)
    have h16 : Real.sqrt 16 = 4 := by rw [show (16 : ℝ) = 4 ^ 2 by norm_num]; exact Real.sqrt_sq (by norm_num)
    simp [avgSigma, xs, sqrtE, bind, Except.bind, pure, Except.pure, h4, h16]
    norm_num

/-- The same document with a cross section model nobody registered for `x`. -/
def badDoc : SDoc :=
  { doc with doc := { nodes := [{ node "x" with csModel := "nope" }, node "y"], inSection := fun _ _ => false } }

/-- Initialising throws, and the table has its cells with no equation in the first. -/
theorem failed (T : Tools W) : ∃ s' : Session W, Call.init.run T false
    (runCalls T false [.addNames ["y", "x"]] (Session.new badDoc)) = (s', .error (.load .noCrossSection)) ∧
    s'.props = [x, y] ∧ s'.eqs 0 0 = [] ∧ CleanNames badDoc.doc [y, x] := by
  have ha : runCalls T false [.addNames ["y", "x"]] (Session.new badDoc) =
    { doc := badDoc, filter := .elastic, dflt := ⟨0, 0⟩, props := [y, x], table := ⟨0, fun _ _ => {}⟩ } := rfl
  have hl : loadNode T badDoc [x, y] 0 = .error (.load .noCrossSection) := by
    unfold loadNode
    rw [show badDoc.doc.nodes[0]? = some { node "x" with csModel := "nope" } from rfl]
    dsimp only
    rfl
  have hc : Filter.elastic.apply badDoc.doc (queryNodes badDoc.doc [x, y] 0 0 "x" "x") = [0] := by decide +kernel
  have hf : fillW T badDoc .elastic [x, y] (indexPairs 2) (resizeW ⟨0, fun _ _ => {}⟩ 2) =
      ((resizeW ⟨0, fun _ _ => {}⟩ 2).modify 0 0 fun _ => ⟨(Term.single 0, Term.single 0), []⟩,
        some (.load .noCrossSection)) := by
    rw [show indexPairs 2 = [(0, 0), (0, 1), (1, 1)] from rfl, fillW,
      show ([x, y] : Registry ℝ)[0]? = some x from rfl]
    dsimp only
    rw [show x.name = "x" from rfl, hc, pushAll, hl]
    rfl
  rw [ha]
  change ∃ s', Session.init T false _ = (s', _) ∧ _
  unfold Session.init
  dsimp only
  rw [sorted, show ([x, y] : Registry ℝ).length = 2 from rfl, hf]
  refine ⟨_, rfl, rfl, rfl, ?_⟩
  constructor
  · simp [x, y]
  · decide +kernel

/-- The equation of `y` with `y` when it is the only species. -/
noncomputable def wy0 : WEq W :=
  ⟨⟨Term.single 0, Term.single 0, [Term.many 0 2], "constant", "elastic"⟩, ReducedMass.mk' 2 2, xs 16, .elastic, none⟩

theorem loady0 (T : Tools W) : loadNode T doc [y] 1 = .ok wy0 := by
  have he : loadEq [y] csNames modelNames (node "y").node =
      .ok ⟨Term.single 0, Term.single 0, [Term.many 0 2], "constant", "elastic"⟩ := by
    have : loadAndSortTerms [y] (node "y").ins = .ok ([(y, ⟨2, [-1, -1], ["", ""]⟩)], 2) := by rfl
    unfold loadEq
    rw [show (node "y").node.ins = (node "y").ins from rfl, show (node "y").node.outs = (node "y").ins from rfl, this]
    have h2 : chooseModel (node "y").node [(y, ⟨2, [-1, -1], ["", ""]⟩)] [(y, ⟨2, [-1, -1], ["", ""]⟩)] =
        "elastic" := by
      show (if _ then "elastic" else "inelastic") = _
      rw [if_pos rfl]
    dsimp only
    rw [h2]
    rfl
  unfold loadNode
  rw [show doc.doc.nodes[1]? = some (node "y") from rfl]
  dsimp only
  rw [he]
  dsimp only
  have : completeEq T [y] ⟨Term.single 0, Term.single 0, [Term.many 0 2], "constant", "elastic"⟩ (doc.inter 1) =
      .ok wy0 := by
    unfold completeEq
    rw [show ([y] : Registry ℝ)[(Term.single 0).species.toNat]? = some y from rfl]
    dsimp only
    rw [if_pos (by decide +kernel), show (doc.inter 1).cs.load T.solve T.extrapolate
      (ReducedMass.mk' y.mass y.mass).value = .ok (xs 16) from loadConst _ 16]
    rfl
  rw [this]

theorem init_state (T : Tools W) (s : Session W) : (s.init T false).1 = { s with props := sortProps s.props, table :=
    (fillW T s.doc s.filter (sortProps s.props) (indexPairs (sortProps s.props).length)
      (resizeW s.table (sortProps s.props).length)).1 } := by
  unfold Session.init
  dsimp only
  split <;> rfl

end SessionExample

open SessionExample in
/-- **C79**, why species have to come first: after adding a lighter species and initialising again, the entry of
that species with itself holds an equation of the other one. -/
theorem C79_species_after_init_fails (T : Tools W) :
    ∃ (cs : List Call) (s : Session W), runCalls T false cs (Session.new doc) = s ∧ s.props[0]? = some x ∧
      ∃ w ∈ s.eqs 0 0, ¬ w.Loaded T s.props 0 0 ∧ ¬ MadeIn T s.props s.table 0 0 w ∧ w.cs.sigma 1 = .ok 16 := by
  refine ⟨[.addNames ["y"], .init, .addNames ["x"], .init], _, rfl, ?_⟩
  have h1 : runCalls T false [.addNames ["y"], .init] (Session.new doc) =
      { doc := doc, filter := .elastic, dflt := ⟨0, 0⟩, props := [y], table :=
        (resizeW ⟨0, fun _ _ => {}⟩ 1).modify 0 0 fun _ => ⟨(Term.single 0, Term.single 0), [wy0]⟩ } := by
    show (Session.init T false ⟨doc, .elastic, ⟨0, 0⟩, [y], ⟨0, fun _ _ => {}⟩⟩).1 = _
    unfold Session.init
    dsimp only
    have hc : Filter.elastic.apply doc.doc (queryNodes doc.doc [y] 0 0 "y" "y") = [1] := by decide +kernel
    rw [show sortProps [y] = [y] from rfl, show indexPairs ([y] : Registry ℝ).length = [(0, 0)] from rfl, fillW,
      show ([y] : Registry ℝ)[0]? = some y from rfl]
    dsimp only
    rw [show y.name = "y" from rfl, hc, pushAll, loady0]
    dsimp only
    rw [pushAll]
    dsimp only
    rw [fillW]
    rfl
  have h2 : runCalls T false [.addNames ["y"], .init, .addNames ["x"], .init] (Session.new doc) =
      (Session.init T false { runCalls T false [.addNames ["y"], .init] (Session.new doc) with props := [y, x] }).1 := by
    show (Session.init T false ((Call.addNames ["x"]).run T false
      (runCalls T false [.addNames ["y"], .init] (Session.new doc))).1).1 = _
    rw [h1]
    rfl
  rw [h2, h1, init_state]
  dsimp only
  rw [sorted]
  obtain ⟨f1, f2, -⟩ := fillW_spec (T := T) (d := doc) (f := .elastic) (db := [x, y])
    (indexPairs ([x, y] : Registry ℝ).length)
    (resizeW ((resizeW ⟨0, fun _ _ => {}⟩ 1).modify 0 0 fun _ => ⟨(Term.single 0, Term.single 0), [wy0]⟩)
      ([x, y] : Registry ℝ).length) (nodup_indexPairs _) (fun A B hAB => (mem_indexPairs _ A B).1 hAB)
  set F := fillW T doc .elastic [x, y] (indexPairs ([x, y] : Registry ℝ).length)
    (resizeW ((resizeW ⟨0, fun _ _ => {}⟩ 1).modify 0 0 fun _ => ⟨(Term.single 0, Term.single 0), [wy0]⟩)
      ([x, y] : Registry ℝ).length)
  refine ⟨rfl, wy0, ?_, ?_, fun h => absurd h.1 (lt_irrefl _), ?_⟩
  · rw [eqs_of_le le_rfl (by show 0 < F.1.side; rw [f1]; exact Nat.zero_lt_two)]
    obtain ⟨es, he, -⟩ := f2 0 0
    show _ ∈ (F.1.cell 0 0).rhs
    rw [he]
    exact List.mem_append_left _ (List.mem_singleton_self _)
  · rintro ⟨-, -, -, d, hd⟩
    obtain ⟨a, b, ha, hb, -, hmu, -⟩ := completeEq_ok hd
    cases ha
    cases hb
    have := congrArg ReducedMass.value hmu
    norm_num [wy0, ReducedMass.mk', x] at this
  · show Except.ok (if (1 : ℝ) ≥ Real.sqrt 0 then (16 : ℝ) else 0) = .ok 16
    rw [if_pos (by simp)]

end Chimp
