import Verif.Model.Calculator

/-!
# C90: the calculator is shared by all databases of a program

A database reads its values (masses, charges, cross sections, `ops` expressions) when particles are
added and tables are initialised, long after its constructor, and with the symbols the calculator has
then.  The theorems say which symbols these are.
-/

namespace Chimp

variable {τ V R : Type}

/-! ## Specification -/

/-- The symbols of the library alone: units hide functions of the same name. -/
def libraryTable (lib : CalcLib τ V R) : CalcSymbols τ V := fun n =>
  match lib.units n with
  | some x => some x
  | none => lib.math n

/-- The commands lead from one table to another, without an exception. -/
inductive Executes (lib : CalcLib τ V R) : CalcSymbols τ V → List String → CalcSymbols τ V → Prop where
  | nil (s) : Executes lib s [] s
  | cons {s s' s'' c cs} : lib.exec s c = (s', true) → Executes lib s' cs s'' → Executes lib s (c :: cs) s''

/-- A document gives this table. -/
def Gives (lib : CalcLib τ V R) (doc : CalcDoc) (s : CalcSymbols τ V) : Prop := Executes lib (libraryTable lib) doc s

/-- The names documented for `ops` expressions, `/repo/data/standard/interactions.xml` lines 60-78. -/
def documentedHelpers : List String :=
  ["setPosition", "setVelocity", "setWeight", "X", "Y", "Z", "VX", "VY", "VZ", "P", "WEIGHT", "SPECIES_CHARGE", "CQ",
    "CM"]

theorem mem_documentedHelpers (n : String) : n ∈ documentedHelpers ↔ n ∈ helperNames := by
  simp only [documentedHelpers, helperNames, List.mem_cons, List.not_mem_nil, or_false]
  constructor <;>
  · intro h
    rcases h with rfl | rfl | rfl | rfl | rfl | rfl | rfl | rfl | rfl | rfl | rfl | rfl | rfl | rfl <;> simp

/-- The tables agree but for the names of the helpers. -/
def AgreeOff (s s' : CalcSymbols τ V) : Prop := ∀ n, n ∉ documentedHelpers → s n = s' n

/-- The command has nothing to do with the names of the helpers. -/
def CommandBlind (lib : CalcLib τ V R) (c : String) : Prop :=
  ∀ s s', AgreeOff s s' → (lib.exec s c).2 = (lib.exec s' c).2 ∧ AgreeOff (lib.exec s c).1 (lib.exec s' c).1

/-- The text has nothing to do with the names of the helpers. -/
def TextBlind (lib : CalcLib τ V R) (text : String) : Prop :=
  ∀ s s', AgreeOff s s' → lib.value s text = lib.value s' text

/-- The command leaves the names of the helpers alone. -/
def KeepsHelpers (lib : CalcLib τ V R) (c : String) : Prop :=
  ∀ s, ∀ n ∈ documentedHelpers, (lib.exec s c).1 n = s n

/-- The commands that a call runs. -/
def CalcCall.commands : CalcCall τ → List String
  | .construct _ _ doc => doc
  | .addXML _ doc => doc
  | _ => []

/-- The calls that leave the calculator to database `k`: values and expressions of any database, and
`addXMLData` on this one. -/
def CalcCall.LeavesTo (k : ℕ) : CalcCall τ → Prop
  | .construct .. => False
  | .addXML j _ => j = k
  | .value .. => True
  | .ops .. => True

def CalcCall.IsOps : CalcCall τ → Prop
  | .ops .. => True
  | _ => False

def CalcCall.IsConstruct : CalcCall τ → Prop
  | .construct .. => True
  | _ => False

/-- The call, if it is a constructor, is of type `t`. -/
def CalcCall.OfType (t : τ) : CalcCall τ → Prop
  | .construct _ u _ => u = t
  | _ => True

/-! ## Lemmas -/

theorem execCalcCommands_of_executes {lib : CalcLib τ V R} {s s' : CalcSymbols τ V} {cs : CalcDoc}
    (h : Executes lib s cs s') : execCalcCommands lib s cs = (s', true) := by
  induction h with
  | nil => rfl
  | cons h1 _ ih => simp only [execCalcCommands, h1, ih]

theorem executes_append {lib : CalcLib τ V R} {a b : List String} {s s'' : CalcSymbols τ V} :
    Executes lib s (a ++ b) s'' ↔ ∃ s', Executes lib s a s' ∧ Executes lib s' b s'' := by
  induction a generalizing s with
  | nil =>
    constructor
    · intro h; exact ⟨s, .nil s, h⟩
    · rintro ⟨s', h1, h2⟩; cases h1; exact h2
  | cons c a ih =>
    constructor
    · intro h
      cases h with
      | cons h1 h2 =>
        obtain ⟨s', h3, h4⟩ := ih.mp h2
        exact ⟨s', .cons h1 h3, h4⟩
    · rintro ⟨s', h1, h2⟩
      cases h1 with
      | cons h3 h4 => exact .cons h3 (ih.mpr ⟨s', h4, h2⟩)

theorem prepare_start (lib : CalcLib τ V R) :
    (CalcSymbols.write (CalcSymbols.write (fun _ => none) lib.math) lib.units) = libraryTable lib := by
  funext n
  simp only [CalcSymbols.write, libraryTable]
  cases lib.units n <;> cases lib.math n <;> rfl

theorem prepareCalculator_of_gives {lib : CalcLib τ V R} {doc : CalcDoc} {s : CalcSymbols τ V}
    (h : Gives lib doc s) (old : CalcSymbols τ V) : prepareCalculator lib old doc = (s, true) := by
  simp only [prepareCalculator, prepare_start]
  exact execCalcCommands_of_executes h

variable [DecidableEq τ]

theorem run_append (lib : CalcLib τ V R) (p : CalcProc τ V) (a b : List (CalcCall τ)) :
    (p.run lib (a ++ b)).1 = ((p.run lib a).1.run lib b).1 := by
  induction a generalizing p with
  | nil => rfl
  | cons c a ih => simp only [List.cons_append, CalcProc.run, ih]

theorem step_dbs_keep (lib : CalcLib τ V R) (p : CalcProc τ V) (c : CalcCall τ) (h : ¬ c.IsConstruct) :
    (p.step lib c).1.dbs = p.dbs := by
  cases c with
  | construct k t doc => exact absurd trivial h
  | addXML k doc => simp only [CalcProc.step]; cases p.dbs k <;> rfl
  | value k text => simp only [CalcProc.step]; cases p.dbs k <;> rfl
  | ops k text =>
    simp only [CalcProc.step]
    cases p.dbs k with
    | none => rfl
    | some t => simp only [addInteractionHelpers]; split <;> rfl

theorem run_dbs_keep (lib : CalcLib τ V R) (p : CalcProc τ V) (cs : List (CalcCall τ))
    (h : ∀ c ∈ cs, ¬ c.IsConstruct) : (p.run lib cs).1.dbs = p.dbs := by
  induction cs generalizing p with
  | nil => rfl
  | cons c cs ih =>
    simp only [CalcProc.run]
    rw [ih _ fun d hd => h d (List.mem_cons_of_mem _ hd), step_dbs_keep lib p c (h c List.mem_cons_self)]

omit [DecidableEq τ] in
theorem leavesTo_not_construct {k : ℕ} {c : CalcCall τ} (h : c.LeavesTo k) : ¬ c.IsConstruct := by
  cases c <;> simp_all [CalcCall.LeavesTo, CalcCall.IsConstruct]

/-- The table after calls that leave the calculator to `k` and load no `ops`. -/
theorem run_own_symbols {lib : CalcLib τ V R} {k : ℕ} {p : CalcProc τ V} (hk : p.dbs k ≠ none)
    {cs : List (CalcCall τ)} (h : ∀ c ∈ cs, c.LeavesTo k ∧ ¬ c.IsOps) {s : CalcSymbols τ V}
    (hs : Executes lib p.symbols (cs.flatMap CalcCall.commands) s) : (p.run lib cs).1.symbols = s := by
  induction cs generalizing p with
  | nil => cases hs; rfl
  | cons c cs ih =>
    have hc := h c List.mem_cons_self
    have hrest := fun d hd => h d (List.mem_cons_of_mem c hd)
    simp only [CalcProc.run]
    have hkeep := step_dbs_keep lib p c (leavesTo_not_construct hc.1)
    rw [List.flatMap_cons, executes_append] at hs
    obtain ⟨s1, h1, h2⟩ := hs
    refine ih (by rw [hkeep]; exact hk) hrest ?_
    have : (p.step lib c).1.symbols = s1 := by
      cases c with
      | construct => exact absurd hc.1 (by simp [CalcCall.LeavesTo])
      | ops => exact absurd trivial hc.2
      | value j text =>
        cases h1
        simp only [CalcProc.step]; cases p.dbs j <;> rfl
      | addXML j doc =>
        have hj : j = k := hc.1
        subst hj
        simp only [CalcProc.step]
        cases hd : p.dbs j with
        | none => exact absurd hd hk
        | some t => simp only [execCalcCommands_of_executes (show Executes lib p.symbols doc s1 from h1)]
    rw [this]; exact h2

omit [DecidableEq τ] in
theorem AgreeOff.refl (s : CalcSymbols τ V) : AgreeOff s s := fun _ _ => rfl

omit [DecidableEq τ] in
theorem AgreeOff.trans {a b c : CalcSymbols τ V} (h : AgreeOff a b) (h' : AgreeOff b c) : AgreeOff a c :=
  fun n hn => (h n hn).trans (h' n hn)

omit [DecidableEq τ] in
theorem AgreeOff.symm {a b : CalcSymbols τ V} (h : AgreeOff a b) : AgreeOff b a := fun n hn => (h n hn).symm

omit [DecidableEq τ] in
theorem agreeOff_write_helpers (s : CalcSymbols τ V) (t : τ) : AgreeOff (s.write (helperTable t)) s := by
  intro n hn
  simp only [CalcSymbols.write, helperTable, if_neg (fun h => hn ((mem_documentedHelpers _).mpr h))]
  rfl

theorem agreeOff_addHelpers (t : τ) (p : CalcProc τ V) : AgreeOff (addInteractionHelpers t p).symbols p.symbols := by
  simp only [addInteractionHelpers]
  split
  · exact AgreeOff.refl _
  · exact agreeOff_write_helpers _ _

omit [DecidableEq τ] in
theorem executes_agreeOff {lib : CalcLib τ V R} {cs : List String} (hb : ∀ c ∈ cs, CommandBlind lib c)
    {s s' r : CalcSymbols τ V} (ha : AgreeOff s s') (h : Executes lib s cs r) :
    ∃ r', Executes lib s' cs r' ∧ AgreeOff r r' := by
  induction h generalizing s' with
  | nil => exact ⟨s', .nil _, ha⟩
  | @cons s s1 s2 c cs h1 _ ih =>
    obtain ⟨e1, e2⟩ := hb c List.mem_cons_self s s' ha
    rw [h1] at e1 e2
    obtain ⟨r', h3, h4⟩ := ih (fun d hd => hb d (List.mem_cons_of_mem _ hd)) e2
    refine ⟨r', .cons (s' := (lib.exec s' c).1) ?_ h3, h4⟩
    exact Prod.ext rfl e1.symm

/-- The table after calls that leave the calculator to `k`, but for the helpers. -/
theorem run_own_agree {lib : CalcLib τ V R} {k : ℕ} {p : CalcProc τ V} (hk : p.dbs k ≠ none)
    {cs : List (CalcCall τ)} (h : ∀ c ∈ cs, c.LeavesTo k) (hb : ∀ c ∈ cs, ∀ x ∈ c.commands, CommandBlind lib x)
    {s0 s : CalcSymbols τ V} (h0 : AgreeOff s0 p.symbols)
    (hs : Executes lib s0 (cs.flatMap CalcCall.commands) s) : AgreeOff s (p.run lib cs).1.symbols := by
  induction cs generalizing p s0 with
  | nil => cases hs; exact h0
  | cons c cs ih =>
    have hc := h c List.mem_cons_self
    simp only [CalcProc.run]
    have hkeep := step_dbs_keep lib p c (leavesTo_not_construct hc)
    rw [List.flatMap_cons, executes_append] at hs
    obtain ⟨s1, h1, h2⟩ := hs
    refine ih (by rw [hkeep]; exact hk) (fun d hd => h d (List.mem_cons_of_mem _ hd))
      (fun d hd => hb d (List.mem_cons_of_mem _ hd)) ?_ h2
    cases c with
    | construct => exact absurd hc (by simp [CalcCall.LeavesTo])
    | ops j text =>
      cases h1
      simp only [CalcProc.step]
      cases p.dbs j with
      | none => exact h0
      | some t => exact h0.trans (agreeOff_addHelpers t p).symm
    | value j text =>
      cases h1
      simp only [CalcProc.step]; cases p.dbs j <;> exact h0
    | addXML j doc =>
      have hj : j = k := hc
      subst hj
      simp only [CalcProc.step]
      cases hd : p.dbs j with
      | none => exact absurd hd hk
      | some t =>
        obtain ⟨r', h3, h4⟩ := executes_agreeOff (hb _ List.mem_cons_self) h0
          (show Executes lib s0 doc s1 from h1)
        have e : execCalcCommands lib p.symbols doc = (r', true) := execCalcCommands_of_executes h3
        show AgreeOff s1 (execCalcCommands lib p.symbols doc).1
        rw [e]
        exact h4

theorem step_construct {lib : CalcLib τ V R} {doc : CalcDoc} {s : CalcSymbols τ V} (h : Gives lib doc s)
    (p : CalcProc τ V) (k : ℕ) (t : τ) :
    p.step lib (.construct k t doc) =
      ({ p with symbols := s, dbs := fun j => if j = k then some t else p.dbs j }, .done) := by
  simp only [CalcProc.step, prepareCalculator_of_gives h, if_true]

/-! ## Properties -/

/-- What the constructor makes of the calculator, and whether it throws, depends on the document alone:
not on what databases before it did.  Without an exception the symbols are those of the library as the
commands of the document change them, in document order. -/
theorem C90_fresh (lib : CalcLib τ V R) (p q : CalcProc τ V) (j k : ℕ) (t u : τ) (doc : CalcDoc) :
    (p.step lib (.construct j t doc)).1.symbols = (q.step lib (.construct k u doc)).1.symbols ∧
    (p.step lib (.construct j t doc)).2 = (q.step lib (.construct k u doc)).2 ∧
    ∀ s, Gives lib doc s → (p.step lib (.construct j t doc)).1.symbols = s ∧
      (p.step lib (.construct j t doc)).1.dbs j = some t := by
  refine ⟨rfl, rfl, fun s hs => ?_⟩
  rw [step_construct hs]
  exact ⟨rfl, if_pos rfl⟩

/-- If a command throws there is no database, and the calculator keeps what the commands up to it did. -/
theorem C90_throws (lib : CalcLib τ V R) (p : CalcProc τ V) (k : ℕ) (t : τ) {a b : List String} {c : String}
    {s s' : CalcSymbols τ V} (ha : Gives lib a s) (hc : lib.exec s c = (s', false)) :
    (p.step lib (.construct k t (a ++ c :: b))).1.symbols = s' ∧
    (p.step lib (.construct k t (a ++ c :: b))).1.dbs k = none ∧
    (p.step lib (.construct k t (a ++ c :: b))).2 = .threw := by
  have : ∀ {s0 s : CalcSymbols τ V} {a : List String}, Executes lib s0 a s → lib.exec s c = (s', false) →
      execCalcCommands lib s0 (a ++ c :: b) = (s', false) := by
    clear ha hc
    intro s0 s a h hc
    induction h with
    | nil => simp only [List.nil_append, execCalcCommands, hc]
    | cons h1 _ ih => simp only [List.cons_append, execCalcCommands, h1, ih hc]
  have e : prepareCalculator lib p.symbols (a ++ c :: b) = (s', false) := by
    simp only [prepareCalculator, prepare_start]
    exact this ha hc
  simp only [CalcProc.step, e]
  exact ⟨trivial, by simp, rfl⟩

/-- A database used by itself: as long as no other database is constructed or extended, and no `ops` are
loaded, its values are read with the symbols of its own document and of the documents added to it, in
the order of the calls, whatever went on in the process before. -/
theorem C90_own {lib : CalcLib τ V R} (p : CalcProc τ V) {k : ℕ} {t : τ} {doc : CalcDoc} {cs : List (CalcCall τ)}
    (hcs : ∀ c ∈ cs, c.LeavesTo k ∧ ¬ c.IsOps) {s : CalcSymbols τ V}
    (hs : Gives lib (doc ++ cs.flatMap CalcCall.commands) s) (text : String) :
    ((p.run lib (.construct k t doc :: cs)).1.step lib (.value k text)).2 = .result (lib.value s text) := by
  obtain ⟨s1, h1, h2⟩ := executes_append.mp hs
  simp only [CalcProc.run, step_construct h1]
  set q : CalcProc τ V := { p with symbols := s1, dbs := fun j => if j = k then some t else p.dbs j } with hq
  have hqk : q.dbs k = some t := by simp [hq]
  have e1 := run_own_symbols (lib := lib) (p := q) (by rw [hqk]; simp) hcs h2
  have e2 := run_dbs_keep lib q cs fun c hc => leavesTo_not_construct (hcs c hc).1
  simp only [CalcProc.step, e1, e2, hqk]

/-- The same with `ops` loaded in between, by any database, for commands and a text that have nothing to
do with the names of the helpers. -/
theorem C90_own_ops {lib : CalcLib τ V R} (p : CalcProc τ V) {k : ℕ} {t : τ} {doc : CalcDoc} {cs : List (CalcCall τ)}
    (hcs : ∀ c ∈ cs, c.LeavesTo k) (hb : ∀ c ∈ cs, ∀ x ∈ c.commands, CommandBlind lib x) {s : CalcSymbols τ V}
    (hs : Gives lib (doc ++ cs.flatMap CalcCall.commands) s) {text : String} (ht : TextBlind lib text) :
    ((p.run lib (.construct k t doc :: cs)).1.step lib (.value k text)).2 = .result (lib.value s text) := by
  obtain ⟨s1, h1, h2⟩ := executes_append.mp hs
  simp only [CalcProc.run, step_construct h1]
  set q : CalcProc τ V := { p with symbols := s1, dbs := fun j => if j = k then some t else p.dbs j } with hq
  have hqk : q.dbs k = some t := by simp [hq]
  have e1 := run_own_agree (lib := lib) (p := q) (by rw [hqk]; simp) hcs hb (AgreeOff.refl s1) h2
  have e2 := run_dbs_keep lib q cs fun c hc => leavesTo_not_construct (hcs c hc)
  simp only [CalcProc.step, e2, hqk]
  rw [ht _ _ e1]

/-- Databases are not independent: once another database has been constructed, a database reads its
values with the symbols of that one's document, and those of its own are gone. -/
theorem C90_not_own {lib : CalcLib τ V R} (p : CalcProc τ V) {j k : ℕ} (hjk : j ≠ k) {t u : τ} {doc doc' : CalcDoc}
    {s s' : CalcSymbols τ V} (hs : Gives lib doc s) (hs' : Gives lib doc' s') (text : String) :
    (p.run lib [.construct k t doc, .value k text, .construct j u doc', .value k text]).2 =
      [.done, .result (lib.value s text), .done, .result (lib.value s' text)] := by
  have hkj : k ≠ j := fun e => hjk e.symm
  simp only [CalcProc.run, step_construct hs, step_construct hs']
  simp only [CalcProc.step, if_true, if_neg hkj]

/-- What is added to one database by `addXMLData` is added for all. -/
theorem C90_added_for_all {lib : CalcLib τ V R} (p : CalcProc τ V) {j k : ℕ} (hj : p.dbs j ≠ none) (hk : p.dbs k ≠ none)
    {doc : CalcDoc} {s : CalcSymbols τ V} (hs : Executes lib p.symbols doc s) (text : String) :
    (p.run lib [.addXML j doc, .value k text]).2 = [.done, .result (lib.value s text)] := by
  obtain ⟨t, ht⟩ := Option.ne_none_iff_exists'.mp hj
  obtain ⟨u, hu⟩ := Option.ne_none_iff_exists'.mp hk
  simp only [CalcProc.run, CalcProc.step, ht, hu, execCalcCommands_of_executes hs, if_true]

/-! ### The helpers of `ops` expressions -/

/-- Every helper is there, as that of databases of type `t`. -/
def HasHelpers (t : τ) (s : CalcSymbols τ V) : Prop := ∀ n ∈ documentedHelpers, s n = some (.helper t n)

/-- No helper is there. -/
def NoHelpers (s : CalcSymbols τ V) : Prop := ∀ n ∈ documentedHelpers, s n = none

omit [DecidableEq τ] in
theorem exec_keeps {lib : CalcLib τ V R} {cs : List String} (h : ∀ c ∈ cs, KeepsHelpers lib c) (s : CalcSymbols τ V)
    {n : String} (hn : n ∈ documentedHelpers) : (execCalcCommands lib s cs).1 n = s n := by
  induction cs generalizing s with
  | nil => rfl
  | cons c cs ih =>
    have hc := h c List.mem_cons_self s n hn
    simp only [execCalcCommands]
    split
    · next s' e =>
      rw [ih fun d hd => h d (List.mem_cons_of_mem _ hd)]
      rw [e] at hc; exact hc
    · next s' e => rw [e] at hc; exact hc

theorem helpers_added (t : τ) (p : CalcProc τ V) (h : p.added t = true → HasHelpers t p.symbols) :
    (addInteractionHelpers t p).added t = true ∧ HasHelpers t (addInteractionHelpers t p).symbols := by
  simp only [addInteractionHelpers]
  split
  · next ha => exact ⟨ha, h ha⟩
  · refine ⟨if_pos rfl, fun n hn => ?_⟩
    simp only [CalcSymbols.write, helperTable, if_pos ((mem_documentedHelpers _).mp hn)]
    rfl

/-- Invariant of a process with one type of database and no further constructor. -/
theorem run_single {lib : CalcLib τ V R} {t : τ} {p : CalcProc τ V} (hp : ∀ j u, p.dbs j = some u → u = t)
    (h : p.added t = true → HasHelpers t p.symbols) {cs : List (CalcCall τ)} (hcs : ∀ c ∈ cs, ¬ c.IsConstruct)
    (hk : ∀ c ∈ cs, ∀ x ∈ c.commands, KeepsHelpers lib x) :
    (p.run lib cs).1.added t = true → HasHelpers t (p.run lib cs).1.symbols := by
  induction cs generalizing p with
  | nil => exact h
  | cons c cs ih =>
    simp only [CalcProc.run]
    refine ih ?_ ?_ (fun d hd => hcs d (List.mem_cons_of_mem _ hd)) fun d hd => hk d (List.mem_cons_of_mem _ hd)
    · rw [step_dbs_keep lib p c (hcs c List.mem_cons_self)]; exact hp
    · cases c with
      | construct => exact absurd trivial (hcs _ List.mem_cons_self)
      | value j text => simp only [CalcProc.step]; cases p.dbs j <;> exact h
      | addXML j doc =>
        simp only [CalcProc.step]
        cases p.dbs j with
        | none => exact h
        | some u =>
          intro ha n hn
          show (execCalcCommands lib p.symbols doc).1 n = _
          rw [exec_keeps (cs := doc) (hk _ List.mem_cons_self) p.symbols hn]
          exact h ha n hn
      | ops j text =>
        simp only [CalcProc.step]
        cases hj : p.dbs j with
        | none => exact h
        | some u =>
          obtain rfl := hp j u hj
          exact fun _ => (helpers_added u p h).2

/-- In a program with one database every `ops` expression is compiled with all helpers there, if added
documents leave their names alone. -/
theorem C90_first_database {lib : CalcLib τ V R} {k : ℕ} {t : τ} {doc : CalcDoc} {cs : List (CalcCall τ)}
    {s : CalcSymbols τ V} (hs : Gives lib doc s) (hcs : ∀ c ∈ cs, ¬ c.IsConstruct)
    (hk : ∀ c ∈ cs, ∀ x ∈ c.commands, KeepsHelpers lib x) (text : String) :
    ∃ r, ((CalcProc.initial.run lib (.construct k t doc :: cs)).1.step lib (.ops k text)).2 =
      .result (lib.compile r text) ∧ HasHelpers t r := by
  simp only [CalcProc.run, step_construct hs]
  set q : CalcProc τ V := { (CalcProc.initial : CalcProc τ V) with
    symbols := s, dbs := fun j => if j = k then some t else CalcProc.initial.dbs j } with hq
  have hqk : q.dbs k = some t := by simp [hq]
  have h1 : ∀ j u, q.dbs j = some u → u = t := by
    intro j u hj
    simp only [hq, CalcProc.initial] at hj
    split at hj
    · exact (Option.some.inj hj).symm
    · cases hj
  have h2 := run_single (lib := lib) (p := q) h1 (fun ha => by simp [hq, CalcProc.initial] at ha) hcs hk
  have e2 := run_dbs_keep lib q cs hcs
  refine ⟨(addInteractionHelpers t (q.run lib cs).1).symbols, ?_, (helpers_added t _ h2).2⟩
  simp only [CalcProc.step, e2, hqk]

theorem added_step (lib : CalcLib τ V R) {t : τ} {p : CalcProc τ V} (h : p.added t = true) (c : CalcCall τ) :
    (p.step lib c).1.added t = true := by
  cases c with
  | construct => exact h
  | addXML k doc => simp only [CalcProc.step]; cases p.dbs k <;> exact h
  | value k text => simp only [CalcProc.step]; cases p.dbs k <;> exact h
  | ops k text =>
    simp only [CalcProc.step]
    cases p.dbs k with
    | none => exact h
    | some u =>
      simp only [addInteractionHelpers]
      split
      · exact h
      · simp only [h, ite_self]

theorem added_run (lib : CalcLib τ V R) {t : τ} {p : CalcProc τ V} (h : p.added t = true) (cs : List (CalcCall τ)) :
    (p.run lib cs).1.added t = true := by
  induction cs generalizing p with
  | nil => exact h
  | cons c cs ih => exact ih (added_step lib h c)

theorem dbs_type {lib : CalcLib τ V R} {t : τ} {p : CalcProc τ V} (hp : ∀ j u, p.dbs j = some u → u = t)
    {cs : List (CalcCall τ)} (hcs : ∀ c ∈ cs, c.OfType t) : ∀ j u, (p.run lib cs).1.dbs j = some u → u = t := by
  induction cs generalizing p with
  | nil => exact hp
  | cons c cs ih =>
    simp only [CalcProc.run]
    refine ih ?_ fun d hd => hcs d (List.mem_cons_of_mem _ hd)
    cases c with
    | construct k v doc =>
      intro j u hj
      simp only [CalcProc.step] at hj
      split at hj
      · split at hj
        · rw [← Option.some.inj hj]; exact hcs _ List.mem_cons_self
        · cases hj
      · exact hp j u hj
    | addXML k doc => rw [step_dbs_keep lib p _ (by simp [CalcCall.IsConstruct])]; exact hp
    | value k text => rw [step_dbs_keep lib p _ (by simp [CalcCall.IsConstruct])]; exact hp
    | ops k text => rw [step_dbs_keep lib p _ (by simp [CalcCall.IsConstruct])]; exact hp

theorem construct_noHelpers {lib : CalcLib τ V R} (hl : NoHelpers (libraryTable lib)) {doc : CalcDoc}
    (hk : ∀ x ∈ doc, KeepsHelpers lib x) (p : CalcProc τ V) (k : ℕ) (t : τ) :
    NoHelpers (p.step lib (.construct k t doc)).1.symbols := by
  intro n hn
  simp only [CalcProc.step, prepareCalculator, prepare_start]
  rw [exec_keeps hk _ hn]
  exact hl n hn

theorem step_noHelpers {lib : CalcLib τ V R} (hl : NoHelpers (libraryTable lib)) {t : τ} {p : CalcProc τ V}
    (hp : ∀ j u, p.dbs j = some u → u = t) (ha : p.added t = true) (h : NoHelpers p.symbols) {c : CalcCall τ}
    (hk : ∀ x ∈ c.commands, KeepsHelpers lib x) : NoHelpers (p.step lib c).1.symbols := by
  cases c with
  | construct k u doc => exact construct_noHelpers hl hk p k u
  | addXML j doc =>
    simp only [CalcProc.step]
    cases p.dbs j with
    | none => exact h
    | some u =>
      intro n hn
      show (execCalcCommands lib p.symbols doc).1 n = _
      rw [exec_keeps (cs := doc) hk p.symbols hn]
      exact h n hn
  | value k text => simp only [CalcProc.step]; cases p.dbs k <;> exact h
  | ops k text =>
    simp only [CalcProc.step]
    cases hj : p.dbs k with
    | none => exact h
    | some u =>
      obtain rfl := hp k u hj
      simp only [addInteractionHelpers, ha, if_true]
      exact h

theorem run_noHelpers {lib : CalcLib τ V R} (hl : NoHelpers (libraryTable lib)) {t : τ} {p : CalcProc τ V}
    (hp : ∀ j u, p.dbs j = some u → u = t) (ha : p.added t = true) (h : NoHelpers p.symbols) {cs : List (CalcCall τ)}
    (ht : ∀ c ∈ cs, c.OfType t) (hk : ∀ c ∈ cs, ∀ x ∈ c.commands, KeepsHelpers lib x) :
    NoHelpers (p.run lib cs).1.symbols := by
  induction cs generalizing p with
  | nil => exact h
  | cons c cs ih =>
    refine ih ?_ (added_step lib ha c) (step_noHelpers hl hp ha h (hk c List.mem_cons_self))
      (fun d hd => ht d (List.mem_cons_of_mem _ hd)) fun d hd => hk d (List.mem_cons_of_mem _ hd)
    exact dbs_type (cs := [c]) hp fun d hd => by
      rw [List.mem_singleton] at hd; subst hd; exact ht _ List.mem_cons_self

/-- A second database has no helpers: once `ops` have been loaded by a database, and another of the same
type is constructed after that, no helper is ever there again, and every later `ops` expression, of
whatever database, is compiled without them. -/
theorem C90_second_database {lib : CalcLib τ V R} (hl : NoHelpers (libraryTable lib)) {t u : τ} {j k l : ℕ}
    {pre mid post : List (CalcCall τ)} {doc : CalcDoc} {x : String}
    (hk : (CalcProc.initial.run lib pre).1.dbs k = some t)
    (ht : ∀ c ∈ pre ++ .ops k x :: mid ++ .construct j u doc :: post, c.OfType t)
    (hkeep : ∀ c ∈ pre ++ .ops k x :: mid ++ .construct j u doc :: post, ∀ y ∈ c.commands, KeepsHelpers lib y)
    (text : String) :
    let q := (CalcProc.initial.run lib (pre ++ .ops k x :: mid ++ .construct j u doc :: post)).1
    NoHelpers q.symbols ∧ (q.dbs l ≠ none →
      ∃ r, (q.step lib (.ops l text)).2 = .result (lib.compile r text) ∧ NoHelpers r) := by
  intro q
  have hp0 : ∀ j u, (CalcProc.initial : CalcProc τ V).dbs j = some u → u = t := fun j u h => by cases h
  set p1 := (CalcProc.initial.run lib pre).1 with hp1
  have hadd : (p1.step lib (.ops k x)).1.added t = true := by
    simp only [CalcProc.step, hk, addInteractionHelpers]
    split
    · assumption
    · exact if_pos rfl
  set p2 := ((p1.step lib (.ops k x)).1.run lib mid).1 with hp2
  have hadd2 : p2.added t = true := added_run lib hadd mid
  have ht2 : ∀ j u, p2.dbs j = some u → u = t := by
    have e : p2 = (CalcProc.initial.run lib (pre ++ .ops k x :: mid)).1 := by
      rw [run_append]; rfl
    rw [e]
    exact dbs_type hp0 fun c hc => ht c (List.mem_append_left _ hc)
  set p3 := (p2.step lib (.construct j u doc)).1 with hp3
  have hq : q = (p3.run lib post).1 := by
    show (CalcProc.initial.run lib _).1 = _
    rw [run_append, run_append]; rfl
  have ht3 : ∀ j u, p3.dbs j = some u → u = t :=
    dbs_type (lib := lib) (p := p2) (cs := [.construct j u doc]) ht2 fun c hc => by
      rw [List.mem_singleton] at hc; subst hc
      exact ht _ (List.mem_append_right _ List.mem_cons_self)
  have hadd3 : p3.added t = true := added_step lib hadd2 _
  have hno3 : NoHelpers p3.symbols := construct_noHelpers hl
    (hkeep (.construct j u doc) (List.mem_append_right _ List.mem_cons_self)) p2 j u
  have hno : NoHelpers q.symbols := by
    rw [hq]
    exact run_noHelpers hl ht3 hadd3 hno3
      (fun c hc => ht c (List.mem_append_right _ (List.mem_cons_of_mem _ hc)))
      fun c hc => hkeep c (List.mem_append_right _ (List.mem_cons_of_mem _ hc))
  refine ⟨hno, fun hl' => ?_⟩
  obtain ⟨v, hv⟩ := Option.ne_none_iff_exists'.mp hl'
  have hvt : v = t := by
    have := dbs_type (lib := lib) hp0 ht l v
    exact this hv
  subst hvt
  have haq : q.added v = true := by rw [hq]; exact added_run lib hadd3 post
  refine ⟨q.symbols, ?_, hno⟩
  simp only [CalcProc.step, hv, addInteractionHelpers, haq, if_true]

/-- The XPath expression for the commands: the section, with a slash if it has none at its end; an empty
section is undefined behaviour. -/
theorem C90_section (sec : String) :
    (sec = "" → commandsXPath sec = none) ∧
    (∀ a, sec = a ++ "/" → commandsXPath sec = some (sec ++ "calc-commands/command")) ∧
    (sec ≠ "" → (∀ a, sec ≠ a ++ "/") → commandsXPath sec = some (sec ++ "/calc-commands/command")) := by
  refine ⟨?_, ?_, ?_⟩
  · rintro rfl; rfl
  · rintro a rfl
    simp [commandsXPath]
  · intro h1 h2
    have : sec.toList ≠ [] := fun e => h1 (by simpa using e)
    simp only [commandsXPath, List.getLast?_eq_some_getLast this]
    have hc : sec.toList.getLast this ≠ '/' := by
      intro e
      refine h2 (String.ofList sec.toList.dropLast) ?_
      apply String.toList_injective
      rw [String.toList_append, String.toList_ofList]
      conv_lhs => rw [← List.dropLast_append_getLast this, e]
      rfl
    rw [if_pos (by simpa using hc)]
    congr 1
    rw [String.append_assoc]
    rfl

/-! ## Example -/

namespace CalculatorExample

/-- A small calculator: a command `n` defines the symbol `n` as its length, unless it is empty, which
throws; the value of a text is its symbol; compiling an expression says whether its symbol is known. -/
def lib : CalcLib Unit ℕ ℕ where
  math n := if n = "sin" then some (.other 1) else none
  units n := if n = "m" then some (.other 2) else none
  exec s c := if c = "" then (s, false) else (fun n => if n = c then some (.other c.length) else s n, true)
  value s n := match s n with | some (.other v) => v | _ => 0
  compile s n := if (s n).isSome then 1 else 0

def isResult : CalcOut ℕ → Option ℕ
  | .result r => some r
  | _ => none

/-- The second database makes the first one read `kg` as unknown, and takes the helpers away. -/
example : ((CalcProc.initial (τ := Unit)).run lib
    [.construct 0 () ["kg"], .value 0 "kg", .ops 0 "setPosition", .construct 1 () ["Torr"], .value 0 "kg",
      .value 0 "Torr", .ops 1 "setPosition", .ops 0 "setPosition", .value 0 "m"]).2.map isResult =
    [none, some 2, some 1, none, some 0, some 4, some 0, some 0, some 2] := by decide +kernel

theorem gives (c : String) (h : c ≠ "") :
    Gives lib [c] fun n => if n = c then some (.other c.length) else libraryTable lib n :=
  .cons (by simp [lib, h]) (.nil _)

theorem keeps {c : String} (h : c ∉ documentedHelpers) : KeepsHelpers lib c := by
  intro s n hn
  simp only [lib]
  split
  · rfl
  · have : n ≠ c := fun e => h (e ▸ hn)
    simp [this]

theorem blind {c : String} : CommandBlind lib c := by
  intro s s' h
  simp only [lib]
  split
  · exact ⟨rfl, h⟩
  · refine ⟨rfl, fun n hn => ?_⟩
    show (if n = c then _ else s n) = if n = c then _ else s' n
    rw [h n hn]

theorem noHelpers : NoHelpers (libraryTable lib) := by
  intro n hn
  have h1 : n ≠ "m" := by rintro rfl; exact absurd hn (by decide +kernel)
  have h2 : n ≠ "sin" := by rintro rfl; exact absurd hn (by decide +kernel)
  simp [libraryTable, lib, h1, h2]

/-- `C90_own_ops`, after other databases were there. -/
example (p : CalcProc Unit ℕ) :
    ((p.run lib (.construct 3 () ["kg"] :: [.value 0 "x", .ops 3 "P", .addXML 3 ["Torr"], .value 3 "kg"])).1.step lib
      (.value 3 "Torr")).2 = .result 4 := by
  have h := C90_own_ops (lib := lib) p (k := 3) (t := ()) (doc := ["kg"])
    (cs := [.value 0 "x", .ops 3 "P", .addXML 3 ["Torr"], .value 3 "kg"]) (by simp [CalcCall.LeavesTo])
    (fun _ _ _ _ => blind)
    (s := fun n => if n = "Torr" then some (.other 4) else if n = "kg" then some (.other 2) else libraryTable lib n)
    (.cons (by simp [lib]; rfl) (.cons (by simp [lib]; rfl) (.nil _))) (text := "Torr")
    (by
      intro s s' h
      show (match s "Torr" with | some (.other v) => v | _ => 0) = _
      rw [h "Torr" (by decide +kernel)]
      rfl)
  rw [h]; rfl

/-- `C90_second_database` with two databases. -/
example (text : String) :
    let q := ((CalcProc.initial (τ := Unit)).run lib
      ([.construct 0 () ["kg"]] ++ .ops 0 "P" :: [.value 0 "kg"] ++ .construct 1 () ["Torr"] :: [.addXML 0 ["a"]])).1
    NoHelpers q.symbols ∧ (q.dbs 1 ≠ none →
      ∃ r, (q.step lib (.ops 1 text)).2 = .result (lib.compile r text) ∧ NoHelpers r) :=
  C90_second_database noHelpers (by rfl) (by simp [CalcCall.OfType]) (by
    intro c hc y hy
    have : y = "kg" ∨ y = "Torr" ∨ y = "a" := by
      simp only [List.mem_append, List.mem_cons, List.not_mem_nil, or_false] at hc
      rcases hc with (rfl | rfl | rfl) | rfl | rfl <;> simp_all [CalcCall.commands]
    rcases this with rfl | rfl | rfl <;> exact keeps (by decide +kernel)) text

/-- A command that throws. -/
example (p : CalcProc Unit ℕ) : (p.step lib (.construct 0 () (["kg"] ++ "" :: ["Torr"]))).1.dbs 0 = none :=
  (C90_throws lib p 0 () (gives "kg" (by decide +kernel)) (by simp [lib]; rfl)).2.1

example : commandsXPath "//" = some "//calc-commands/command" ∧
    commandsXPath "/ParticleDB/standard" = some "/ParticleDB/standard/calc-commands/command" := by decide +kernel

end CalculatorExample

end Chimp
