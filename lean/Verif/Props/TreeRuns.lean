import Verif.Props.TreeModel
import Verif.Props.Example

/-!
# C118  From a document to a simulation
-/

namespace Chimp

variable {S W : Type}

/-! ### Specification -/

/-- The equation is loaded from an `Interaction` element of the document that is wanted for two of the species and kept by the
filter. -/
def FromDocument (R : Reader) (T : Tools W) (parse : List Char → Option ℤ) (root : Xml) (d : Doc) (f : Filter)
    (db : Registry ℝ) (w : WEq W) : Prop :=
  ∃ a ∈ db, ∃ b ∈ db, ∃ k x, f.Keeps d (Wanted d db a.name b.name) k ∧ root.interaction k x ∧
    loadXml R T parse db x = .ok w

/-! ### Lemmas -/

private theorem run_adds (T : Tools W) (auto : Bool) (s : Session W) (ps : List (Props ℝ))
    (h : NodupNames (s.props ++ ps)) :
    runCalls T auto (ps.map Call.add) s = { s with props := s.props ++ ps } := by
  induction ps generalizing s with
  | nil => simp [runCalls]
  | cons p ps ih =>
    have hp : findParticle s.props p.name = s.props.length := by
      rw [findParticle_eq_length_iff]
      intro q hq he
      unfold NodupNames at h
      rw [List.map_append, List.nodup_append] at h
      exact h.2.2 _ (List.mem_map_of_mem hq) _ (List.mem_map_of_mem List.mem_cons_self) he
    have ha : addParticleType s.props p = s.props ++ [p] := by
      unfold addParticleType
      rw [if_neg (by simp [hp])]
    show runCalls T auto (ps.map Call.add) { s with props := addParticleType s.props p } = _
    rw [ha, ih _ (by simpa using h)]
    simp

private theorem wanted_comm (d : Doc) (db : Registry ℝ) (a b : String) : Wanted d db a b = Wanted d db b a := by
  have h : ∀ ins, ReactantsWritten a b ins ↔ ReactantsWritten b a ins := by
    intro ins
    unfold ReactantsWritten
    by_cases hab : a = b
    · subst hab; rfl
    · rw [if_neg hab, if_neg fun e => hab e.symm]
      exact ⟨fun ⟨s, t, h, h1, h2, h3, h4⟩ => ⟨t, s, h.symm, h2, h1, h4, h3⟩,
        fun ⟨s, t, h, h1, h2, h3, h4⟩ => ⟨t, s, h.symm, h2, h1, h4, h3⟩⟩
  unfold Wanted
  simp only [h]

section
variable {R : Reader} {T : Tools W} {parse : List Char → Option ℤ} {number : List Char → Option ℝ}
  {strip : List Char → List Char} {m : String} {root : Xml} {d : Doc}

private theorem history_of (hn : SameNumbers parse number) {s s' : TreeDB W} (hd : docOf parse s.root = some d)
    (h1 : ∀ a x, s.root.get a = some x → x.hasTag "Interaction" = true → OneEquation x) (hr : s.root.hasTag "Eq" = false)
    (hnd : NodupNames s.props) (ht : s.table = ⟨0, fun _ _ => {}⟩) (hi : s.init R T parse number d = (s', none)) :
    ∃ (D : SDoc) (cs : List Call), D.doc = d ∧ SpeciesFirst cs ∧ Call.init ∈ cs ∧
      runCalls T false cs (Session.new D) = ⟨D, s'.filter, ⟨0, 0⟩, s'.props, s'.table⟩ := by
  obtain ⟨D, hD, hs⟩ := C115_session (R := R) (T := T) hn hd h1 hr hi
  have hf : s'.filter = s.filter := by
    unfold TreeDB.init at hi
    simp only [Prod.mk.injEq] at hi
    rw [← hi.1]
  refine ⟨D, s.props.map Call.add ++ [.filter s.filter, .init], hD,
    ⟨s.props.map Call.add ++ [.filter s.filter], [.init], by simp, ?_, ?_⟩, by simp, ?_⟩
  · intro c hc
    simp only [List.mem_append, List.mem_map, List.mem_singleton] at hc
    rcases hc with ⟨p, -, rfl⟩ | rfl <;> exact id
  · intro c hc
    rw [List.mem_singleton] at hc
    subst hc
    exact id
  · have e := run_adds T false (Session.new D) s.props (by simpa [Session.new] using hnd)
    unfold runCalls at e ⊢
    rw [List.foldl_append, e]
    have := hs ⟨0, 0⟩
    rw [ht] at this
    rw [hf]
    exact congrArg Prod.fst this

private theorem equations_of (hn : SameNumbers parse number) {s s' : TreeDB W} (hd : docOf parse s.root = some d)
    (h1 : ∀ a x, s.root.get a = some x → x.hasTag "Interaction" = true → OneEquation x) (hr : s.root.hasTag "Eq" = false)
    (hnd : NodupNames s.props) (ht : s.table = ⟨0, fun _ _ => {}⟩) (hc : CleanNames d s.props)
    (hi : s.init R T parse number d = (s', none)) :
    (∀ A B, s'.eqs A B = s'.eqs B A) ∧
    (∀ A B, ∀ w ∈ s'.eqs A B, FromDocument R T parse s.root d s.filter s'.props w) ∧
    ∀ w, FromDocument R T parse s.root d s.filter s'.props w →
      ∃ A B, A ≤ B ∧ B < s'.props.length ∧ w ∈ s'.eqs A B := by
  obtain ⟨D, cs, -, hsf, hin, hrun⟩ := history_of hn hd h1 hr hnd ht hi
  obtain ⟨-, -, hcomm, -⟩ := C79_every_state hsf hrun
  change ∀ A B, s'.eqs A B = s'.eqs B A at hcomm
  obtain ⟨-, -, -, -, -, htab⟩ := C115_table hn hd h1 hr hnd hc hi
  have htab := htab rfl
  have hside : s'.table.side = s'.props.length := by
    rcases history_inv (T := T) (auto := false) (D0 := D) hsf with ⟨-, hb⟩ | hinv
    · exact absurd trivial (hb _ hin)
    · rw [hrun] at hinv
      exact hinv.all.1
  have hnew : ∀ A B, (if B < s.table.side then (s.table.cell A B).rhs else []) = [] := by
    intro A B
    rw [ht, if_neg (Nat.not_lt_zero _)]
  have hle : ∀ A B, A ≤ B → ∀ w ∈ s'.eqs A B, FromDocument R T parse s.root d s.filter s'.props w := by
    intro A B hAB w hw
    by_cases hB : B < s'.props.length
    · have hA : A < s'.props.length := by omega
      obtain ⟨ks, es, t1, -, t3, t4⟩ := htab A B _ _ hAB (List.getElem?_eq_getElem hA) (List.getElem?_eq_getElem hB)
      unfold TreeDB.eqs at hw
      rw [t1] at hw
      simp only [hnew, List.nil_append] at hw
      obtain ⟨i, hil, rfl⟩ := List.getElem_of_mem hw
      obtain ⟨hlen, hall⟩ := List.forall₂_iff_get.1 t4
      obtain ⟨x, hx, hxl⟩ := hall i (by rw [hlen]; exact hil) hil
      exact ⟨_, List.getElem_mem hA, _, List.getElem_mem hB, _, x, (t3 _).1 (List.get_mem _ _), hx, hxl⟩
    · unfold TreeDB.eqs UTable.get? at hw
      rw [hside, if_neg (by omega)] at hw
      cases hw
  refine ⟨hcomm, fun A B w hw => ?_, ?_⟩
  · rcases le_total A B with hAB | hAB
    · exact hle A B hAB w hw
    · rw [hcomm] at hw
      exact hle B A hAB w hw
  · rintro w ⟨a, ha, b, hb, k, x, hk, hx, hw⟩
    obtain ⟨A, hA, rfl⟩ := List.getElem_of_mem ha
    obtain ⟨B, hB, rfl⟩ := List.getElem_of_mem hb
    have key : ∀ A B (hA : A < s'.props.length) (hB : B < s'.props.length), A ≤ B →
        s.filter.Keeps d (Wanted d s'.props s'.props[A].name s'.props[B].name) k → w ∈ s'.eqs A B := by
      intro A B hA hB hAB hk
      obtain ⟨ks, es, t1, -, t3, t4⟩ := htab A B _ _ hAB (List.getElem?_eq_getElem hA) (List.getElem?_eq_getElem hB)
      obtain ⟨i, hil, rfl⟩ := List.getElem_of_mem ((t3 k).2 hk)
      obtain ⟨hlen, hall⟩ := List.forall₂_iff_get.1 t4
      obtain ⟨y, hy, hyl⟩ := hall i hil (by rw [← hlen]; exact hil)
      obtain ⟨c, hc, hcx⟩ := hx
      obtain ⟨c', hc', hcy⟩ := hy
      simp only [List.get_eq_getElem] at hc' hyl
      rw [hc] at hc'
      cases hc'
      rw [hcx] at hcy
      cases hcy
      rw [hw] at hyl
      unfold TreeDB.eqs
      rw [t1]
      simp only [hnew, List.nil_append]
      rw [Except.ok.inj hyl]
      exact List.getElem_mem _
    rcases le_total A B with hAB | hAB
    · exact ⟨A, B, hAB, hB, key A B hA hB hAB hk⟩
    · rw [wanted_comm] at hk
      exact ⟨B, A, hAB, hA, key B A hB hA hAB hk⟩

/-- **C118**  A database made by `addModel` and `initBinaryInteractions` from a document is one of those of C79 to C81: it
is reached by a history in which species are added before the only initialisation. -/
theorem C118_history (hn : SameNumbers parse number) (hd : docOf parse root = some d)
    (h1 : ∀ a x, root.get a = some x → x.hasTag "Interaction" = true → OneEquation x) (hr : root.hasTag "Eq" = false)
    {s s' : TreeDB W} (h : TreeDB.addModel R parse strip m { root } = (s, none))
    (hi : s.init R T parse number d = (s', none)) :
    ∃ (D : SDoc) (cs : List Call), D.doc = d ∧ SpeciesFirst cs ∧ Call.init ∈ cs ∧
      runCalls T false cs (Session.new D) = ⟨D, s'.filter, ⟨0, 0⟩, s'.props, s'.table⟩ := by
  obtain ⟨g1, g2, g3, -⟩ := C116_model R h (by unfold NodupNames; simp)
  simp only at g2 g3
  subst g2
  exact history_of hn hd h1 hr g1 g3 hi

/-- **C118**  A database made from a document with one of its models has exactly the equations loaded from the elements that
are wanted for two of the species and kept by the filter described in the model. -/
theorem C118_equations (hn : SameNumbers parse number) (hd : docOf parse root = some d)
    (h1 : ∀ a x, root.get a = some x → x.hasTag "Interaction" = true → OneEquation x) (hr : root.hasTag "Eq" = false)
    (hcp : ∀ n, root.ListedIn strip m n → ':' ∉ n.toList)
    (hco : ∀ x ∈ d.nodes, ∀ t ∈ x.outs, ':' ∉ t.P.toList ∧ t.P ≠ "") {s s' : TreeDB W}
    (h : TreeDB.addModel R parse strip m { root } = (s, none)) (hi : s.init R T parse number d = (s', none)) :
    ∃ e f, root.FilterOf m e ∧ MeansEquationFilter parse e f ∧
      (∀ A B, s'.eqs A B = s'.eqs B A) ∧
      (∀ A B, ∀ w ∈ s'.eqs A B, FromDocument R T parse root d f s'.props w) ∧
      ∀ w, FromDocument R T parse root d f s'.props w → ∃ A B, A ≤ B ∧ B < s'.props.length ∧ w ∈ s'.eqs A B := by
  obtain ⟨g1, g2, g3, -, -, g5, e, ge, gf⟩ := C116_model R h (by unfold NodupNames; simp)
  simp only [List.not_mem_nil, false_or] at g5
  simp only at g2 g3
  subst g2
  exact ⟨e, s.filter, ge, gf, equations_of hn hd h1 hr g1 g3 ⟨fun p hp => hcp _ (g5 p hp).1, hco⟩ hi⟩

/-- **C118**  A new database to which species are added by name and nothing else is done has exactly the equations loaded
from the elements wanted for two of the species in which both sides have the same text. -/
theorem C118_default (hn : SameNumbers parse number) (hd : docOf parse root = some d)
    (h1 : ∀ a x, root.get a = some x → x.hasTag "Interaction" = true → OneEquation x) (hr : root.hasTag "Eq" = false)
    {ns : List String} (hcp : ∀ n ∈ ns, ':' ∉ n.toList)
    (hco : ∀ x ∈ d.nodes, ∀ t ∈ x.outs, ':' ∉ t.P.toList ∧ t.P ≠ "") {s s' : TreeDB W}
    (h : TreeDB.addNames R ns { root } = (s, none)) (hi : s.init R T parse number d = (s', none)) :
    (∀ n, n ∈ ns ↔ ∃ p ∈ s'.props, p.name = n) ∧ ∀ w, (∃ A B, w ∈ s'.eqs A B) ↔
      ∃ a ∈ s'.props, ∃ b ∈ s'.props, ∃ k x, Wanted d s'.props a.name b.name k ∧
        (∃ y, d.nodes[k]? = some y ∧ y.inText = y.outText) ∧ root.interaction k x ∧
        loadXml R T parse s'.props x = .ok w := by
  obtain ⟨g1, g2, g3, g4, g5, -, g6⟩ := C115_names R ns _ s h (by unfold NodupNames; simp)
  simp only [List.not_mem_nil, false_or] at g6
  simp only at g2 g3 g4
  subst g2
  obtain ⟨t1, -⟩ := C115_table hn hd h1 hr g1 ⟨fun p hp => hcp _ (g6 p hp).1, hco⟩ hi
  obtain ⟨-, e1, e2⟩ := equations_of hn hd h1 hr g1 g4 ⟨fun p hp => hcp _ (g6 p hp).1, hco⟩ hi
  have hk : ∀ w, FromDocument R T parse s.root d s.filter s'.props w ↔
      ∃ a ∈ s'.props, ∃ b ∈ s'.props, ∃ k x, Wanted d s'.props a.name b.name k ∧
        (∃ y, d.nodes[k]? = some y ∧ y.inText = y.outText) ∧ s.root.interaction k x ∧
        loadXml R T parse s'.props x = .ok w := by
    intro w
    unfold FromDocument
    rw [g3]
    simp only [Filter.Keeps, NodeHas, and_assoc]
  refine ⟨fun n => ⟨fun hl => ?_, ?_⟩, fun w => ⟨fun ⟨A, B, hw⟩ => (hk w).1 (e1 A B w hw), fun hw => ?_⟩⟩
  · obtain ⟨p, hp, hpn⟩ := g5 n hl
    exact ⟨p, t1.mem_iff.2 hp, hpn⟩
  · rintro ⟨p, hp, rfl⟩
    exact (g6 p (t1.mem_iff.1 hp)).1
  · obtain ⟨A, B, -, -, hw'⟩ := e2 w ((hk w).2 hw)
    exact ⟨A, B, hw'⟩

/-- **C118**  Runs of the collision driver on a database made from a document.  If every `Interaction` element that the model
keeps is elastic, nothing is lost: for every function of species, such as mass and charge, its sum over all particles, the
momentum and the kinetic energy are the same before and after.  With others, mass, charge and momentum still are if the
elements kept balance them. -/
theorem C118_runs (hn : SameNumbers parse number) (hd : docOf parse root = some d)
    (h1 : ∀ a x, root.get a = some x → x.hasTag "Interaction" = true → OneEquation x) (hr : root.hasTag "Eq" = false)
    (hcp : ∀ n, root.ListedIn strip m n → ':' ∉ n.toList)
    (hco : ∀ x ∈ d.nodes, ∀ t ∈ x.outs, ':' ∉ t.P.toList ∧ t.P ≠ "")
    (hm : ∀ a x p, root.get a = some x → x.hasTag "Particle" = true → R.Says x p → root.ListedIn strip m p.name →
      0 < p.mass) {s s' : TreeDB W}
    (h : TreeDB.addModel R parse strip m { root } = (s, none)) (hi : s.init R T parse number d = (s', none))
    {c : CellConst S W} (hin : c.inplace = true) (hv : c.rng.Valid) {fi fs : ℕ} {st0 st : DState (Part W) S ℝ}
    (hf : Fresh st0) (hwf : WFRanges s'.props.length st0.range)
    (hom : Homogeneous (wholeEnv T s'.props.length s'.eqs c) st0)
    (hrun : driver (wholeEnv T s'.props.length s'.eqs c) fi fs st0 = .ok st) (hev : TestsEvaluate s'.eqs st) :
    ∃ e f, root.FilterOf m e ∧ MeansEquationFilter parse e f ∧
      (∀ g : Props ℝ → ℝ,
        (∀ w, FromDocument R T parse root d f s'.props w → w.IsInelastic → SameSum s'.props g w.eq) →
        grandTotal s'.props.length (fun p => speciesVal s'.props g p.species.toNat) st =
          grandTotal s'.props.length (fun p => speciesVal s'.props g p.species.toNat) st0) ∧
      ((∀ w, FromDocument R T parse root d f s'.props w → w.IsInelastic →
          SameSum s'.props Props.mass w.eq ∧ OpsKeepVel T.oc w.eq) →
        grandTotal s'.props.length (momentumOf s'.props) st = grandTotal s'.props.length (momentumOf s'.props) st0) ∧
      ((∀ w, FromDocument R T parse root d f s'.props w → w.model = .elastic) →
        (∀ g : Props ℝ → ℝ, grandTotal s'.props.length (fun p => speciesVal s'.props g p.species.toNat) st =
          grandTotal s'.props.length (fun p => speciesVal s'.props g p.species.toNat) st0) ∧
        grandTotal s'.props.length (momentumOf s'.props) st = grandTotal s'.props.length (momentumOf s'.props) st0 ∧
        grandTotal s'.props.length (energyOf s'.props) st = grandTotal s'.props.length (energyOf s'.props) st0) := by
  obtain ⟨D, cs, -, hsf, -, hh⟩ := C118_history hn hd h1 hr h hi
  obtain ⟨e, f, he, hef, -, hfrom, -⟩ := C118_equations hn hd h1 hr hcp hco h hi
  obtain ⟨-, hlist, hpart, -⟩ := C116_database hn hd h1 hr hcp hco h hi
  have hpos : ∀ p ∈ s'.props, 0 < p.mass := by
    intro p hp
    obtain ⟨a, x, hx, ht, hs⟩ := hpart p hp
    exact hm a x p hx ht hs ((hlist _).2 ⟨p, hp, rfl⟩)
  obtain ⟨r1, r2, r3, -⟩ := C81_runs hsf hh hpos hin hv hf hwf hom hrun hev
  refine ⟨e, f, he, hef, fun g hg => r1 g fun A B w hw => hg w (hfrom A B w hw),
    fun hg => r2 fun A B w hw => hg w (hfrom A B w hw), fun hg => ?_⟩
  have hno : ∀ A B, ∀ w ∈ s'.eqs A B, ¬ w.IsInelastic := by
    rintro A B w hw ⟨q, hq⟩
    rw [hg w (hfrom A B w hw)] at hq
    cases hq
  exact ⟨fun g => r1 g fun A B w hw hi => absurd hi (hno A B w hw), r2 fun A B w hw hi => absurd hi (hno A B w hw),
    r3 fun A B w hw => hg w (hfrom A B w hw)⟩

end

/-! ### A run -/

namespace TreeRunsExample

open LoadXmlExample (mass db known nodup masses)
open TreeDBExample (scattering written desk parse reads number numbers)
open TreeModelExample (tree strip doc interactions made one)

/-- Every element that is kept, for whatever filter, is the elastic scattering of electrons by hydrogen; its cross section has
a value at every speed. -/
theorem all_elastic (T : Tools Unit) {f : Filter} {w : WEq Unit} (h : FromDocument desk T parse tree doc f db w) :
    w.model = .elastic ∧ ∀ g, 0 ≤ g → ∃ c, w.cs.sigma g = .ok c ∧ 0 ≤ c := by
  obtain ⟨-, -, -, -, k, x, -, ⟨c, hc, hx⟩, hw⟩ := h
  rw [interactions] at hc
  obtain rfl : c = [1, 0] := by simpa using List.mem_of_getElem? hc
  have : x = scattering := (Option.some.inj hx).symm
  obtain ⟨w', hw', ⟨p, q, hp, hq, -, -, -, -, -, hs, -⟩, hel⟩ := (C112_python_elastic desk T reads nodup masses known
    (List.Perm.swap ..) "a" "t" "n" none).1 3 273 1 (by simp [desk]) (by simp [desk]) (by simp [desk])
  simp only [Option.map_none] at hw'
  rw [written, ← this, hw] at hw'
  cases hw'
  refine ⟨hel, fun g hg => ⟨_, hs g hg, ?_⟩⟩
  have h1 := masses p hp
  have h2 := masses q hq
  have : 0 < Real.Gamma (5 / 2 - 1) := Real.Gamma_pos_of_pos (by norm_num)
  unfold birdVHS
  simp only [desk]
  positivity

noncomputable def cell : CellConst ℕ Unit := ⟨fun _ _ => 5, 1, 1, fun _ => 1, true, MainExample.rng⟩

/-- Two electrons and an atom. -/
def start : DState (Part Unit) ℕ ℝ where
  mem k := if k = 0 then ⟨0, ⟨5, 0, 0⟩, 0, ()⟩ else if k = 1 then ⟨0, ⟨0, 3, 0⟩, 0, ()⟩ else ⟨0, ⟨0, 0, 0⟩, 1, ()⟩
  range A := if A = 0 then (0, 2) else if A = 1 then (2, 3) else (3, 3)
  results := []
  erased := []
  log := []
  gen := 0

theorem ranges : WFRanges 2 start.range := by
  refine ⟨fun A hA => ?_, fun A hA B hB hne z => ?_⟩
  · obtain rfl | rfl : A = 0 ∨ A = 1 := by omega
    all_goals decide
  · obtain ⟨rfl, rfl⟩ | ⟨rfl, rfl⟩ : A = 0 ∧ B = 1 ∨ A = 1 ∧ B = 0 := by omega
    all_goals (simp only [start]; norm_num; try omega)

theorem homogeneous (T : Tools Unit) (eqs : ℕ → ℕ → List (WEq Unit)) {n : ℕ} (hn : n = 2) :
    Homogeneous (wholeEnv T n eqs cell) start := by
  intro C hC z h1 h2
  change C < n at hC
  rw [hn] at hC
  show Int.toNat (start.mem z).species = C
  obtain rfl | rfl : C = 0 ∨ C = 1 := by omega
  · change z < 2 at h2
    obtain rfl | rfl : z = 0 ∨ z = 1 := by omega
    all_goals rfl
  · change 2 ≤ z at h1
    change z < 3 at h2
    obtain rfl : z = 2 := by omega
    rfl

/-- The masses in the document are positive. -/
theorem heavy (a : List ℕ) (x : Xml) (p : Props ℝ) (hx : tree.get a = some x) (ht : x.hasTag "Particle" = true)
    (hs : desk.Says x p) (_ : tree.ListedIn strip "gas" p.name) : 0 < p.mass := by
  have ha := mem_everywhere.2 ⟨x, hx, ht⟩
  rw [show tree.everywhere "Particle" = [[0, 0], [0, 1]] by decide +kernel] at ha
  simp only [List.mem_cons, List.not_mem_nil, or_false] at ha
  rcases ha with rfl | rfl <;> obtain rfl := Option.some.inj hx <;>
    simp [Reader.Says, Xml.attr, Xml.named, Xml.hasTag, Xml.str, Xml.strs, desk, SIDim.mass, SIDim.charge] at hs <;>
    norm_num [← hs.2.1]

/-- The hypotheses of `C118_runs` are met: the database is made, a run returns, and momentum and energy are what they were. -/
example (T : Tools Unit) : ∃ (s s' : TreeDB Unit) (fi fs : ℕ) (st : DState (Part Unit) ℕ ℝ), s'.props = db ∧
    TreeDB.addModel desk parse strip "gas" { root := tree } = (s, none) ∧ s.init desk T parse number doc = (s', none) ∧
    driver (wholeEnv T s'.props.length s'.eqs cell) fi fs start = .ok st ∧ TestsEvaluate s'.eqs st ∧
    grandTotal 2 (momentumOf db) st = grandTotal 2 (momentumOf db) start ∧
    grandTotal 2 (energyOf db) st = grandTotal 2 (energyOf db) start := by
  obtain ⟨s, s', hdb, hadd, hinit, hdoc, hr, hcp, hco⟩ := made T
  obtain ⟨e, f, -, -, -, hfrom, -⟩ := C118_equations numbers hdoc one hr hcp hco hadd hinit
  have hlen : s'.props.length = 2 := by rw [hdb]; rfl
  have hom := homogeneous T s'.eqs hlen
  have hwf : WFRanges s'.props.length start.range := by rw [hlen]; exact ranges
  obtain ⟨fi, fs, st, hrun⟩ := C38_driver_finishes (wholeEnv T s'.props.length s'.eqs cell) MainExample.rng_valid MainExample.rng_fair start hwf
    (by
      intro A B hAB hB _
      change B < s'.props.length at hB
      rw [hlen] at hB
      obtain ⟨rfl, rfl⟩ | ⟨rfl, rfl⟩ | ⟨rfl, rfl⟩ : A = 0 ∧ B = 0 ∨ A = 0 ∧ B = 1 ∨ A = 1 ∧ B = 1 := by omega
      all_goals decide)
  have hev : TestsEvaluate s'.eqs st := by
    intro ev _ w hw
    have := hfrom _ _ w hw
    rw [hdb] at this
    exact (all_elastic T this).2 _ (Vec.abs_nonneg _)
  obtain ⟨e, f', -, -, -, -, hall⟩ := C118_runs numbers hdoc one hr hcp hco heavy hadd hinit (c := cell) rfl MainExample.rng_valid ⟨rfl, rfl⟩ hwf hom hrun hev
  obtain ⟨-, h2, h3⟩ := hall fun w hw => by rw [hdb] at hw; exact (all_elastic T hw).1
  rw [hdb] at h2 h3
  exact ⟨s, s', fi, fs, st, hdb, hadd, hinit, hrun, hev, h2, h3⟩

/-- The hypotheses of `C118_default` are met, and the one equation is found. -/
example (T : Tools Unit) : ∃ (s s' : TreeDB Unit) (w : WEq Unit),
    TreeDB.addNames desk ["H", "e"] { root := TreeDBExample.tree } = (s, none) ∧
    s.init desk T parse number TreeDBExample.doc = (s', none) ∧ w ∈ s'.eqs 0 1 ∧
    ∃ a ∈ s'.props, ∃ b ∈ s'.props, ∃ k x, Wanted TreeDBExample.doc s'.props a.name b.name k ∧
      (∃ y, TreeDBExample.doc.nodes[k]? = some y ∧ y.inText = y.outText) ∧ TreeDBExample.tree.interaction k x ∧
      loadXml desk T parse s'.props x = .ok w := by
  obtain ⟨s', w, hi, -, ht, -⟩ := TreeDBExample.made T
  have hw : w ∈ s'.eqs 0 1 := by
    unfold TreeDB.eqs
    rw [ht]
    exact List.mem_singleton_self _
  rw [TreeDBExample.added] at hi
  exact ⟨_, s', w, TreeDBExample.added, hi, hw, ((C118_default numbers TreeDBExample.doc_eq TreeDBExample.one
    (by decide +kernel) (ns := ["H", "e"]) (by decide +kernel) (by decide +kernel) TreeDBExample.added hi).2 w).1 ⟨0, 1, hw⟩⟩

end TreeRunsExample

end Chimp
