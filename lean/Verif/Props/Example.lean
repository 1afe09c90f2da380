import Verif.Model.Example
import Verif.Props.SessionCalls
import Verif.Props.SimTest
import Verif.Props.DriverCount

/-!
# C85: the example program

`main` of the example prepares a cell that meets what the theorems on the driver ask for; they are joined here to say
what the program does for every document and every sequence of random numbers.
-/

namespace Chimp

variable {P S W : Type}

/-! ## Specification -/

/-- `xylose::distribution::Inverter` by contract: numbers drawn are in the interval given to the constructor.  For a
species that is from 0 to 0.9999999 times the number of species, for a coordinate from -1 to 1, and for the velocity
four standard deviations `√(kT/m)` to both sides. -/
structure Draws.InRange (d : Draws S) (props : Registry ℝ) (kT : ℝ) : Prop where
  species : ∀ s, 0 ≤ (d.species s).1 ∧ (d.species s).1 ≤ 0.9999999 * props.length
  position : ∀ s, |(d.position s).1| ≤ 1
  velocity : ∀ (C : ℕ) p, props[C]? = some p → ∀ s, |(d.velocity C s).1| ≤ 4 * Real.sqrt (kT / p.mass)

/-- `xylose::nsort::NSort` by contract: it sorts by a key below `n`. -/
def NSorts (key : P → ℕ) (n : ℕ) (nsort : List P → List P) : Prop :=
  ∀ l, (∀ p ∈ l, key p < n) → (nsort l).Perm l ∧ (nsort l).Pairwise fun p q => key p ≤ key q

/-! ## Particles -/

theorem castInt_lt {x : ℝ} {n : ℕ} (hn : 0 < n) (h0 : 0 ≤ x) (h1 : x ≤ 0.9999999 * n) :
    0 ≤ castInt x ∧ castInt x < n := by
  unfold castInt
  rw [if_pos h0]
  have : (0 : ℝ) < n := by exact_mod_cast hn
  refine ⟨Int.floor_nonneg.2 h0, Int.floor_lt.2 ?_⟩
  push_cast
  nlinarith

/-- **C85**  The particles created: as many as asked for, each of a species of the database, in the cube of side two
around the origin, and each component of the velocity within four standard deviations of its species. -/
theorem C85_particles {d : Draws S} {props : Registry ℝ} {kT : ℝ} (hd : d.InRange props kT) (hn : props ≠ []) (w : W) :
    ∀ (N : ℕ) (s : S), ∃ l, createRandomParticles d props.length w N s = some l ∧ l.length = N ∧
      ∀ p ∈ l, ∃ C : ℕ, p.species = C ∧ ∃ q, props[C]? = some q ∧
        (|p.pos.x| ≤ 1 ∧ |p.pos.y| ≤ 1 ∧ |p.pos.z| ≤ 1) ∧
        (|p.vel.x| ≤ 4 * Real.sqrt (kT / q.mass) ∧ |p.vel.y| ≤ 4 * Real.sqrt (kT / q.mass) ∧
          |p.vel.z| ≤ 4 * Real.sqrt (kT / q.mass))
  | 0, _ => ⟨[], rfl, rfl, by simp⟩
  | N + 1, s => by
    have hc := castInt_lt (List.length_pos_iff.2 hn) (hd.species s).1 (hd.species s).2
    obtain ⟨C, hC⟩ := Int.eq_ofNat_of_zero_le hc.1
    have hlt : C < props.length := by rw [hC] at hc; exact_mod_cast hc.2
    have hp : props[C]? = some props[C] := List.getElem?_eq_getElem hlt
    obtain ⟨l, h1, h2, h3⟩ := C85_particles hd hn w N
      (drawVec (d.velocity C) (drawVec d.position (d.species s).2).2).2
    refine ⟨⟨(drawVec d.position (d.species s).2).1,
      (drawVec (d.velocity C) (drawVec d.position (d.species s).2).2).1, C, w⟩ :: l, ?_, by simp [h2], ?_⟩
    · simp only [createRandomParticles, drawParticle]
      rw [if_pos hc]
      simp only [hC, Int.toNat_natCast, h1, Option.map_some]
    · intro p hpm
      rcases List.mem_cons.1 hpm with rfl | hpm
      · exact ⟨C, rfl, _, hp, ⟨hd.position _, hd.position _, hd.position _⟩,
          hd.velocity C _ hp _, hd.velocity C _ hp _, hd.velocity C _ hp _⟩
      · exact h3 p hpm

/-- **C85**, a finding: without species the program reads outside a vector. -/
theorem C85_no_species {d : Draws S} (h : ∀ s, (d.species s).1 = 0) (w : W) (N : ℕ) (s : S) :
    createRandomParticles d 0 w (N + 1) s = none := by
  simp [createRandomParticles, drawParticle, h, castInt]

/-! ## Sorting -/

theorem sorted_split {key : P → ℕ} (i : ℕ) : ∀ {l : List P}, l.Pairwise (fun p q => key p ≤ key q) →
    l = l.filter (fun p => key p < i) ++ l.filter (fun p => ¬ key p < i)
  | [], _ => rfl
  | a :: l, h => by
    obtain ⟨h1, h2⟩ := List.pairwise_cons.1 h
    by_cases ha : key a < i
    · simp only [List.filter_cons, ha, decide_true, if_true, not_true_eq_false, decide_false, Bool.false_eq_true,
        if_false, List.cons_append]
      exact congrArg (a :: ·) (sorted_split i h2)
    · have e1 : (a :: l).filter (fun p => key p < i) = [] := by
        rw [List.filter_eq_nil_iff]
        intro x hx
        rcases List.mem_cons.1 hx with rfl | hx
        · simpa using ha
        · have := h1 x hx
          simp; omega
      have e2 : (a :: l).filter (fun p => ¬ key p < i) = a :: l := by
        rw [List.filter_eq_self]
        intro x hx
        rcases List.mem_cons.1 hx with rfl | hx
        · simpa using ha
        · have := h1 x hx
          simp; omega
      rw [e1, e2]; rfl

theorem sorted_slice {key : P → ℕ} (i : ℕ) {l : List P} (h : l.Pairwise fun p q => key p ≤ key q) :
    (l.drop (l.countP fun p => key p < i)).take ((l.countP fun p => key p ≤ i) - l.countP fun p => key p < i) =
      l.filter fun p => key p = i := by
  have e1 : l.drop (l.countP fun p => key p < i) = l.filter fun p => ¬ key p < i := by
    conv_lhs => rw [sorted_split i h]
    rw [List.countP_append, List.countP_eq_length_filter, List.countP_eq_length_filter, List.filter_filter,
      List.filter_filter]
    have z : (l.filter fun a => decide (key a < i) && decide ¬ key a < i) = [] := by
      rw [List.filter_eq_nil_iff]; intro a _; simp
    have z' : (l.filter fun a => decide (key a < i) && decide (key a < i)) = l.filter fun a => key a < i := by
      simp
    rw [z, z', List.length_nil, add_zero, List.drop_left]
  have hs : (l.filter fun p => ¬ key p < i).Pairwise fun p q => key p ≤ key q := h.filter _
  have e2 := sorted_split (i + 1) hs
  have f1 : (l.filter fun p => ¬ key p < i).filter (fun p => key p < i + 1) = l.filter fun p => key p = i := by
    rw [List.filter_filter]
    refine List.filter_congr fun a _ => ?_
    rw [← Bool.decide_and]
    exact decide_eq_decide.2 ⟨fun h => by omega, fun h => by omega⟩
  rw [f1] at e2
  rw [e1, e2]
  have hc : (l.countP fun p => key p ≤ i) - (l.countP fun p => key p < i) = (l.filter fun p => key p = i).length := by
    rw [← List.countP_eq_length_filter]
    have : (l.countP fun p => key p ≤ i) = (l.countP fun p => key p < i) + l.countP fun p => key p = i := by
      clear e1 hs e2 f1 h
      induction l with
      | nil => rfl
      | cons a l ih =>
        simp only [List.countP_cons, ih]
        rcases lt_trichotomy (key a) i with h | h | h
        · simp [h, h.le, h.ne]; omega
        · simp [h]; omega
        · simp [h.not_gt, h.not_ge, h.ne']
    omega
  rw [hc, List.take_left]

theorem countP_mono {key : P → ℕ} {i j : ℕ} (h : i < j) (l : List P) :
    (l.countP fun p => key p ≤ i) ≤ l.countP fun p => key p < j :=
  List.countP_mono_left fun a _ ha => by simp at ha ⊢; omega

theorem liveM_slice (l : List P) (x : P) {a b : ℕ} (hb : b ≤ l.length) :
    liveM (fun z => (l[z]?).getD x) (a, b) = (((l.drop a).take (b - a) : List P) : Multiset P) := by
  unfold liveM
  rw [show (Finset.Ico (a, b).1 (a, b).2).val = ((List.range' a (b - a) : List ℕ) : Multiset ℕ) from rfl,
    Multiset.map_coe]
  congr 1
  apply List.ext_getElem?
  intro z
  rw [List.getElem?_map, List.getElem?_take, List.getElem?_drop]
  by_cases hz : z < b - a
  · rw [if_pos hz, List.getElem?_range' hz]
    have : a + z < l.length := by omega
    simp [List.getElem?_eq_getElem this]
  · rw [if_neg hz, List.getElem?_eq_none (by simp; omega)]
    rfl

/-- **C85**  After sorting, the range of each species holds exactly the particles created of this species; the ranges
are disjoint and every particle is in one of them. -/
theorem C85_sorted {key : P → ℕ} {n : ℕ} {nsort : List P → List P} (hs : NSorts key n nsort) {l : List P}
    (hl : ∀ p ∈ l, key p < n) (x : P) :
    let r := sortBySpecies nsort key n l
    r.1.Perm l ∧ WFRanges n r.2 ∧
    (∀ i < n, liveM (fun z => (r.1[z]?).getD x) (r.2 i) = ((l.filter fun p => key p = i : List P) : Multiset P)) ∧
    (∀ i < n, ∀ z, (r.2 i).1 ≤ z → z < (r.2 i).2 → ∃ p ∈ l, r.1[z]? = some p ∧ key p = i) ∧
    ∀ z, z < l.length ↔ ∃ i < n, (r.2 i).1 ≤ z ∧ z < (r.2 i).2 := by
  intro r
  obtain ⟨hp, hsort⟩ := hs l hl
  have hr : ∀ i < n, r.2 i = ((nsort l).countP fun p => key p < i, (nsort l).countP fun p => key p ≤ i) := by
    intro i hi
    show (if i < n then _ else _) = _
    rw [if_pos hi, hp.countP_eq, hp.countP_eq]
  have hslice : ∀ i < n, ((r.1.drop (r.2 i).1).take ((r.2 i).2 - (r.2 i).1)) = r.1.filter fun p => key p = i := by
    intro i hi
    rw [hr i hi]
    exact sorted_slice i hsort
  have hlen : ∀ i < n, (r.2 i).2 ≤ r.1.length := by
    intro i hi
    rw [hr i hi]
    exact List.countP_le_length
  have hget : ∀ i < n, ∀ z, (r.2 i).1 ≤ z → z < (r.2 i).2 → ∃ p ∈ l, r.1[z]? = some p ∧ key p = i := by
    intro i hi z h1 h2
    have hz : z < r.1.length := lt_of_lt_of_le h2 (hlen i hi)
    refine ⟨r.1[z], hp.mem_iff.1 (List.getElem_mem hz), List.getElem?_eq_getElem hz, ?_⟩
    have : r.1[z] ∈ (r.1.drop (r.2 i).1).take ((r.2 i).2 - (r.2 i).1) := by
      refine List.mem_of_getElem? (i := z - (r.2 i).1) ?_
      rw [List.getElem?_take, if_pos (by omega), List.getElem?_drop, show (r.2 i).1 + (z - (r.2 i).1) = z by omega]
      exact List.getElem?_eq_getElem hz
    rw [hslice i hi] at this
    simpa using (List.mem_filter.1 this).2
  refine ⟨hp, ⟨?_, ?_⟩, ?_, hget, ?_⟩
  · intro i hi
    rw [hr i hi]
    exact List.countP_mono_left fun a _ ha => by simp at ha ⊢; omega
  · intro i hi j hj hne z ⟨⟨h1, h2⟩, h3, h4⟩
    obtain ⟨p, -, e1, k1⟩ := hget i hi z h1 h2
    obtain ⟨q, -, e2, k2⟩ := hget j hj z h3 h4
    rw [e1] at e2
    cases e2
    exact hne (k1.symm.trans k2)
  · intro i hi
    rw [show r.2 i = ((r.2 i).1, (r.2 i).2) from rfl, liveM_slice _ _ (hlen i hi), hslice i hi]
    exact Multiset.coe_eq_coe.2 (hp.filter _)
  · intro z
    constructor
    · intro hz
      have hz' : z < r.1.length := by
        show z < (nsort l).length
        rw [hp.length_eq]; exact hz
      have hk : key r.1[z] < n := hl _ (hp.mem_iff.1 (List.getElem_mem hz'))
      refine ⟨key r.1[z], hk, ?_, ?_⟩
      · rw [hr _ hk]
        by_contra hlt
        push Not at hlt
        -- a position before the count holds a smaller key
        have : r.1[z] ∈ (nsort l).filter fun p => key p < key r.1[z] := by
          have e := sorted_split (key r.1[z]) hsort
          have h2 : (nsort l)[z]? = some r.1[z] := List.getElem?_eq_getElem hz'
          rw [e, List.getElem?_append_left (by rw [← List.countP_eq_length_filter]; exact hlt)] at h2
          exact List.mem_of_getElem? h2
        simpa using (List.mem_filter.1 this).2
      · rw [hr _ hk]
        by_contra hge
        push Not at hge
        have : r.1[z] ∈ (nsort l).filter fun p => ¬ key p < key r.1[z] + 1 := by
          have e := sorted_split (key r.1[z] + 1) hsort
          have h2 : (nsort l)[z]? = some r.1[z] := List.getElem?_eq_getElem hz'
          have hle : ((nsort l).filter fun p => key p < key r.1[z] + 1).length ≤ z := by
            rw [← List.countP_eq_length_filter]
            refine le_trans (List.countP_mono_left fun a _ ha => ?_) hge
            simp at ha ⊢; omega
          rw [e, List.getElem?_append_right hle] at h2
          exact List.mem_of_getElem? h2
        have := (List.mem_filter.1 this).2
        simp at this
    · rintro ⟨i, hi, -, h2⟩
      have := lt_of_lt_of_le h2 (hlen i hi)
      rw [← hp.length_eq]; exact this

/-! ## The database -/

theorem uncaught_names (T : Tools W) (auto : Bool) (cs : List Call) : ∀ (ns : List String) (s : Session W),
    callsUncaught T auto (ns.map (fun n => .addNames [n]) ++ cs) s =
      match (addNamesLoop s.doc.particles ns s.props).2 with
      | some e => .error e
      | none => callsUncaught T auto cs { s with props := (addNamesLoop s.doc.particles ns s.props).1 }
  | [], s => rfl
  | n :: ns, s => by
    rw [List.map_cons, List.cons_append]
    simp only [callsUncaught, Call.run, addNamesLoop]
    cases h : addParticleByName s.doc.particles s.props n with
    | error e => rfl
    | ok r =>
      dsimp only
      rw [uncaught_names T auto cs ns]

theorem uncaught_ok {T : Tools W} {auto : Bool} : ∀ {cs : List Call} {s s' : Session W},
    callsUncaught T auto cs s = .ok s' → runCalls T auto cs s = s'
  | [], s, s', h => by cases h; rfl
  | c :: cs, s, s', h => by
    rw [callsUncaught] at h
    cases hc : (c.run T auto s).2 with
    | error e => rw [hc] at h; cases h
    | ok n =>
      rw [hc] at h
      have h' : callsUncaught T auto cs (c.run T auto s).1 = .ok s' := h
      have := uncaught_ok h'
      exact this

theorem uncaught_init {T : Tools W} {auto : Bool} {s0 : Session W} {f : Filter} {s : Session W} :
    (∀ n, Call.init.run T auto { s0 with filter := f } = (s, .ok n) →
      callsUncaught T auto [.filter f, .init] s0 = .ok s) ∧
    ∀ e, Call.init.run T auto { s0 with filter := f } = (s, .error e) →
      callsUncaught T auto [.filter f, .init] s0 = .error e := by
  have hf : (Call.filter f).run T auto s0 = ({ s0 with filter := f }, .ok 0) := rfl
  constructor <;>
  · intro n h
    simp only [callsUncaught, hf, h]

theorem run_doc {T : Tools W} {auto : Bool} {c : Call} {s : Session W} (hc : ∀ x, c ≠ .document x) :
    (c.run T auto s).1.doc = s.doc := by
  cases c with
  | document d => exact absurd rfl (hc d)
  | filter f => rfl
  | defaults d => rfl
  | add p => rfl
  | addNames ns => rfl
  | addModel m =>
    obtain ⟨-, -, -, -, h, -⟩ := C82_add_model T auto s _ m rfl
    exact h
  | init =>
    simp only [Call.run, Session.init]
    split
    · rfl
    · cases auto <;> rfl
  | create i j vmax dv => rfl
  | createNames i j vmax dv => rfl

theorem exampleCalls_speciesFirst : SpeciesFirst exampleCalls := by
  refine ⟨exampleNames.map (fun n => .addNames [n]) ++ [.filter (.or .elastic (.label "inelastic"))], [.init], by
    simp [exampleCalls], ?_, ?_⟩
  · intro c hc
    rcases List.mem_append.1 hc with hc | hc
    · obtain ⟨n, -, rfl⟩ := List.mem_map.1 hc
      simp [Call.IsInit]
    · rw [List.mem_singleton.1 hc]; simp [Call.IsInit]
  · intro c hc
    rw [List.mem_singleton.1 hc]; simp [Call.AddsSpecies]

theorem names_perm {l : List (Props ℝ)} {ns : List String} {r : Registry ℝ} (hr : NodupNames r) (hn : ns.Nodup)
    (hmem : ∀ q, q ∈ r ↔ q.name ∈ ns ∧ q ∈ l) (hu : ∀ n ∈ ns, l.countP (fun p => p.name = n) = 1) :
    (r.map Props.name).Perm ns := by
  refine (List.perm_ext_iff_of_nodup hr hn).2 fun n => ?_
  constructor
  · intro h
    obtain ⟨q, hq, rfl⟩ := List.mem_map.1 h
    exact ((hmem q).1 hq).1
  · intro h
    have hpos : 0 < l.countP fun p => p.name = n := by rw [hu n h]; exact one_pos
    obtain ⟨p, hp, hpn⟩ := List.countP_pos_iff.1 hpos
    have hpn' : p.name = n := by simpa using hpn
    exact List.mem_map.2 ⟨p, (hmem p).2 ⟨by rw [hpn']; exact h, hp⟩, hpn'⟩

/-- **C85**  Setting up the database: it throws at a name of the five that has no `Particle` or several.  Otherwise the
species are those of the five names, read from the document, and the initialisation decides. -/
theorem C85_setup (T : Tools W) (auto : Bool) (doc : SDoc) :
    ((∃ n ∈ exampleNames, doc.particles.countP (fun p => p.name = n) ≠ 1) →
      ∃ t, callsUncaught T auto exampleCalls (Session.new doc) = .error (.xml t)) ∧
    ((∀ n ∈ exampleNames, doc.particles.countP (fun p => p.name = n) = 1) →
      ∃ s0 : Session W, s0.doc = doc ∧ s0.filter = .or .elastic (.label "inelastic") ∧
        (s0.props.map Props.name).Perm exampleNames ∧ (∀ p ∈ s0.props, p ∈ doc.particles) ∧
        (∀ s n, Call.init.run T auto s0 = (s, .ok n) →
          callsUncaught T auto exampleCalls (Session.new doc) = .ok s) ∧
        ∀ s e, Call.init.run T auto s0 = (s, .error e) →
          callsUncaught T auto exampleCalls (Session.new doc) = .error e) ∧
    ∀ s, callsUncaught T auto exampleCalls (Session.new doc) = .ok s →
      runCalls T auto exampleCalls (Session.new doc) = s ∧ (s.props.map Props.name).Perm exampleNames ∧
      ∀ p ∈ s.props, p ∈ doc.particles := by
  obtain ⟨done, rest, hsplit, hread, hnone, herr⟩ := addNamesLoop_spec doc.particles exampleNames []
  have hdef : callsUncaught T auto exampleCalls (Session.new doc) =
      match (addNamesLoop doc.particles exampleNames []).2 with
      | some e => .error e
      | none => callsUncaught T auto [.filter (.or .elastic (.label "inelastic")), .init]
          { Session.new (W := W) doc with props := (addNamesLoop doc.particles exampleNames []).1 } :=
    uncaught_names T auto _ exampleNames (Session.new doc)
  have hnd : exampleNames.Nodup := by decide
  -- when all names are read
  have hall : rest = [] → (∀ n ∈ exampleNames, doc.particles.countP (fun p => p.name = n) = 1) ∧
      ((addNamesLoop doc.particles exampleNames []).1.map Props.name).Perm exampleNames ∧
      ∀ p ∈ (addNamesLoop doc.particles exampleNames []).1, p ∈ doc.particles := by
    intro hr
    rw [hr, List.append_nil] at hsplit
    rw [← hsplit] at hread
    have hmem : ∀ q, q ∈ (addNamesLoop doc.particles exampleNames []).1 ↔
        q.name ∈ exampleNames ∧ q ∈ doc.particles := by
      intro q
      rw [hread.mem q]
      simp
    have hnn : NodupNames (addNamesLoop doc.particles exampleNames []).1 :=
      (C79_every_state (T := T) (auto := auto) (D0 := doc) (cs := [.addNames exampleNames])
        ⟨[.addNames exampleNames], [], rfl, by simp [Call.IsInit], by simp⟩ rfl).1
    exact ⟨hread.unique, names_perm hnn hnd hmem hread.unique, fun p hp => ((hmem p).1 hp).2⟩
  refine ⟨?_, ?_, ?_⟩
  · rintro ⟨n, hn, hc⟩
    cases h2 : (addNamesLoop doc.particles exampleNames []).2 with
    | none => exact absurd ((hall (hnone.1 h2)).1 n hn) hc
    | some e =>
      obtain ⟨t, rfl⟩ := herr e h2
      exact ⟨t, by rw [hdef, h2]⟩
  · intro hu
    have hr : rest = [] := by
      cases hrest : rest with
      | nil => rfl
      | cons n l =>
        refine absurd (hu n ?_) (hread.stops n (by rw [hrest]; rfl))
        rw [hsplit, hrest]
        simp
    obtain ⟨-, hperm, hsub⟩ := hall hr
    rw [hnone.2 hr] at hdef
    dsimp only at hdef
    refine ⟨{ Session.new (W := W) doc with
      props := (addNamesLoop doc.particles exampleNames []).1, filter := .or .elastic (.label "inelastic") },
      rfl, rfl, hperm, hsub, ?_, ?_⟩
    · intro s n hs
      rw [hdef]
      exact uncaught_init.1 n hs
    · intro s e hs
      rw [hdef]
      exact uncaught_init.2 e hs
  · intro s hs
    refine ⟨uncaught_ok hs, ?_⟩
    have hr : rest = [] := by
      refine hnone.1 ?_
      cases h2 : (addNamesLoop doc.particles exampleNames []).2 with
      | none => rfl
      | some e => rw [hdef, h2] at hs; cases hs
    obtain ⟨-, hperm, hsub⟩ := hall hr
    rw [hnone.2 hr] at hdef
    rw [hdef] at hs
    have hs' := uncaught_ok hs
    have hprops : s.props = sortProps (addNamesLoop doc.particles exampleNames []).1 := by
      rw [← hs']
      show ((Call.init.run T auto _).1).props = _
      simp only [Call.run, Session.init]
      split
      · rfl
      · cases auto <;> rfl
    rw [hprops]
    have hp := sortProps_perm (addNamesLoop doc.particles exampleNames []).1
    exact ⟨(hp.map _).trans hperm, fun p h => hsub p (hp.mem_iff.1 h)⟩

/-! ## The program -/

section main
variable {T : Tools W} {auto : Bool} {doc : SDoc} {d : Draws S} {nsort : List (Part W) → List (Part W)} {rng : RNG S ℝ}
  {N : ℕ} {w : W} {sd g : S} {kT : ℝ}

/-- The cell of the program for the particles `l`. -/
theorem cell_spec {n : ℕ} (hs : NSorts (fun p : Part W => p.species.toNat) n nsort) {l : List (Part W)}
    (hl : ∀ p ∈ l, ∃ C : ℕ, p.species = C ∧ C < n) (eqs : ℕ → ℕ → List (WEq W)) (c : CellConst S W) :
    let st0 : DState (Part W) S ℝ := exampleCell (sortBySpecies nsort (fun p => p.species.toNat) n l) w g
    WFRanges n st0.range ∧ Homogeneous (wholeEnv T n eqs c) st0 ∧
    (∀ i < n, liveM st0.mem (st0.range i) = ((l.filter fun p => p.species = i : List (Part W)) : Multiset (Part W))) ∧
    (∀ i < n, rsize (st0.range i) = 0 ↔ ∀ p ∈ l, p.species ≠ i) ∧
    ∀ i < n, ∀ z, (st0.range i).1 ≤ z → z < (st0.range i).2 → st0.mem z ∈ l ∧ (st0.mem z).species = i ∧
      (st0.mem z).vel ∈ rangeVels (sortBySpecies nsort (fun p : Part W => p.species.toNat) n l).1 (st0.range i) := by
  intro st0
  have hk : ∀ p ∈ l, p.species.toNat < n := by
    intro p hp
    obtain ⟨C, h1, h2⟩ := hl p hp
    rw [h1]; simpa using h2
  obtain ⟨h1, h2, h3, h4, h5⟩ := C85_sorted hs hk ⟨0, 0, 0, w⟩
  have hget : ∀ i < n, ∀ z, (st0.range i).1 ≤ z → z < (st0.range i).2 → st0.mem z ∈ l ∧ (st0.mem z).species = i := by
    intro i hi z ha hb
    obtain ⟨p, hp, he, hz⟩ := h4 i hi z ha hb
    have hm : st0.mem z = p := by
      show Option.getD _ _ = p
      rw [he]; rfl
    rw [hm]
    obtain ⟨C, e, -⟩ := hl p hp
    refine ⟨hp, ?_⟩
    rw [e] at hz ⊢
    simpa using hz
  have hlive : ∀ i < n, liveM st0.mem (st0.range i) =
      ((l.filter fun p => p.species = i : List (Part W)) : Multiset (Part W)) := by
    intro i hi
    refine (h3 i hi).trans (congrArg _ (List.filter_congr fun p hp => ?_))
    obtain ⟨C, e, -⟩ := hl p hp
    rw [e]
    simp
  refine ⟨h2, ?_, hlive, ?_, ?_⟩
  · intro C hC z ha hb
    show (st0.mem z).species.toNat = C
    rw [(hget C hC z ha hb).2]
    simp
  · intro i hi
    have hc : rsize (st0.range i) = (liveM st0.mem (st0.range i)).card := by
      unfold liveM
      rw [Multiset.card_map]
      exact (Nat.card_Ico _ _).symm
    rw [hc, hlive i hi, Multiset.coe_card, List.length_eq_zero_iff, List.filter_eq_nil_iff]
    simp
  · intro i hi z ha hb
    refine ⟨(hget i hi z ha hb).1, (hget i hi z ha hb).2, ?_⟩
    obtain ⟨p, hp, he, -⟩ := h4 i hi z ha hb
    have hm : st0.mem z = p := by
      show Option.getD _ _ = p
      rw [he]; rfl
    rw [hm]
    refine List.mem_map.2 ⟨p, List.mem_of_getElem? (i := z - (st0.range i).1) ?_, rfl⟩
    have hlo : (st0.range i).1 + (z - (st0.range i).1) = z := by omega
    rw [List.getElem?_take, if_pos (by omega), List.getElem?_drop, hlo]
    exact he

/-- What the contracts ask of the libraries used, for the databases the program can set up. -/
structure ExampleLibs (T : Tools W) (auto : Bool) (doc : SDoc) (d : Draws S) (nsort : List (Part W) → List (Part W))
    (kT : ℝ) : Prop where
  draws : ∀ s, callsUncaught T auto exampleCalls (Session.new doc) = .ok s → d.InRange s.props kT
  sorts : NSorts (fun p : Part W => p.species.toNat) 5 nsort

theorem main_cases (hlib : ExampleLibs T auto doc d nsort kT) {s : Session W}
    (hs : callsUncaught T auto exampleCalls (Session.new doc) = .ok s) :
    s.props.length = 5 ∧ ∃ l, createRandomParticles d s.props.length w N sd = some l ∧ l.length = N ∧
      (∀ p ∈ l, ∃ C : ℕ, p.species = C ∧ C < s.props.length) := by
  have hlen : s.props.length = 5 := by
    have := ((C85_setup T auto doc).2.2 s hs).2.1.length_eq
    simpa [exampleNames] using this
  refine ⟨hlen, ?_⟩
  obtain ⟨l, h1, h2, h3⟩ := C85_particles (hlib.draws s hs) (by rw [← List.length_pos_iff]; omega) w N sd
  refine ⟨l, h1, h2, fun p hp => ?_⟩
  obtain ⟨C, hC, q, hq, -⟩ := h3 p hp
  exact ⟨C, hC, (List.getElem?_eq_some_iff.1 hq).1⟩

/-- **C85**  How the program ends: with an exception exactly if setting up the database throws it; it never draws a
species that is not there; its driver run has undefined behaviour exactly if two species have equations and one of them
got no particle; and otherwise, with a fair random stream, it returns. -/
theorem C85_outcomes (hlib : ExampleLibs T auto doc d nsort kT) (hrv : rng.Valid) :
    (∀ fi fs e, exampleMain T auto doc d nsort rng N w sd g fi fs = .error (.exception e) ↔
      callsUncaught T auto exampleCalls (Session.new doc) = .error e) ∧
    (∀ fi fs, exampleMain T auto doc d nsort rng N w sd g fi fs ≠ .error .badSpecies) ∧
    ∀ s l, callsUncaught T auto exampleCalls (Session.new doc) = .ok s →
      createRandomParticles d s.props.length w N sd = some l →
      (∀ fi fs, exampleMain T auto doc d nsort rng N w sd g fi fs = .error (.driver .ub) ↔
        ∃ A B : ℕ, A ≤ B ∧ B < 5 ∧ s.eqs A B ≠ [] ∧
          ((∀ p ∈ l, p.species ≠ A) ∨ ∀ p ∈ l, p.species ≠ B)) ∧
      (rng.Fair → (∀ A B : ℕ, A ≤ B → B < 5 → s.eqs A B ≠ [] →
          (∃ p ∈ l, p.species = A) ∧ ∃ p ∈ l, p.species = B) →
        ∃ fi fs st, exampleMain T auto doc d nsort rng N w sd g fi fs = .ok (s, st)) := by
  refine ⟨?_, ?_, ?_⟩
  · intro fi fs e
    unfold exampleMain
    cases hs : callsUncaught T auto exampleCalls (Session.new doc) with
    | error e' => simp
    | ok s =>
      obtain ⟨-, l, hl, -⟩ := main_cases (w := w) (N := N) (sd := sd) hlib hs
      simp only [hl, reduceCtorEq, iff_false]
      split <;> simp
  · intro fi fs
    unfold exampleMain
    cases hs : callsUncaught T auto exampleCalls (Session.new doc) with
    | error e' => simp
    | ok s =>
      obtain ⟨-, l, hl, -⟩ := main_cases (w := w) (N := N) (sd := sd) hlib hs
      simp only [hl]
      split <;> simp
  · intro s l hs hl
    obtain ⟨hlen, l', hl', -, hsp⟩ := main_cases (w := w) (N := N) (sd := sd) hlib hs
    rw [hl] at hl'
    cases hl'
    have hdef : ∀ fi fs, exampleMain T auto doc d nsort rng N w sd g fi fs =
        match driver (wholeEnv T s.props.length s.eqs (exampleConst (sortBySpecies nsort
            (fun p => p.species.toNat) s.props.length l) rng)) fi fs
            (exampleCell (sortBySpecies nsort (fun p => p.species.toNat) s.props.length l) w g) with
        | .error e => .error (.driver e)
        | .ok st => .ok (s, st) := by
      intro fi fs
      unfold exampleMain
      rw [hs]
      dsimp only
      rw [hl]
      all_goals rfl
    obtain ⟨c1, c2, c3, c4, c5⟩ := cell_spec (T := T) (w := w) (g := g) (n := s.props.length)
      (by rw [hlen]; exact hlib.sorts) hsp s.eqs
      (exampleConst (S := S) (sortBySpecies nsort (fun p => p.species.toNat) s.props.length l) rng)
    constructor
    · intro fi fs
      have key := C44_empty_species_ub_iff (wholeEnv T s.props.length s.eqs (exampleConst (sortBySpecies nsort
        (fun p => p.species.toNat) s.props.length l) rng)) fi fs
        (exampleCell (sortBySpecies nsort (fun p => p.species.toNat) s.props.length l) w g)
      have hub : exampleMain T auto doc d nsort rng N w sd g fi fs = .error (.driver .ub) ↔
          driver (wholeEnv T s.props.length s.eqs (exampleConst (sortBySpecies nsort
            (fun p => p.species.toNat) s.props.length l) rng)) fi fs
            (exampleCell (sortBySpecies nsort (fun p => p.species.toNat) s.props.length l) w g) = .error .ub := by
        rw [hdef]
        split
        · rename_i e he; rw [he]; simp
        · rename_i st he; rw [he]; simp
      rw [hub, key]
      constructor
      · rintro ⟨A, B, hAB, hB, hne, h0⟩
        have hB' : B < s.props.length := hB
        refine ⟨A, B, hAB, by omega, fun h => hne ?_, ?_⟩
        · show (s.eqs A B).map _ = []
          rw [h]; rfl
        · exact h0.imp (c4 A (by omega)).1 (c4 B hB').1
      · rintro ⟨A, B, hAB, hB, hne, h0⟩
        refine ⟨A, B, hAB, by show B < s.props.length; omega, fun h => hne (List.map_eq_nil_iff.1 h), ?_⟩
        exact h0.imp (c4 A (by omega)).2 (c4 B (by omega)).2
    · intro hfair hpop
      have hne : ∀ i < s.props.length, (∃ p ∈ l, p.species = i) →
          ((sortBySpecies nsort (fun p : Part W => p.species.toNat) s.props.length l).2 i).1 <
          ((sortBySpecies nsort (fun p : Part W => p.species.toNat) s.props.length l).2 i).2 := by
        intro i hi ⟨p, hp, he⟩
        by_contra hlt
        have : rsize ((sortBySpecies nsort (fun p : Part W => p.species.toNat) s.props.length l).2 i) = 0 := by
          unfold rsize; omega
        exact (c4 i hi).1 this p hp he
      obtain ⟨fi, fs, st, h⟩ := C38_driver_finishes (wholeEnv T s.props.length s.eqs (exampleConst (sortBySpecies nsort
        (fun p => p.species.toNat) s.props.length l) rng)) hrv hfair
        (exampleCell (sortBySpecies nsort (fun p => p.species.toNat) s.props.length l) w g) c1 (by
          intro A B hAB hB hrhs
          have hB' : B < s.props.length := hB
          obtain ⟨pA, pB⟩ := hpop A B hAB (by omega) fun h => hrhs (by
            show (s.eqs A B).map _ = []
            rw [h]; rfl)
          exact ⟨hne A (by omega) pA, hne B hB' pB⟩)
      exact ⟨fi, fs, st, by rw [hdef, h]⟩

/-- **C85**  What the program has done when it returns: the cell holds the particles created, unchanged; every pair
tested are two of them, of species with equations, and its relative speed is at most the one announced to the driver
for one species and at most √2 times it for two; the products carry the mass and charge, the momentum and the energy of
the reactants of the tests that created them (under the conditions of C66). -/
theorem C85_returns (hlib : ExampleLibs T auto doc d nsort kT) (hrv : rng.Valid) {fi fs : ℕ} {s : Session W}
    {st : DState (Part W) S ℝ} (hrun : exampleMain T auto doc d nsort rng N w sd g fi fs = .ok (s, st)) :
    callsUncaught T auto exampleCalls (Session.new doc) = .ok s ∧
    ∃ l, createRandomParticles d s.props.length w N sd = some l ∧ l.length = N ∧
      (∀ i < 5, liveM st.mem (st.range i) = ((l.filter fun p => p.species = (i : ℕ) : List (Part W)) : Multiset (Part W))) ∧
      (∀ ev ∈ st.log, ev.A ≤ ev.B ∧ ev.B < 5 ∧ s.eqs ev.A ev.B ≠ [] ∧ ev.p ≠ ev.q ∧ ev.a ∈ l ∧ ev.b ∈ l ∧
        ev.a.species = ev.A ∧ ev.b.species = ev.B ∧
        (ev.a.vel - ev.b.vel).abs ≤ Real.sqrt 2 *
          (exampleConst (S := S) (sortBySpecies nsort (fun p => p.species.toNat) 5 l) rng).maxRelVel ev.A ev.B ∧
        (ev.A = ev.B → (ev.a.vel - ev.b.vel).abs ≤
          (exampleConst (S := S) (sortBySpecies nsort (fun p => p.species.toNat) 5 l) rng).maxRelVel ev.A ev.B)) ∧
      st.results = st.log.flatMap Event.prods ∧
      ((∀ x ∈ s.props, 0 < x.mass) → TestsEvaluate s.eqs st →
        (∀ f : Props ℝ → ℝ, (∀ A B, A ≤ B → B < 5 → ∀ e ∈ s.eqs A B, e.IsInelastic → SameSum s.props f e.eq) →
          (st.results.map fun p => speciesVal s.props f p.species.toNat).sum = ((creating st).map fun e =>
            speciesVal s.props f e.a.species.toNat + speciesVal s.props f e.b.species.toNat).sum) ∧
        ((∀ A B, A ≤ B → B < 5 → ∀ e ∈ s.eqs A B, e.IsInelastic →
            SameSum s.props Props.mass e.eq ∧ OpsKeepVel T.oc e.eq) →
          (st.results.map (momentumOf s.props)).sum = ((creating st).map fun e =>
            momentumOf s.props e.a + momentumOf s.props e.b).sum ∧
          ((∀ k, (doc.inter k).cs.Sane T.solve) →
            (∀ A B, A ≤ B → B < 5 → ∀ e ∈ s.eqs A B, e.Runnable s.props ∧ ∀ k, e.model ≠ .vss k) →
            (st.results.map (energyOf s.props)).sum = ((creating st).map fun e =>
              energyOf s.props e.a + energyOf s.props e.b + e.energyChange s.eqs).sum))) := by
  unfold exampleMain at hrun
  cases hs : callsUncaught T auto exampleCalls (Session.new doc) with
  | error e => rw [hs] at hrun; cases hrun
  | ok s' =>
    rw [hs] at hrun
    dsimp only at hrun
    obtain ⟨hlen, l, hl, hN, hsp⟩ := main_cases (w := w) (N := N) (sd := sd) hlib hs
    rw [hl] at hrun
    dsimp only at hrun
    split at hrun
    · cases hrun
    rename_i st' hd
    cases hrun
    obtain ⟨c1, c2, c3, c4, c5⟩ := cell_spec (T := T) (w := w) (g := g) (n := s.props.length)
      (by rw [hlen]; exact hlib.sorts) hsp s.eqs
      (exampleConst (S := S) (sortBySpecies nsort (fun p => p.species.toNat) s.props.length l) rng)
    obtain ⟨k1, k2, k3⟩ := C42_out_of_place _ rfl hrv _ _ _ _ hd
    have hpairs := C42_pairs _ rfl hrv _ _ _ _ rfl hd
    refine ⟨rfl, l, hl, hN, ?_, ?_, ?_, ?_⟩
    · intro i hi
      rw [k1, k2]
      exact c3 i (by omega)
    · intro ev hev
      obtain ⟨p1, p2, p3, p4, p5, p6, p7, p8, p9, p10⟩ := hpairs ev hev
      have hB : ev.B < s.props.length := p2
      obtain ⟨a1, a2, a3⟩ := c5 ev.A (by omega) ev.p p6 p7
      obtain ⟨b1, b2, b3⟩ := c5 ev.B hB ev.q p9 p10
      rw [← p5] at a1 a2 a3
      rw [← p8] at b1 b2 b3
      rw [← hlen]
      refine ⟨p1, hB, fun h => p3 ?_, p4, a1, b1, a2, b2, C68_factor _ _ a3 b3, fun hAB => ?_⟩
      · show (s.eqs ev.A ev.B).map _ = []
        rw [h]; rfl
      · rw [← hAB] at b3 ⊢
        exact C68_same_species _ a3 b3
    · exact (C43_results_grow _ hrv _ _ _ _ rfl hd).trans (List.nil_append _)
    · intro hm hev
      obtain ⟨d1, d2⟩ := C81_database exampleCalls_speciesFirst ((C85_setup T auto doc).2.2 s hs).1 hm
      obtain ⟨q1, q2⟩ := C66_products d1 (le_refl s.props.length) rfl hrv hev rfl rfl c2 hd
      refine ⟨fun f hf => q1 f fun A B hAB hB => hf A B hAB (by omega), fun hf => ?_⟩
      obtain ⟨r1, r2⟩ := q2 fun A B hAB hB => hf A B hAB (by omega)
      refine ⟨r1, fun hsane hrn => r2 (d2 ?_) fun A B hAB hB => hrn A B hAB (by omega)⟩
      rintro D f ⟨pre, post, hcs, hD, -⟩ k
      have : (runCalls T auto pre (Session.new doc)).doc = doc := by
        have hpre : ∀ c ∈ pre, ∀ x, c ≠ .document x := by
          intro c hc x hx
          have : c ∈ exampleCalls := by rw [hcs]; exact List.mem_append_left _ hc
          rw [hx] at this
          simp [exampleCalls, exampleNames] at this
        clear hcs hD
        have hdoc : ∀ (cs : List Call) (s : Session W), (∀ c ∈ cs, ∀ x, c ≠ .document x) →
            (runCalls T auto cs s).doc = s.doc := by
          intro cs
          induction cs with
          | nil => intro s _; rfl
          | cons c cs ih =>
            intro s hc
            show (runCalls T auto cs (c.run T auto s).1).doc = _
            rw [ih _ fun c' hc' => hc c' (List.mem_cons_of_mem _ hc')]
            exact run_doc (hc c List.mem_cons_self)
        exact hdoc pre _ hpre
      rw [← hD, this]
      exact hsane k

end main

/-! ## Example: one elastic `Interaction` of argon -/

namespace MainExample

def rb : Props ℝ := ⟨"87Rb", 1, 0⟩
def ar : Props ℝ := ⟨"Ar", 2, 0⟩
def el : Props ℝ := ⟨"e^-", 3, -1⟩
def hg : Props ℝ := ⟨"Hg", 4, 0⟩
def hgp : Props ℝ := ⟨"Hg^+", 5, 1⟩

def db : Registry ℝ := [rb, ar, el, hg, hgp]

def doc : SDoc :=
  { doc := { nodes := [SessionExample.node "Ar"], inSection := fun _ _ => false }
    inter := fun _ => { cs := .constant 4 none }
    particles := [hgp, hg, el, ar, rb] }

def flt : Filter := .or .elastic (.label "inelastic")

theorem cells : (∀ p ∈ indexPairs 5, p ≠ (1, 1) → flt.apply doc.doc (queryNodes doc.doc db p.1 p.2
      (exampleNames.getD p.1 "") (exampleNames.getD p.2 "")) = []) ∧
    flt.apply doc.doc (queryNodes doc.doc db 1 1 "Ar" "Ar") = [0] := by
  refine ⟨by decide +kernel, by decide +kernel⟩

theorem eqAr : loadEq db csNames modelNames (SessionExample.node "Ar").node =
    .ok ⟨Term.single 1, Term.single 1, [Term.many 1 2], "constant", "elastic"⟩ := by
  have : loadAndSortTerms db (SessionExample.node "Ar").ins = .ok ([(ar, ⟨2, [-1, -1], ["", ""]⟩)], 2) := by rfl
  unfold loadEq
  rw [show (SessionExample.node "Ar").node.ins = (SessionExample.node "Ar").ins from rfl,
    show (SessionExample.node "Ar").node.outs = (SessionExample.node "Ar").ins from rfl, this]
  have h2 : chooseModel (SessionExample.node "Ar").node [(ar, ⟨2, [-1, -1], ["", ""]⟩)]
      [(ar, ⟨2, [-1, -1], ["", ""]⟩)] = "elastic" := by
    show (if _ then "elastic" else "inelastic") = _
    rw [if_pos rfl]
  dsimp only
  rw [h2]
  rfl

noncomputable def wAr : WEq W :=
  ⟨⟨Term.single 1, Term.single 1, [Term.many 1 2], "constant", "elastic"⟩, ReducedMass.mk' 2 2,
    SessionExample.xs 4, .elastic, none⟩

theorem loadAr (T : Tools W) : loadNode T doc db 0 = .ok wAr := by
  unfold loadNode
  rw [show doc.doc.nodes[0]? = some (SessionExample.node "Ar") from rfl]
  dsimp only
  rw [eqAr]
  dsimp only
  have : completeEq T db ⟨Term.single 1, Term.single 1, [Term.many 1 2], "constant", "elastic"⟩ (doc.inter 0) =
      .ok wAr := by
    unfold completeEq
    rw [show db[(Term.single 1).species.toNat]? = some ar from rfl]
    dsimp only
    rw [if_pos (by decide +kernel), show (doc.inter 0).cs.load T.solve T.extrapolate
      (ReducedMass.mk' ar.mass ar.mass).value = .ok (SessionExample.xs 4) from SessionExample.loadConst _ 4]
    rfl
  rw [this]

/-- Every set but that of argon is filled with nothing. -/
theorem fill_empty (T : Tools W) : ∀ (l : List (ℕ × ℕ)) (t : UTable (WSet W)),
    (∀ p ∈ l, p ∈ indexPairs 5 ∧ p ≠ (1, 1)) →
    (fillW T doc flt db l t).2 = none ∧ (fillW T doc flt db l t).1.side = t.side ∧
      ∀ a b, ((fillW T doc flt db l t).1.cell a b).rhs = (t.cell a b).rhs
  | [], t, _ => ⟨rfl, rfl, fun _ _ => rfl⟩
  | (A, B) :: l, t, h => by
    obtain ⟨h1, h2⟩ := h _ List.mem_cons_self
    have hb : ∀ p ∈ indexPairs 5, p.1 < 5 ∧ p.2 < 5 := by decide
    have hg : ∀ i < 5, ∃ q, db[i]? = some q ∧ q.name = exampleNames.getD i "" := by
      intro i hi
      have : i = 0 ∨ i = 1 ∨ i = 2 ∨ i = 3 ∨ i = 4 := by omega
      rcases this with rfl | rfl | rfl | rfl | rfl <;> exact ⟨_, rfl, rfl⟩
    obtain ⟨qa, ea, na⟩ := hg A (hb _ h1).1
    obtain ⟨qb, eb, nb⟩ := hg B (hb _ h1).2
    obtain ⟨r1, r2, r3⟩ := fill_empty T l
      (t.modify A B fun _ => ⟨(Term.single A, Term.single B), (t.cell (min A B) (max A B)).rhs⟩)
      fun p hp => h p (List.mem_cons_of_mem _ hp)
    have e : fillW T doc flt db ((A, B) :: l) t = fillW T doc flt db l
        (t.modify A B fun _ => ⟨(Term.single A, Term.single B), (t.cell (min A B) (max A B)).rhs⟩) := by
      rw [fillW, ea, eb]
      dsimp only
      rw [na, nb, cells.1 _ h1 h2, pushAll]
    rw [e]
    refine ⟨r1, r2, fun a b => (r3 a b).trans ?_⟩
    unfold UTable.modify
    dsimp only
    split_ifs with hab
    · rw [hab.1, hab.2]
    · rfl

theorem filled (T : Tools W) : ∃ t, fillW T doc flt db (indexPairs 5) (resizeW ⟨0, fun _ _ => {}⟩ 5) = (t, none) ∧
    t.side = 5 ∧ ∀ a b, (t.cell a b).rhs = if a = 1 ∧ b = 1 then [wAr] else [] := by
  have happ : ∀ (l l' : List (ℕ × ℕ)) (t : UTable (WSet W)), (∀ p ∈ l, p ∈ indexPairs 5 ∧ p ≠ (1, 1)) →
      fillW T doc flt db (l ++ l') t = fillW T doc flt db l' (fillW T doc flt db l t).1 := by
    intro l
    induction l with
    | nil => intro l' t _; rfl
    | cons p l ih =>
      intro l' t h
      have h1 := (fill_empty T [p] t fun q hq => h q (by simp only [List.mem_singleton] at hq; simp [hq])).1
      obtain ⟨A, B⟩ := p
      have ht := fun t => ih l' t fun q hq => h q (List.mem_cons_of_mem _ hq)
      rw [List.cons_append, fillW, fillW]
      rw [fillW] at h1
      split
      · rename_i a b ea eb
        rw [ea, eb] at h1
        dsimp only at h1 ⊢
        split
        · rename_i e he
          rw [he] at h1
          cases h1
        · exact ht _
      · rename_i hno
        exfalso
        split at h1
        · rename_i a b ea eb
          exact hno a b ea eb
        · cases h1
  have hsplit : indexPairs 5 = [(0, 0), (0, 1), (0, 2), (0, 3), (0, 4)] ++ (1, 1) ::
      [(1, 2), (1, 3), (1, 4), (2, 2), (2, 3), (2, 4), (3, 3), (3, 4), (4, 4)] := rfl
  have p1 : ∀ p ∈ [((0 : ℕ), (0 : ℕ)), (0, 1), (0, 2), (0, 3), (0, 4)], p ∈ indexPairs 5 ∧ p ≠ (1, 1) := by decide
  have p2 : ∀ p ∈ [((1 : ℕ), (2 : ℕ)), (1, 3), (1, 4), (2, 2), (2, 3), (2, 4), (3, 3), (3, 4), (4, 4)],
      p ∈ indexPairs 5 ∧ p ≠ (1, 1) := by decide
  obtain ⟨a1, a2, a3⟩ := fill_empty T _ (resizeW ⟨0, fun _ _ => {}⟩ 5) p1
  rw [hsplit, happ _ _ _ p1, fillW, show db[1]? = some ar from rfl]
  dsimp only
  rw [show ar.name = "Ar" from rfl, cells.2, pushAll, loadAr]
  dsimp only
  rw [pushAll]
  dsimp only
  obtain ⟨b1, b2, b3⟩ := fill_empty T _ ((fillW T doc flt db [(0, 0), (0, 1), (0, 2), (0, 3), (0, 4)]
    (resizeW ⟨0, fun _ _ => {}⟩ 5)).1.modify 1 1 fun _ => ⟨(Term.single 1, Term.single 1),
      ((fillW T doc flt db [(0, 0), (0, 1), (0, 2), (0, 3), (0, 4)]
        (resizeW ⟨0, fun _ _ => {}⟩ 5)).1.cell (min 1 1) (max 1 1)).rhs ++ [wAr]⟩) p2
  refine ⟨_, Prod.ext rfl b1, b2.trans a2, fun a b => (b3 a b).trans ?_⟩
  unfold UTable.modify
  dsimp only [min_self, max_self]
  by_cases hab : a = 1 ∧ b = 1
  · rw [if_pos (show a = min 1 1 ∧ b = max 1 1 from hab), if_pos hab]
    dsimp only
    rw [a3]; rfl
  · rw [if_neg (show ¬ (a = min 1 1 ∧ b = max 1 1) from hab), if_neg hab, a3]; rfl

theorem sorted : sortProps db = db := by
  simp [sortProps, List.insertionSort, List.orderedInsert, Props.lt, db, rb, ar, el, hg, hgp]
  norm_num

theorem added : addNamesLoop doc.particles exampleNames [] = (db, none) := by
  simp [addNamesLoop, addParticleByName, addParticleType, findParticle, exampleNames, doc, db, rb, ar, el, hg, hgp]

theorem setup (T : Tools W) : ∃ s, callsUncaught T false exampleCalls (Session.new doc) = .ok s ∧ s.props = db ∧
    s.eqs 1 1 = [wAr] ∧ ∀ A B, s.eqs A B ≠ [] → A = 1 ∧ B = 1 := by
  obtain ⟨t, h1, h2, h3⟩ := filled T
  have e : Call.init.run T false ({ doc := doc, filter := flt, dflt := ⟨0, 0⟩, props := db, table := ⟨0, fun _ _ => {}⟩ } : Session W) =
      ({ doc := doc, filter := flt, dflt := ⟨0, 0⟩, props := db, table := t }, .ok 0) := by
    show Session.init T false _ = _
    unfold Session.init
    dsimp only
    rw [sorted, show db.length = 5 from rfl, h1]
    rfl
  refine ⟨{ doc := doc, filter := flt, dflt := ⟨0, 0⟩, props := db, table := t }, ?_, rfl, ?_, ?_⟩
  · have : callsUncaught T false exampleCalls (Session.new doc) = callsUncaught T false [.init]
      ({ doc := doc, filter := flt, dflt := ⟨0, 0⟩, props := db, table := ⟨0, fun _ _ => {}⟩ } : Session W) := by
      refine (uncaught_names T false _ exampleNames (Session.new doc)).trans ?_
      rw [show (Session.new (W := W) doc).doc.particles = doc.particles from rfl,
        show (Session.new (W := W) doc).props = [] from rfl, added]
      dsimp only
      rw [callsUncaught]
      rfl
    rw [this, callsUncaught, e]
    rfl
  · unfold Session.eqs UTable.get?
    dsimp only
    rw [h2, if_pos (by norm_num)]
    dsimp only
    rw [h3]
    rfl
  · intro A B h
    unfold Session.eqs UTable.get? at h
    dsimp only at h
    split_ifs at h with hc
    · dsimp only at h
      rw [h3] at h
      split_ifs at h with hd
      · omega
      · exact absurd rfl h
    · exact absurd rfl h

/-- The species are drawn in turn. -/
noncomputable def draws : Draws ℕ where
  species s := (((s % 5 : ℕ) : ℝ), s + 1)
  position s := (-1, s)
  velocity _ s := (0, s)

noncomputable def rng : RNG ℕ ℝ where
  rand s := (((s % 2 : ℕ) : ℝ) / 2, s + 1)
  randExc s := (((s % 2 : ℕ) : ℝ) / 2, s + 1)

theorem rng_valid : rng.Valid := by
  have : ∀ s : ℕ, (0 : ℝ) ≤ ((s % 2 : ℕ) : ℝ) / 2 ∧ ((s % 2 : ℕ) : ℝ) / 2 < 1 := by
    intro s
    have h : ((s % 2 : ℕ) : ℝ) < 2 := by exact_mod_cast Nat.mod_lt s (by norm_num)
    exact ⟨by positivity, by rw [div_lt_one (by norm_num)]; exact h⟩
  exact ⟨fun s => ⟨(this s).1, (this s).2.le⟩, fun s => this s⟩

theorem rng_fair : rng.Fair := by
  have hit : ∀ (j s : ℕ), (fun s => (rng.randExc s).2)^[j] s = s + j := by
    intro j
    induction j with
    | zero => intro s; rfl
    | succ j ih => intro s; rw [Function.iterate_succ_apply, ih]; simp only [rng]; omega
  intro s n hn k
  have hd : ∀ j, rng.excDraw s j = (((s + j) % 2 : ℕ) : ℝ) / 2 := by
    intro j; rw [RNG.excDraw, hit]; rfl
  have hn' : (2 : ℝ) ≤ n := by exact_mod_cast hn
  by_cases hk : k = 0
  · refine ⟨s + 1, ?_⟩
    have h3 : (s + (s + 1)) % 2 = 1 := by omega
    rw [hd, h3, hk]
    intro hc
    rw [Int.floor_eq_iff] at hc
    push_cast at hc
    linarith [hc.2]
  · refine ⟨s, ?_⟩
    have h3 : (s + s) % 2 = 0 := by omega
    rw [hd, h3]
    simp
    exact fun h => hk h.symm

theorem draws_ok : draws.InRange db 1 where
  species s := by
    have h : ((s % 5 : ℕ) : ℝ) ≤ 4 := by exact_mod_cast (by omega : s % 5 ≤ 4)
    refine ⟨Nat.cast_nonneg _, ?_⟩
    show ((s % 5 : ℕ) : ℝ) ≤ 0.9999999 * (5 : ℕ)
    norm_num
    linarith
  position s := by simp [draws]
  velocity C p _ s := by
    simp only [draws, abs_zero]
    positivity

/-- A sort. -/
def sort (l : List (Part W)) : List (Part W) := l.insertionSort fun p q => p.species.toNat ≤ q.species.toNat

theorem sort_ok (n : ℕ) : NSorts (fun p : Part W => p.species.toNat) n sort := by
  intro l _
  have : Std.Total fun p q : Part W => p.species.toNat ≤ q.species.toNat := ⟨fun _ _ => le_total _ _⟩
  have : IsTrans (Part W) fun p q => p.species.toNat ≤ q.species.toNat := ⟨fun _ _ _ => le_trans⟩
  exact ⟨List.perm_insertionSort _ _, List.pairwise_insertionSort _ _⟩

theorem libs (T : Tools W) : ExampleLibs T false doc draws sort 1 where
  draws s hs := by
    obtain ⟨s', h1, h2, -⟩ := setup T
    rw [h1] at hs
    cases hs
    rw [h2]
    exact draws_ok
  sorts := sort_ok 5

theorem made (w : W) : ∀ N s, createRandomParticles draws 5 w N s =
    some ((List.range N).map fun i => ⟨⟨-1, -1, -1⟩, ⟨0, 0, 0⟩, (((s + i) % 5 : ℕ) : ℤ), w⟩)
  | 0, _ => rfl
  | N + 1, s => by
    have hc : castInt ((s % 5 : ℕ) : ℝ) = ((s % 5 : ℕ) : ℤ) := by
      unfold castInt
      rw [if_pos (Nat.cast_nonneg _), Int.floor_natCast]
    have h5 : s % 5 < 5 := Nat.mod_lt _ (by norm_num)
    have hd : drawParticle draws 5 w s = some (⟨⟨-1, -1, -1⟩, ⟨0, 0, 0⟩, ((s % 5 : ℕ) : ℤ), w⟩, s + 1) := by
      unfold drawParticle
      dsimp only [draws, drawVec]
      rw [hc, if_pos ⟨by omega, by exact_mod_cast h5⟩]
    rw [createRandomParticles, hd]
    dsimp only
    rw [made w N (s + 1), List.range_succ_eq_map]
    simp only [Option.map_some, List.map_cons, List.map_map, Nat.add_zero]
    congr 3
    funext i
    simp only [Function.comp, Nat.succ_eq_add_one]
    rw [show s + 1 + i = s + (i + 1) by omega]

/-- With ten particles the program returns. -/
theorem returns (T : Tools W) (w : W) : ∃ fi fs s st,
    exampleMain T false doc draws sort rng 10 w 0 0 fi fs = .ok (s, st) ∧ s.props = db ∧ s.eqs 1 1 = [wAr] := by
  obtain ⟨s, h1, h2, h3, h4⟩ := setup T
  have hm : createRandomParticles draws s.props.length w 10 0 = _ :=
    (congrArg (fun r : Registry ℝ => createRandomParticles draws r.length w 10 0) h2).trans (made w 10 0)
  obtain ⟨fi, fs, st, hrun⟩ := ((C85_outcomes (libs T) rng_valid).2.2 s _ h1 hm).2 rng_fair (by
    intro A B _ _ h
    obtain ⟨rfl, rfl⟩ := h4 A B h
    refine ⟨⟨_, List.mem_map.2 ⟨1, by simp, rfl⟩, rfl⟩, ⟨_, List.mem_map.2 ⟨1, by simp, rfl⟩, rfl⟩⟩)
  exact ⟨fi, fs, s, st, hrun, h2, h3⟩

/-- With one particle, which is of the first species, it has undefined behaviour. -/
theorem undefined (T : Tools W) (w : W) (fi fs : ℕ) :
    exampleMain T false doc draws sort rng 1 w 0 0 fi fs = .error (.driver .ub) := by
  obtain ⟨s, h1, h2, h3, h4⟩ := setup T
  have hm : createRandomParticles draws s.props.length w 1 0 = _ :=
    (congrArg (fun r : Registry ℝ => createRandomParticles draws r.length w 1 0) h2).trans (made w 1 0)
  refine (((C85_outcomes (libs T) rng_valid).2.2 s _ h1 hm).1 fi fs).2 ⟨1, 1, le_refl _, by norm_num, by simp [h3], Or.inl ?_⟩
  intro p hp
  simp only [List.range_one, List.map_cons, List.map_nil, List.mem_singleton] at hp
  rw [hp]
  norm_num

/-- The hypotheses of `C85_returns`. -/
theorem conserved (T : Tools W) (s : Session W) (hp : s.props = db) (h1 : s.eqs 1 1 = [wAr])
    (h2 : ∀ A B, s.eqs A B ≠ [] → A = 1 ∧ B = 1) :
    (∀ x ∈ s.props, 0 < x.mass) ∧ (∀ k, (doc.inter k).cs.Sane T.solve) ∧
    ∀ A B, A ≤ B → B < 5 → ∀ e ∈ s.eqs A B, ¬ e.IsInelastic ∧ e.Runnable s.props ∧ ∀ k, e.model ≠ .vss k := by
  refine ⟨?_, ?_, ?_⟩
  · intro x hx
    rw [hp] at hx
    simp only [db, List.mem_cons, List.not_mem_nil, or_false] at hx
    rcases hx with rfl | rfl | rfl | rfl | rfl <;> norm_num [rb, ar, el, hg, hgp]
  · intro k
    simp [doc, CSDoc.Sane]
  · intro A B _ _ e he
    obtain ⟨rfl, rfl⟩ := h2 A B (List.ne_nil_of_mem he)
    rw [h1, List.mem_singleton] at he
    subst he
    refine ⟨by simp [WEq.IsInelastic, wAr], ?_, by simp [wAr]⟩
    simp [WEq.Runnable, wAr]

/-- What the program returns is the subject of `C85_returns`: the cell holds two argon atoms. -/
example (T : Tools W) (w : W) : ∃ fi fs s st, exampleMain T false doc draws sort rng 10 w 0 0 fi fs = .ok (s, st) ∧
    (liveM st.mem (st.range 1)).card = 2 := by
  obtain ⟨fi, fs, s, st, hrun, h2, -⟩ := returns T w
  refine ⟨fi, fs, s, st, hrun, ?_⟩
  obtain ⟨-, l, hl, -, hlive, -⟩ := C85_returns (libs T) rng_valid hrun
  have hm : createRandomParticles draws s.props.length w 10 0 = _ :=
    (congrArg (fun r : Registry ℝ => createRandomParticles draws r.length w 10 0) h2).trans (made w 10 0)
  rw [hm] at hl
  cases hl
  rw [hlive 1 (by norm_num)]
  simp [List.range_succ]

/-- Without a mercury ion in the document the database is not set up. -/
example (T : Tools W) (auto : Bool) : ∃ t, callsUncaught T auto exampleCalls
    (Session.new { doc with particles := [hg, el, ar, rb] }) = .error (.xml t) :=
  (C85_setup T auto _).1 ⟨"Hg^+", by simp [exampleNames], by simp [hg, el, ar, rb]⟩

/-- `C85_sorted` for three particles of two species. -/
example (w : W) : ∃ r : List (Part W) × (ℕ → ℕ × ℕ),
    r = sortBySpecies sort (fun p => p.species.toNat) 2 [⟨0, 0, 1, w⟩, ⟨0, 0, 0, w⟩, ⟨⟨1, 1, 1⟩, 0, 1, w⟩] ∧
    r.2 0 = (0, 1) ∧ r.2 1 = (1, 3) ∧ WFRanges 2 r.2 :=
  ⟨_, rfl, rfl, rfl, (C85_sorted (sort_ok 2) (by simp) ⟨0, 0, 0, w⟩).2.1⟩

end MainExample

end Chimp
