import Verif.Props.TreeRuns
import Verif.Props.Simulation

/-!
# C119  Simulations of elastic models finish
-/

namespace Chimp

variable {S W : Type}

/-! ### Specification -/

/-- The cross section described in an `Interaction` element has a finite value, not negative, at every speed and for
every reduced mass. -/
def Xml.FiniteEverywhere (R : Reader) (T : Tools W) (x : Xml) : Prop :=
  ∀ c cs, x.named "cross_section" = [c] → R.Describes c cs →
    ∀ mu v, 0 < mu → 0 ≤ v → cs.Covers T.solve T.extrapolate mu v

/-- An `Interaction` element that is wanted for two of the species and kept by the filter. -/
def KeptElement (root : Xml) (d : Doc) (f : Filter) (db : Registry ℝ) (x : Xml) : Prop :=
  ∃ a ∈ db, ∃ b ∈ db, ∃ k, f.Keeps d (Wanted d db a.name b.name) k ∧ root.interaction k x

/-! ### Lemmas -/

private theorem sane_of_covers {solve : RootFinder} {ex : Bool} {mu v : ℝ} {cs : CSDoc} (h : cs.Covers solve ex mu v) :
    cs.Sane solve := by
  cases cs with
  | data rows => exact fun r hr w hw => (h.1 r hr).2 w hw
  | lotz ps =>
    refine ⟨h.1, fun p hp => ?_⟩
    rcases h.2 with h | h
    · exact (h p hp).1
    · exact ⟨(h.1 p hp).1, (h.1 p hp).2.1⟩
  | _ => trivial

private theorem element_complete {R : Reader} {T : Tools W} {parse : List Char → Option ℤ} {db : Registry ℝ} {x : Xml}
    {w : WEq W} (h : loadXml R T parse db x = .ok w) (hx : x.FiniteEverywhere R T) :
    ∃ d, completeEq T db w.eq d = .ok w ∧ ∀ mu v, 0 < mu → 0 ≤ v → d.cs.Covers T.solve T.extrapolate mu v := by
  obtain ⟨n, c, e, cs, d, -, hc, -, hcs, hd, hw⟩ := loadXml_iff.1 h
  obtain ⟨a, b, -, -, he, -⟩ := completeEq_ok hw
  have hdcs : d.cs = cs := by
    unfold Reader.inter at hd
    repeat' split at hd
    all_goals first | cases hd; rfl | cases hd
  refine ⟨d, by rw [he]; exact hw, fun mu v hmu hv => ?_⟩
  rw [hdcs]
  exact hx c cs hc ((C110_read R c cs).1 hcs) mu v hmu hv

/-- The bound on the product of cross section and speed has a value wherever the cross section has. -/
private theorem maximum_of_value {solve : RootFinder} {ex : Bool} {mu v y : ℝ} {d : CSDoc} {x : XSec}
    (h : d.load solve ex mu = .ok x) (hy : x.sigma v = .ok y) : ∃ r, x.maxSV v = .ok r := by
  cases d with
  | constant value thr =>
    change mkConstant _ _ _ = _ at h
    unfold mkConstant at h
    split at h
    · cases h
    · cases h; exact ⟨_, rfl⟩
  | vhs p thr =>
    change mkVHS _ _ _ = _ at h
    unfold mkVHS at h
    split at h
    · cases h
    · cases h; exact ⟨_, rfl⟩
  | inverse k thr =>
    change mkInverse _ _ _ = _ at h
    unfold mkInverse at h
    split at h
    · cases h
    · cases h; exact ⟨_, rfl⟩
  | log A B thr =>
    change mkLog _ _ _ _ = _ at h
    unfold mkLog at h
    split at h
    · cases h
    · cases h
      dsimp only at hy ⊢
      rw [hy]
      split <;> exact ⟨_, rfl⟩
  | data rows =>
    change mkData _ _ _ = _ at h
    unfold mkData at h
    split at h
    · cases h
    · cases h
      dsimp only [dataMax] at hy ⊢
      rw [hy]
      exact ⟨_, rfl⟩
  | lotz ps =>
    change mkLotz _ _ _ = _ at h
    unfold mkLotz at h
    repeat' split at h
    all_goals first | cases h; exact ⟨_, rfl⟩ | cases h

section
variable {R : Reader} {T : Tools W} {parse : List Char → Option ℤ} {number : List Char → Option ℝ}
  {strip : List Char → List Char} {m : String} {root : Xml} {d : Doc}

/-- What is known of the database. -/
private theorem elastic_model (hn : SameNumbers parse number) (hd : docOf parse root = some d)
    (h1 : ∀ a x, root.get a = some x → x.hasTag "Interaction" = true → OneEquation x) (hr : root.hasTag "Eq" = false)
    (hcp : ∀ n, root.ListedIn strip m n → ':' ∉ n.toList)
    (hco : ∀ x ∈ d.nodes, ∀ t ∈ x.outs, ':' ∉ t.P.toList ∧ t.P ≠ "")
    (hm : ∀ a x p, root.get a = some x → x.hasTag "Particle" = true → R.Says x p → root.ListedIn strip m p.name →
      0 < p.mass) {s s' : TreeDB W}
    (h : TreeDB.addModel R parse strip m { root } = (s, none)) (hi : s.init R T parse number d = (s', none))
    (hel : ∀ e f, root.FilterOf m e → MeansEquationFilter parse e f → ∀ x, KeptElement root d f s'.props x →
      x.FiniteEverywhere R T ∧ ∀ w, loadXml R T parse s'.props x = .ok w → w.model = .elastic) :
    ∃ e f, root.FilterOf m e ∧ MeansEquationFilter parse e f ∧ (∀ p ∈ s'.props, 0 < p.mass) ∧
      WholeDB T s'.props s'.eqs ∧ SaneDB T s'.props s'.props.length s'.eqs ∧
      (∀ A B, ∀ w ∈ s'.eqs A B, 0 < w.mu.value) ∧
      ∀ A B, ∀ w ∈ s'.eqs A B, ∃ x, KeptElement root d f s'.props x ∧ loadXml R T parse s'.props x = .ok w ∧
        w.model = .elastic ∧ ∃ d, completeEq T s'.props w.eq d = .ok w ∧
          ∀ mu v, 0 < mu → 0 ≤ v → d.cs.Covers T.solve T.extrapolate mu v := by
  obtain ⟨D, cs, -, hsf, -, hh⟩ := C118_history hn hd h1 hr h hi
  obtain ⟨e, f, he, hef, -, hfrom, -⟩ := C118_equations hn hd h1 hr hcp hco h hi
  obtain ⟨-, hlist, hpart, -⟩ := C116_database hn hd h1 hr hcp hco h hi
  have hpos : ∀ p ∈ s'.props, 0 < p.mass := by
    intro p hp
    obtain ⟨a, x, hx, ht, hs⟩ := hpart p hp
    exact hm a x p hx ht hs ((hlist _).2 ⟨p, hp, rfl⟩)
  have hall : ∀ A B, ∀ w ∈ s'.eqs A B, ∃ x, KeptElement root d f s'.props x ∧ loadXml R T parse s'.props x = .ok w ∧
      w.model = .elastic ∧ ∃ d, completeEq T s'.props w.eq d = .ok w ∧
        ∀ mu v, 0 < mu → 0 ≤ v → d.cs.Covers T.solve T.extrapolate mu v := by
    intro A B w hw
    obtain ⟨a, ha, b, hb, k, x, hk, hx, hwx⟩ := hfrom A B w hw
    have hkx : KeptElement root d f s'.props x := ⟨a, ha, b, hb, k, hk, hx⟩
    obtain ⟨q1, q2⟩ := hel e f he hef x hkx
    exact ⟨x, hkx, hwx, q2 w hwx, element_complete hwx q1⟩
  have hmu : ∀ A B, ∀ w ∈ s'.eqs A B, 0 < w.mu.value := by
    intro A B w hw
    obtain ⟨-, -, -, -, d', hd', -⟩ := hall A B w hw
    obtain ⟨a, b, hA, hB, -, hmu, -⟩ := completeEq_ok hd'
    have ha := hpos a (List.mem_of_getElem? hA)
    have hb := hpos b (List.mem_of_getElem? hB)
    rw [hmu]
    show 0 < a.mass * b.mass / (a.mass + b.mass)
    positivity
  obtain ⟨hdb, -⟩ := C81_database hsf hh hpos
  have hsane : SaneDB T s'.props s'.props.length s'.eqs := by
    intro A B _ _ w hw
    obtain ⟨-, -, -, -, d', hd', hc⟩ := hall A B w hw
    exact .inl ⟨d', hd', sane_of_covers (hc 1 0 one_pos le_rfl)⟩
  exact ⟨e, f, he, hef, hpos, hdb, hsane, hmu, hall⟩

/-- **C119**  A model whose interactions are elastic with cross sections finite everywhere.  With a generator that is valid
and fair and at least one particle of each species, the driver returns.  Every interaction performed is one of the
elements kept by the model, between particles of its two species at a speed at which its cross section is positive and with
its threshold energy; and nothing that adds up over particles is lost: mass, charge, momentum and kinetic energy. -/
theorem C119_finishes (hn : SameNumbers parse number) (hd : docOf parse root = some d)
    (h1 : ∀ a x, root.get a = some x → x.hasTag "Interaction" = true → OneEquation x) (hr : root.hasTag "Eq" = false)
    (hcp : ∀ n, root.ListedIn strip m n → ':' ∉ n.toList)
    (hco : ∀ x ∈ d.nodes, ∀ t ∈ x.outs, ':' ∉ t.P.toList ∧ t.P ≠ "")
    (hm : ∀ a x p, root.get a = some x → x.hasTag "Particle" = true → R.Says x p → root.ListedIn strip m p.name →
      0 < p.mass) {s s' : TreeDB W}
    (h : TreeDB.addModel R parse strip m { root } = (s, none)) (hi : s.init R T parse number d = (s', none))
    (hel : ∀ e f, root.FilterOf m e → MeansEquationFilter parse e f → ∀ x, KeptElement root d f s'.props x →
      x.FiniteEverywhere R T ∧ ∀ w, loadXml R T parse s'.props x = .ok w → w.model = .elastic)
    {c : CellConst S W} (hin : c.inplace = true) (hv : c.rng.Valid) (hfair : c.rng.Fair) {st0 : DState (Part W) S ℝ}
    (hf : Fresh st0) (hwf : WFRanges s'.props.length st0.range)
    (hom : Homogeneous (wholeEnv T s'.props.length s'.eqs c) st0)
    (hpop : ∀ A < s'.props.length, (st0.range A).1 < (st0.range A).2) :
    (∃ fi fs st, driver (wholeEnv T s'.props.length s'.eqs c) fi fs st0 = .ok st) ∧
    ∀ fi fs st, driver (wholeEnv T s'.props.length s'.eqs c) fi fs st0 = .ok st →
      (∀ g : Props ℝ → ℝ, grandTotal s'.props.length (fun p => speciesVal s'.props g p.species.toNat) st =
        grandTotal s'.props.length (fun p => speciesVal s'.props g p.species.toNat) st0) ∧
      grandTotal s'.props.length (momentumOf s'.props) st = grandTotal s'.props.length (momentumOf s'.props) st0 ∧
      grandTotal s'.props.length (energyOf s'.props) st = grandTotal s'.props.length (energyOf s'.props) st0 ∧
      ∀ ev ∈ st.log, 0 ≤ ev.path.first → ∃ w x, (s'.eqs ev.A ev.B)[ev.path.first.toNat]? = some w ∧
        (∃ e f, root.FilterOf m e ∧ MeansEquationFilter parse e f ∧ KeptElement root d f s'.props x) ∧
        loadXml R T parse s'.props x = .ok w ∧ ev.a.species.toNat = ev.A ∧ ev.b.species.toNat = ev.B ∧
        (∃ y, w.cs.sigma (ev.a.vel - ev.b.vel).abs = .ok y ∧ 0 < y) ∧
        w.cs.thrE ≤ 1 / 2 * w.mu.value * (ev.a.vel - ev.b.vel).normSq := by
  obtain ⟨D, cs, -, hsf, -, hh⟩ := C118_history hn hd h1 hr h hi
  obtain ⟨e, f, he, hef, hpos, hdb, hsane, hmu, hall⟩ := elastic_model hn hd h1 hr hcp hco hm h hi hel
  refine ⟨C38_driver_finishes (wholeEnv T s'.props.length s'.eqs c) hv hfair st0 hwf
    fun A B hAB hB _ => ⟨hpop A (lt_of_le_of_lt hAB hB), hpop B hB⟩, fun fi fs st hrun => ?_⟩
  have hev : TestsEvaluate s'.eqs st := by
    refine C73_run (T := T) hpos fun ev _ w hw => ?_
    obtain ⟨-, -, -, -, d', hd', hc⟩ := hall _ _ w hw
    exact ⟨d', hd', hc _ _ (hmu _ _ w hw) (Vec.abs_nonneg _)⟩
  obtain ⟨r1, r2, r3, -⟩ := C81_runs hsf hh hpos hin hv hf hwf hom hrun hev
  have hno : ∀ A B, ∀ w ∈ s'.eqs A B, ¬ w.IsInelastic := by
    rintro A B w hw ⟨q, hq⟩
    obtain ⟨-, -, -, hmod, -⟩ := hall A B w hw
    rw [hmod] at hq
    cases hq
  refine ⟨fun g => r1 g fun A B w hw hi => absurd hi (hno A B w hw), r2 fun A B w hw hi => absurd hi (hno A B w hw),
    r3 fun A B w hw => (hall A B w hw).choose_spec.2.2.1, fun ev hmem h0 => ?_⟩
  obtain ⟨w, q1, q2, q3, ⟨y, hy, hy0⟩, -⟩ := C72_interactions_possible hdb le_rfl hsane
    (fun A B _ _ w hw m hm => absurd ⟨m, hm⟩ (hno A B w hw)) hv hev hwf hf hom hrun ev hmem h0
  have hw := List.mem_of_getElem? q1
  obtain ⟨x, hkx, hwx, -, d', hd', hc⟩ := hall _ _ w hw
  refine ⟨w, x, q1, ⟨e, f, he, hef, hkx⟩, hwx, q2, q3, ⟨y, hy, hy0⟩, ?_⟩
  by_contra hlow
  obtain ⟨a, b, -, -, -, hmw, hcs, -⟩ := completeEq_ok hd'
  have hz := C65_threshold (hmu _ _ w hw) (by rw [hmw]; exact load_built (sane_of_covers (hc 1 0 one_pos le_rfl)) hcs)
    (v := (ev.a.vel - ev.b.vel).abs) (Vec.abs_nonneg _) (by rw [Vec.abs_sq]; exact not_le.1 hlow)
  rw [hz] at hy
  cases hy
  exact lt_irrefl _ hy0

/-- **C119**  Simulations of any number of steps in any number of cells with such a model, for any motion of the particles
between collisions that keeps their velocities.  No species has to be present in every cell.  The simulation ends, without
reading a particle that is not there, and at the end number of particles, mass, charge, momentum and kinetic energy are what they were. -/
theorem C119_simulation (hn : SameNumbers parse number) (hd : docOf parse root = some d)
    (h1 : ∀ a x, root.get a = some x → x.hasTag "Interaction" = true → OneEquation x) (hr : root.hasTag "Eq" = false)
    (hcp : ∀ n, root.ListedIn strip m n → ':' ∉ n.toList)
    (hco : ∀ x ∈ d.nodes, ∀ t ∈ x.outs, ':' ∉ t.P.toList ∧ t.P ≠ "")
    (hm : ∀ a x p, root.get a = some x → x.hasTag "Particle" = true → R.Says x p → root.ListedIn strip m p.name →
      0 < p.mass) {s s' : TreeDB W}
    (h : TreeDB.addModel R parse strip m { root } = (s, none)) (hi : s.init R T parse number d = (s', none))
    (hel : ∀ e f, root.FilterOf m e → MeansEquationFilter parse e f → ∀ x, KeptElement root d f s'.props x →
      x.FiniteEverywhere R T ∧ ∀ w, loadXml R T parse s'.props x = .ok w → w.model = .elastic)
    {c : CellConst S W} (hin : c.inplace = true) (hv : c.rng.Valid) (hfair : c.rng.Fair)
    {nsort : List (Part W) → List (Part W)} (hs : NSorts (fun p : Part W => p.species.toNat) s'.props.length nsort)
    (data : ℕ → ℕ → List (Part W) → CellData ℝ) {flight : ℕ → List (List (Part W)) → List (List (Part W))}
    {move : ℕ → Part W → Part W} (hfl : Flies flight move)
    (hmove : ∀ t p, (move t p).species = p.species ∧ (move t p).vel = p.vel) (x : Part W) (t k : ℕ)
    {cells : List (List (Part W))} (hl : ∀ p ∈ cells.flatten, p.species.toNat < s'.props.length) (g : S) :
    (∀ fi fs, simulate (wholeEnv T s'.props.length s'.eqs c) data flight nsort x fi fs t k cells g ≠ .error .ub) ∧
    (∃ fi fs r, simulate (wholeEnv T s'.props.length s'.eqs c) data flight nsort x fi fs t k cells g = .ok r) ∧
    ∀ fi fs cells' evs g',
      simulate (wholeEnv T s'.props.length s'.eqs c) data flight nsort x fi fs t k cells g = .ok (cells', evs, g') →
      cells'.flatten.length = cells.flatten.length ∧
      (∀ φ : Props ℝ → ℝ, worldTotal (fun p => speciesVal s'.props φ p.species.toNat) cells' =
        worldTotal (fun p => speciesVal s'.props φ p.species.toNat) cells) ∧
      worldTotal (momentumOf s'.props) cells' = worldTotal (momentumOf s'.props) cells ∧
      worldTotal (energyOf s'.props) cells' = worldTotal (energyOf s'.props) cells := by
  obtain ⟨e, f, he, hef, hpos, hdb, hsane, hmu, hall⟩ := elastic_model hn hd h1 hr hcp hco hm h hi hel
  have hsp : ∀ t p, (move t p).species.toNat = p.species.toNat := fun t p => by rw [(hmove t p).1]
  obtain ⟨hub, hret⟩ := C104_returns (wholeEnv T s'.props.length s'.eqs c) hin hv hfair
    (wholeEnv_keeps T s'.props.length s'.eqs c) (whole_productsKnown hdb c) hs data hfl hsp x k t cells g hl
  refine ⟨hub, hret, fun fi fs cells' evs g' hrun => ?_⟩
  have hno : ∀ A B, ∀ w ∈ s'.eqs A B, ¬ w.IsInelastic := by
    rintro A B w hw ⟨q, hq⟩
    obtain ⟨-, -, -, hmod, -⟩ := hall A B w hw
    rw [hmod] at hq
    cases hq
  have hev : EventsEvaluate s'.eqs evs := by
    intro ev _ w hw
    obtain ⟨-, -, -, -, d', hd', hc⟩ := hall _ _ w hw
    obtain ⟨a, b, -, -, -, hmw, hcs, -⟩ := completeEq_ok hd'
    rw [show a.mass * b.mass / (a.mass + b.mass) = w.mu.value by rw [hmw]; rfl] at hcs
    exact C73_evaluates (hmu _ _ w hw) (Vec.abs_nonneg _) (hc _ _ (hmu _ _ w hw) (Vec.abs_nonneg _)) hcs
  obtain ⟨r1, r2⟩ := C104_library hdb hin hv hs data hfl (fun t p => (hmove t p).1) x fi fs t k hl hrun hev
  obtain ⟨r3, r4⟩ := r2 fun A B _ _ w hw hi => absurd hi (hno A B w hw)
  obtain ⟨hknown, -⟩ := C104_number (wholeEnv T s'.props.length s'.eqs c) hin hv
    (wholeEnv_keeps T s'.props.length s'.eqs c) (whole_productsKnown hdb c) hs data hfl hsp x fi fs t k hl hrun
  have r1' := fun φ => r1 φ fun A B _ _ w hw hi => absurd hi (hno A B w hw)
  refine ⟨?_, r1', r3 fun t p => ?_, ?_⟩
  · have hone : ∀ cs : List (List (Part W)), (∀ p ∈ cs.flatten, p.species.toNat < s'.props.length) →
        worldTotal (fun p => speciesVal s'.props (fun _ => (1 : ℝ)) p.species.toNat) cs = cs.flatten.length := by
      intro cs hcs
      unfold worldTotal
      rw [List.map_congr_left (g := fun _ => (1 : ℝ)) fun p hp => ?_]
      · rw [List.map_const', List.sum_replicate, nsmul_eq_mul, mul_one]
      · exact speciesVal_some (List.getElem?_eq_getElem (hcs p hp))
    have := r1' fun _ => 1
    rw [hone _ hknown, hone _ hl] at this
    exact_mod_cast this
  · unfold momentumOf massOf
    rw [(hmove t p).1, (hmove t p).2]
  · rw [r4 hsane (fun A B _ _ w hw => ⟨fun q hq => absurd ⟨q, hq⟩ (hno A B w hw), fun q hq => ?_⟩) fun t p => ?_]
    · have hz : ((performedIn s'.eqs evs).map WEq.energyChange).sum = 0 := by
        refine List.sum_eq_zero fun z hz => ?_
        obtain ⟨w, hw, rfl⟩ := List.mem_map.1 hz
        obtain ⟨ev, -, hev'⟩ := List.mem_filterMap.1 hw
        split at hev'
        · cases hev'
        · obtain ⟨-, -, -, hmod, -⟩ := hall _ _ w (List.mem_of_getElem? hev')
          unfold WEq.energyChange
          rw [hmod]
      rw [hz, add_zero]
    · obtain ⟨-, -, -, hmod, -⟩ := hall _ _ w hw
      rw [hmod] at hq
      cases hq
    · unfold energyOf massOf
      rw [(hmove t p).1, (hmove t p).2]

/-- **C119**  Where the driver calls what may throw, with a model whose cross sections are finite everywhere: at every speed
the cross section of every equation has a value, which is not negative, and so has the bound on its product with the speed;
and elastic and VSS collisions always have a result. -/
theorem C119_no_exceptions (hn : SameNumbers parse number) (hd : docOf parse root = some d)
    (h1 : ∀ a x, root.get a = some x → x.hasTag "Interaction" = true → OneEquation x) (hr : root.hasTag "Eq" = false)
    (hcp : ∀ n, root.ListedIn strip m n → ':' ∉ n.toList)
    (hco : ∀ x ∈ d.nodes, ∀ t ∈ x.outs, ':' ∉ t.P.toList ∧ t.P ≠ "")
    (hm : ∀ a x p, root.get a = some x → x.hasTag "Particle" = true → R.Says x p → root.ListedIn strip m p.name →
      0 < p.mass) {s s' : TreeDB W}
    (h : TreeDB.addModel R parse strip m { root } = (s, none)) (hi : s.init R T parse number d = (s', none))
    (hfin : ∀ e f, root.FilterOf m e → MeansEquationFilter parse e f → ∀ x, KeptElement root d f s'.props x →
      x.FiniteEverywhere R T) :
    ∀ A B, ∀ w ∈ s'.eqs A B,
      (∀ v, 0 ≤ v → (∃ y, w.cs.sigma v = .ok y ∧ 0 ≤ y) ∧ ∃ r, w.cs.maxSV v = .ok r) ∧
      (¬ w.IsInelastic → ∀ (rng : RNG S ℝ) inplace p q g, ∃ r, w.act T rng inplace p q g = some r) := by
  obtain ⟨e, f, he, hef, -, hfrom, -⟩ := C118_equations hn hd h1 hr hcp hco h hi
  obtain ⟨-, hlist, hpart, -⟩ := C116_database hn hd h1 hr hcp hco h hi
  have hpos : ∀ p ∈ s'.props, 0 < p.mass := by
    intro p hp
    obtain ⟨a, x, hx, ht, hs⟩ := hpart p hp
    exact hm a x p hx ht hs ((hlist _).2 ⟨p, hp, rfl⟩)
  intro A B w hw
  obtain ⟨a, ha, b, hb, k, x, hk, hx, hwx⟩ := hfrom _ _ w hw
  obtain ⟨d', hd', hc⟩ := element_complete hwx (hfin e f he hef x ⟨a, ha, b, hb, k, hk, hx⟩)
  obtain ⟨a, b, hA, hB, -, hmw, hcs, -⟩ := completeEq_ok hd'
  have ha := hpos a (List.mem_of_getElem? hA)
  have hb := hpos b (List.mem_of_getElem? hB)
  have hmu : 0 < a.mass * b.mass / (a.mass + b.mass) := by positivity
  refine ⟨fun v hv => ?_, fun hno rng ip p q g => ?_⟩
  · obtain ⟨y, hy, hy0⟩ := C73_evaluates hmu hv (hc _ _ hmu hv) hcs
    exact ⟨⟨y, hy, hy0⟩, maximum_of_value hcs hy⟩
  · unfold WEq.act
    cases hmod : w.model with
    | elastic => exact ⟨_, rfl⟩
    | vss k => exact ⟨_, rfl⟩
    | inelastic q => exact absurd ⟨q, hmod⟩ hno

/-- **C119**  Ending does not need elastic interactions.  With a model of any kinds of interactions, reactions that make and
remove particles among them, whose cross sections are finite everywhere, a simulation ends without reading a particle
that is not there; in no test a cross section lacks a value, which would throw; and all particles at the end belong to
species listed in the model.  That an inelastic interaction has a result is not claimed here: see C72. -/
theorem C119_any_model (hn : SameNumbers parse number) (hd : docOf parse root = some d)
    (h1 : ∀ a x, root.get a = some x → x.hasTag "Interaction" = true → OneEquation x) (hr : root.hasTag "Eq" = false)
    (hcp : ∀ n, root.ListedIn strip m n → ':' ∉ n.toList)
    (hco : ∀ x ∈ d.nodes, ∀ t ∈ x.outs, ':' ∉ t.P.toList ∧ t.P ≠ "")
    (hm : ∀ a x p, root.get a = some x → x.hasTag "Particle" = true → R.Says x p → root.ListedIn strip m p.name →
      0 < p.mass) {s s' : TreeDB W}
    (h : TreeDB.addModel R parse strip m { root } = (s, none)) (hi : s.init R T parse number d = (s', none))
    (hfin : ∀ e f, root.FilterOf m e → MeansEquationFilter parse e f → ∀ x, KeptElement root d f s'.props x →
      x.FiniteEverywhere R T)
    {c : CellConst S W} (hin : c.inplace = true) (hv : c.rng.Valid) (hfair : c.rng.Fair)
    {nsort : List (Part W) → List (Part W)} (hs : NSorts (fun p : Part W => p.species.toNat) s'.props.length nsort)
    (data : ℕ → ℕ → List (Part W) → CellData ℝ) {flight : ℕ → List (List (Part W)) → List (List (Part W))}
    {move : ℕ → Part W → Part W} (hfl : Flies flight move) (hmove : ∀ t p, (move t p).species = p.species) (x : Part W)
    (t k : ℕ) {cells : List (List (Part W))} (hl : ∀ p ∈ cells.flatten, p.species.toNat < s'.props.length) (g : S) :
    (∀ fi fs, simulate (wholeEnv T s'.props.length s'.eqs c) data flight nsort x fi fs t k cells g ≠ .error .ub) ∧
    (∃ fi fs r, simulate (wholeEnv T s'.props.length s'.eqs c) data flight nsort x fi fs t k cells g = .ok r) ∧
    ∀ fi fs cells' evs g',
      simulate (wholeEnv T s'.props.length s'.eqs c) data flight nsort x fi fs t k cells g = .ok (cells', evs, g') →
      EventsEvaluate s'.eqs evs ∧
      ∀ p ∈ cells'.flatten, ∃ q ∈ s'.props, s'.props[p.species.toNat]? = some q ∧ root.ListedIn strip m q.name := by
  obtain ⟨D, cs, -, hsf, -, hh⟩ := C118_history hn hd h1 hr h hi
  obtain ⟨-, hlist, hpart, -⟩ := C116_database hn hd h1 hr hcp hco h hi
  have hpos : ∀ p ∈ s'.props, 0 < p.mass := by
    intro p hp
    obtain ⟨a, x, hx, ht, hs⟩ := hpart p hp
    exact hm a x p hx ht hs ((hlist _).2 ⟨p, hp, rfl⟩)
  obtain ⟨hdb, -⟩ := C81_database (T := T) hsf hh hpos
  have hsp : ∀ t p, (move t p).species.toNat = p.species.toNat := fun t p => by rw [hmove t p]
  obtain ⟨hub, hret⟩ := C104_returns (wholeEnv T s'.props.length s'.eqs c) hin hv hfair
    (wholeEnv_keeps T s'.props.length s'.eqs c) (whole_productsKnown hdb c) hs data hfl hsp x k t cells g hl
  refine ⟨hub, hret, fun fi fs cells' evs g' hrun => ⟨fun ev _ w hw => ?_, fun p hp => ?_⟩⟩
  · exact ((C119_no_exceptions (S := S) hn hd h1 hr hcp hco hm h hi hfin _ _ w hw).1 _ (Vec.abs_nonneg _)).1
  obtain ⟨hknown, -⟩ := C104_number (wholeEnv T s'.props.length s'.eqs c) hin hv
    (wholeEnv_keeps T s'.props.length s'.eqs c) (whole_productsKnown hdb c) hs data hfl hsp x fi fs t k hl hrun
  have hlt := hknown p hp
  exact ⟨_, List.getElem_mem hlt, List.getElem?_eq_getElem hlt, (hlist _).2 ⟨_, List.getElem_mem hlt, rfl⟩⟩

/-- **C119**  Elements with such cross sections: spheres of constant size, and variable hard spheres with a positive area
and temperature and an exponent of viscosity below 5/2, whatever threshold they have. -/
theorem C119_spheres {x c : Xml} (hx : x.named "cross_section" = [c])
    (h : (c.attr "model" = some "constant" ∧ ∃ a, R.Finds c "value" a .area ∧ 0 ≤ a) ∨
      (0 < R.KB ∧ 0 < R.tiny ∧ c.attr "model" = some "vhs" ∧ ∃ a t w, R.Finds c "value" a .area ∧ 0 < a ∧
        R.Finds c "T_ref" t .temperature ∧ 0 < t ∧ R.Finds c "visc_T_law" w .unity ∧ w < 5 / 2)) :
    x.FiniteEverywhere R T := by
  have one : ∀ {p : String} {u v : ℝ} {k : SIDim}, R.Finds c p u k → R.Finds c p v k → u = v := by
    rintro p u v k ⟨y, hy, hu⟩ ⟨z, hz, hv⟩
    rw [hy] at hz
    cases hz
    rw [hu] at hv
    cases hv
    rfl
  intro c' cs hc' hcs mu v _ _
  rw [hx] at hc'
  cases hc'
  rcases h with ⟨hm, a, ha, ha0⟩ | ⟨hk, ht, hm, a, t, w, ha, ha0, hT, hT0, hw, hw0⟩
  · cases hcs with
    | constant u _ _ hu => exact one ha hu ▸ ha0
    | vhs _ _ _ _ h' => simp [hm] at h'
    | inverse _ _ h' => simp [hm] at h'
    | log _ _ _ h' => simp [hm] at h'
    | data _ _ h' => simp [hm] at h'
    | lotz _ h' => simp [hm] at h'
  · cases hcs with
    | vhs u t' w' _ _ h1 h2 h3 =>
      obtain rfl := one ha h1
      obtain rfl := one hT h2
      obtain rfl := one hw h3
      exact ⟨ha0, hT0, one_div_pos.2 (Real.Gamma_pos_of_pos (by linarith)), hk, ht⟩
    | constant _ _ h' => simp [hm] at h'
    | inverse _ _ h' => simp [hm] at h'
    | log _ _ _ h' => simp [hm] at h'
    | data _ _ h' => simp [hm] at h'
    | lotz _ h' => simp [hm] at h'

/-- **C119**  Further elements with such cross sections: an inverse law with a positive threshold, and the shells of Lotz
with positive binding energies and coefficients and without the exponential correction, if the search for roots returns
roots. -/
theorem C119_formulas {x c : Xml} (hx : x.named "cross_section" = [c])
    (h : (c.attr "model" = some "inverse" ∧ ∃ k e, R.Finds c "value_vref" k .rate ∧ 0 ≤ k ∧
        (R.Finds c "threshold" e .energy ∨ R.Finds c "threshold" e .speed) ∧ 0 < e) ∨
      (0 < R.me ∧ T.solve.Exact ∧ c.attr "model" = some "lotz" ∧ ∀ y ∈ c.kids, R.takes y = true → ∃ P q a,
        R.Finds y "P" P .energy ∧ 0 < P ∧ R.Finds y "q" q .unity ∧ 0 < q ∧ R.Finds y "a" a .areaEnergy2 ∧ 0 < a ∧
        R.Finds y "b" 0 .unity)) :
    x.FiniteEverywhere R T := by
  have one : ∀ {y : Xml} {p : String} {u v : ℝ} {k l : SIDim}, R.Finds y p u k → R.Finds y p v l → u = v ∧ k = l := by
    rintro y p u v k l ⟨y, hy, hu⟩ ⟨z, hz, hv⟩
    rw [hy] at hz
    cases hz
    rw [hu] at hv
    cases hv
    exact ⟨rfl, rfl⟩
  intro c' cs hc' hcs mu v hmu _
  rw [hx] at hc'
  cases hc'
  rcases h with ⟨hm, k, e, hk, hk0, he, he0⟩ | ⟨hme, hs, hm, hall⟩
  · cases hcs with
    | inverse k' t _ h1 h2 =>
      obtain rfl := (one hk h1).1
      refine ⟨hk0, .inr ?_⟩
      cases h2 with
      | missing h3 =>
        rcases he with ⟨z, hz, -⟩ | ⟨z, hz, -⟩ <;> rw [h3] at hz <;> cases hz
      | energy e' h3 =>
        obtain rfl : e = e' := by rcases he with he | he <;> exact (one he h3).1
        exact he0
      | speed e' h3 =>
        obtain rfl : e = e' := by rcases he with he | he <;> exact (one he h3).1
        show 0 < 1 / 2 * mu * (e * e)
        positivity
    | constant _ _ h' => simp [hm] at h'
    | vhs _ _ _ _ h' => simp [hm] at h'
    | log _ _ _ h' => simp [hm] at h'
    | data _ _ h' => simp [hm] at h'
    | lotz _ h' => simp [hm] at h'
  · cases hcs with
    | lotz ss _ h1 =>
      refine ⟨hs, .inl fun p hp => ?_⟩
      obtain ⟨y, hy, hyp⟩ : ∃ y ∈ c.kids.filter R.takes, R.FindsShell y p := by
        obtain ⟨i, hi, rfl⟩ := List.getElem_of_mem hp
        exact ⟨_, List.getElem_mem (h1.length_eq ▸ hi), h1.get (h1.length_eq ▸ hi) hi⟩
      obtain ⟨hy1, hy2⟩ := List.mem_filter.1 hy
      obtain ⟨P, q, a, hP, hP0, hq, hq0, ha, ha0, hb⟩ := hall y hy1 hy2
      obtain ⟨e1, e2, e3, e4, -, e5⟩ := hyp
      obtain rfl := (one hP e1).1
      obtain rfl := (one hq e2).1
      obtain rfl := (one ha e3).1
      refine ⟨⟨?_, hP0.ne'⟩, ((one hb e4).1).symm, by positivity⟩
      rw [e5]
      positivity
    | inverse _ _ h' => simp [hm] at h'
    | constant _ _ h' => simp [hm] at h'
    | vhs _ _ _ _ h' => simp [hm] at h'
    | log _ _ _ h' => simp [hm] at h'
    | data _ _ h' => simp [hm] at h'

/-- **C119**  And tables of energies, or of speeds that are not negative, with areas that are not negative, if the area is
zero at the end: in every row at the highest energy or speed, which is positive. -/
theorem C119_tables {x c : Xml} (hx : x.named "cross_section" = [c]) (hm : c.attr "model" = some "data")
    {ps : List (Qty × Qty)} (hp : R.pairs c = .ok ps) (ha : ∀ r ∈ ps, 0 ≤ r.2.coeff)
    (hd : (∀ r ∈ ps, r.1.dim = .energy) ∨ ∀ r ∈ ps, r.1.dim = .speed ∧ 0 ≤ r.1.coeff)
    {top : Qty × Qty} (ht : top ∈ ps) (ht0 : 0 < top.1.coeff)
    (hend : ∀ r ∈ ps, top.1.coeff ≤ r.1.coeff → r.2.coeff = 0) : x.FiniteEverywhere R T := by
  intro c' cs hc' hcs mu v hmu _
  rw [hx] at hc'
  cases hc'
  cases hcs with
  | data ps' rows _ h1 h2 =>
    rw [hp] at h1
    cases h1
    have back : ∀ r ∈ rows, ∃ q ∈ ps, RowSays q r := by
      intro r hr
      obtain ⟨i, hi, rfl⟩ := List.getElem_of_mem hr
      exact ⟨_, List.getElem_mem (h2.length_eq ▸ hi), h2.get (h2.length_eq ▸ hi) hi⟩
    obtain ⟨rt, hrt, htop⟩ : ∃ r ∈ rows, RowSays top r := by
      obtain ⟨i, hi, rfl⟩ := List.getElem_of_mem ht
      exact ⟨_, List.getElem_mem (h2.length_eq ▸ hi), h2.get hi (h2.length_eq ▸ hi)⟩
    refine ⟨fun r hr => ?_, .inr (.inl ?_)⟩
    · obtain ⟨q, hq, hs⟩ := back r hr
      have := ha q hq
      cases hs with
      | energy e y => exact ⟨this, fun w hw => by cases hw⟩
      | speed e y =>
        refine ⟨this, fun w hw => ?_⟩
        cases hw
        rcases hd with hd | hd
        · exact absurd (hd _ hq) (by simp [SIDim.speed, SIDim.energy])
        · exact (hd _ hq).2
    · obtain ⟨hinc, hfrom, hto⟩ := C57_loaded mu rows
      obtain ⟨dt, hdt, hdt1⟩ := hto rt hrt
      have hne : loadTable mu rows ≠ [] := List.ne_nil_of_mem hdt
      refine ⟨_, _, (List.dropLast_append_getLast hne).symm, ?_⟩
      have hlast := List.getLast_mem hne
      have hle : dt.1 ≤ ((loadTable mu rows).getLast hne).1 := by
        rw [← List.dropLast_append_getLast hne] at hdt
        rcases List.mem_append.1 hdt with hq | hq
        · have h := hinc
          unfold Increasing at h
          rw [← List.dropLast_append_getLast hne, List.pairwise_append] at h
          exact (h.2.2 _ hq _ (by simp)).le
        · rw [List.mem_singleton] at hq
          exact hq ▸ le_rfl
      obtain ⟨r, hr, hr2, hr1⟩ := hfrom _ hlast
      obtain ⟨q, hq, hs⟩ := back r hr
      rw [hr2]
      rw [hdt1, hr1] at hle
      have hqt : top.1.coeff ≤ q.1.coeff → r.2 = 0 := fun h => by
        have := hend q hq h
        cases hs <;> exact this
      apply hqt
      by_contra hlt
      rw [not_le] at hlt
      rcases hd with hd | hd
      · have k1 := hd _ ht
        have k2 := hd _ hq
        cases htop with
        | speed => simp [SIDim.speed, SIDim.energy] at k1
        | energy e y =>
          cases hs with
          | speed => simp [SIDim.speed, SIDim.energy] at k2
          | energy e' y' =>
            have hpos : 0 < e / (1 / 2 * mu) := by
              have : 0 < e := ht0
              positivity
            exact absurd hle (not_le.2 ((Real.sqrt_lt_sqrt_iff_of_pos hpos).2
              ((div_lt_div_iff_of_pos_right (by positivity)).2 hlt)))
      · have k1 := (hd _ ht).1
        have k2 := (hd _ hq).1
        cases htop with
        | energy => simp [SIDim.speed, SIDim.energy] at k1
        | speed e y =>
          cases hs with
          | energy => simp [SIDim.speed, SIDim.energy] at k2
          | speed e' y' => exact absurd hle (not_le.2 hlt)
  | inverse _ _ h' => simp [hm] at h'
  | constant _ _ h' => simp [hm] at h'
  | vhs _ _ _ _ h' => simp [hm] at h'
  | log _ _ _ h' => simp [hm] at h'
  | lotz _ h' => simp [hm] at h'

end

/-! ### A run -/

namespace TreeFinishExample

open LoadXmlExample (db)
open TreeDBExample (scattering desk parse number numbers)
open TreeModelExample (tree strip doc interactions made one)
open TreeRunsExample (all_elastic cell start ranges)

theorem kept {f : Filter} {x : Xml} (h : KeptElement tree doc f db x) : x = scattering := by
  obtain ⟨-, -, -, -, k, -, c, hc, hx⟩ := h
  rw [interactions] at hc
  obtain rfl : c = [1, 0] := by simpa using List.mem_of_getElem? hc
  exact (Option.some.inj hx).symm

theorem elements (T : Tools Unit) {r : Registry ℝ} (hdb : r = db) (e : Xml) (f : Filter) (_ : tree.FilterOf "gas" e)
    (_ : MeansEquationFilter parse e f) (x : Xml) (hx : KeptElement tree doc f r x) :
    x.FiniteEverywhere desk T ∧ ∀ w : WEq Unit, loadXml desk T parse r x = .ok w → w.model = .elastic := by
  subst hdb
  refine ⟨?_, fun w hw => ?_⟩
  · rw [kept hx]
    refine C119_spheres (c := pyVHS "a" "t" "n" none) rfl (.inr ⟨by simp [desk], by simp [desk], rfl, 3, 273, 1, ?_⟩)
    refine ⟨⟨_, rfl, ?_⟩, by norm_num, ⟨_, rfl, ?_⟩, by norm_num, ⟨_, rfl, ?_⟩, by norm_num⟩ <;>
      simp [desk, Xml.str, Xml.strs]
  · obtain ⟨a, ha, b, hb, k, hk, hi⟩ := hx
    exact (all_elastic T ⟨a, ha, b, hb, k, x, hk, hi, hw⟩).1

/-- The table of the model is not empty: electrons are scattered by atoms. -/
theorem filled (T : Tools Unit) {s s' : TreeDB Unit} (hdb : s'.props = db)
    (hadd : TreeDB.addModel desk parse strip "gas" { root := tree } = (s, none))
    (hinit : s.init desk T parse number doc = (s', none)) : s'.eqs 0 1 ≠ [] := by
  rw [TreeModelExample.added] at hadd
  obtain rfl := (Prod.ext_iff.1 hadd).1
  have hdoc : docOf parse tree = some doc := (Option.some_get _).symm
  have hco : ∀ x ∈ doc.nodes, ∀ t ∈ x.outs, ':' ∉ t.P.toList ∧ t.P ≠ "" := by decide +kernel
  have nodes : doc.nodes = [⟨[{ P := "e" }, { P := "H" }], [{ P := "e" }, { P := "H" }], "e + H", "e + H",
      true, "vhs", none⟩] := by rfl
  obtain ⟨-, -, -, -, -, hok⟩ := C115_table numbers hdoc one rfl (by unfold NodupNames; simp) ⟨by simp, hco⟩ hinit
  obtain ⟨ks, es, htab, -, hks, hes⟩ := hok rfl 0 1 ⟨"e", 1, -1⟩ ⟨"H", 2000, 0⟩ (by omega) (by rw [hdb]; rfl)
    (by rw [hdb]; rfl)
  have h0 : 0 ∈ ks := by
    refine (hks 0).2 ?_
    show (TreeModelExample.wish).Keeps doc _ 0
    unfold TreeModelExample.wish
    simp only [Filter.Keeps]
    rw [if_neg (by decide), if_pos trivial]
    refine ⟨.inl ⟨⟨_, by rw [nodes]; rfl, rfl, ?_, by simp, ?_⟩, ⟨_, by rw [nodes]; rfl, rfl⟩⟩, by decide +kernel⟩
    · exact ⟨{ P := "e" }, { P := "H" }, .inl rfl, rfl, rfl, rfl, rfl⟩
    · rw [hdb]
      simp [db]
  unfold TreeDB.eqs
  rw [htab]
  intro hnil
  obtain ⟨-, rfl⟩ := List.append_eq_nil_iff.1 hnil
  cases hes
  cases h0

/-- The hypotheses of `C119_finishes` and `C119_spheres` are met. -/
example (T : Tools Unit) : ∃ (s s' : TreeDB Unit) (fi fs : ℕ) (st : DState (Part Unit) ℕ ℝ), s'.props = db ∧
    TreeDB.addModel desk parse strip "gas" { root := tree } = (s, none) ∧ s.init desk T parse number doc = (s', none) ∧
    driver (wholeEnv T s'.props.length s'.eqs cell) fi fs start = .ok st ∧
    grandTotal s'.props.length (energyOf s'.props) st = grandTotal s'.props.length (energyOf s'.props) start := by
  obtain ⟨s, s', hdb, hadd, hinit, hdoc, hr, hcp, hco⟩ := made T
  have hlen : s'.props.length = 2 := by rw [hdb]; rfl
  obtain ⟨⟨fi, fs, st, hrun⟩, hall⟩ := C119_finishes numbers hdoc one hr hcp hco TreeRunsExample.heavy hadd hinit
    (elements T hdb) (c := cell) rfl MainExample.rng_valid MainExample.rng_fair (st0 := start) ⟨rfl, rfl⟩ (by rw [hlen]; exact ranges)
    (TreeRunsExample.homogeneous T _ hlen) (by
      intro A hA
      rw [hlen] at hA
      obtain rfl | rfl : A = 0 ∨ A = 1 := by omega
      all_goals decide)
  exact ⟨s, s', fi, fs, st, hdb, hadd, hinit, hrun, (hall fi fs st hrun).2.2.1⟩

/-- Electrons and atoms in free flight, from any start: the simulation ends after any number of steps, with the energy it
started with. -/
example (T : Tools Unit) (k : ℕ) (cells : List (List (Part Unit))) (hl : ∀ p ∈ cells.flatten, p.species.toNat < 2) :
    ∃ (s' : TreeDB Unit) (fi fs : ℕ) (cells' : List (List (Part Unit))) (evs : List (Event (Part Unit) ℝ)) (g' : ℕ),
    s'.props = db ∧ simulate (wholeEnv T s'.props.length s'.eqs cell) (fun _ _ _ => ⟨fun _ _ => 5, 1, 1⟩)
      (fun _ cells => (cells.map (List.map fun p => { p with pos := p.pos + p.vel })).reverse) MainExample.sort
      ⟨0, 0, 0, ()⟩ fi fs 0 k cells 0 = .ok (cells', evs, g') ∧
    cells'.flatten.length = cells.flatten.length ∧
    worldTotal (energyOf s'.props) cells' = worldTotal (energyOf s'.props) cells := by
  obtain ⟨s, s', hdb, hadd, hinit, hdoc, hr, hcp, hco⟩ := made T
  have hlen : s'.props.length = 2 := by rw [hdb]; rfl
  obtain ⟨-, ⟨fi, fs, ⟨cells', evs, g'⟩, hrun⟩, hall⟩ := C119_simulation numbers hdoc one hr hcp hco TreeRunsExample.heavy
    hadd hinit (elements T hdb) (c := cell) rfl MainExample.rng_valid MainExample.rng_fair
    (MainExample.sort_ok (W := Unit) s'.props.length) (fun _ _ _ => ⟨fun _ _ => 5, 1, 1⟩)
    (flight := fun _ cells => (cells.map (List.map fun p => { p with pos := p.pos + p.vel })).reverse)
    (move := fun _ p => { p with pos := p.pos + p.vel }) (fun t cells => by
      refine (List.reverse_perm _).flatten.trans ?_
      rw [← List.map_flatten]) (fun _ _ => ⟨rfl, rfl⟩) ⟨0, 0, 0, ()⟩ 0 k (by rw [hlen]; exact hl) 0
  obtain ⟨h1, -, -, h4⟩ := hall fi fs cells' evs g' hrun
  exact ⟨s', fi, fs, cells', evs, g', hdb, hrun, h1, h4⟩

/-- The same simulation, by `C119_any_model`: no cross section lacks a value. -/
example (T : Tools Unit) (k : ℕ) (cells : List (List (Part Unit))) (hl : ∀ p ∈ cells.flatten, p.species.toNat < 2) :
    ∃ (s' : TreeDB Unit) (fi fs : ℕ) (cells' : List (List (Part Unit))) (evs : List (Event (Part Unit) ℝ)) (g' : ℕ),
    s'.props = db ∧ simulate (wholeEnv T s'.props.length s'.eqs cell) (fun _ _ _ => ⟨fun _ _ => 5, 1, 1⟩)
      (fun _ cells => (cells.map (List.map fun p => { p with pos := p.pos + p.vel })).reverse) MainExample.sort
      ⟨0, 0, 0, ()⟩ fi fs 0 k cells 0 = .ok (cells', evs, g') ∧ EventsEvaluate s'.eqs evs := by
  obtain ⟨s, s', hdb, hadd, hinit, hdoc, hr, hcp, hco⟩ := made T
  have hlen : s'.props.length = 2 := by rw [hdb]; rfl
  obtain ⟨-, ⟨fi, fs, ⟨cells', evs, g'⟩, hrun⟩, hall⟩ := C119_any_model numbers hdoc one hr hcp hco TreeRunsExample.heavy
    hadd hinit (fun e f he hf x hx => (elements T hdb e f he hf x hx).1) (c := cell) rfl MainExample.rng_valid
    MainExample.rng_fair (MainExample.sort_ok (W := Unit) s'.props.length) (fun _ _ _ => ⟨fun _ _ => 5, 1, 1⟩)
    (flight := fun _ cells => (cells.map (List.map fun p => { p with pos := p.pos + p.vel })).reverse)
    (move := fun _ p => { p with pos := p.pos + p.vel }) (fun t cells => by
      refine (List.reverse_perm _).flatten.trans ?_
      rw [← List.map_flatten]) (fun _ _ => rfl) ⟨0, 0, 0, ()⟩ 0 k (by rw [hlen]; exact hl) 0
  exact ⟨s', fi, fs, cells', evs, g', hdb, hrun, (hall fi fs cells' evs g' hrun).1⟩

/-- The hypotheses of `C119_no_exceptions` are met, by the same model. -/
example (T : Tools Unit) : ∃ (s' : TreeDB Unit), s'.props = db ∧ s'.eqs 0 1 ≠ [] ∧ ∀ w ∈ s'.eqs 0 1, ∀ v, 0 ≤ v →
    ∃ r, w.cs.maxSV v = .ok r := by
  obtain ⟨s, s', hdb, hadd, hinit, hdoc, hr, hcp, hco⟩ := made T
  have h := C119_no_exceptions (S := ℕ) numbers hdoc one hr hcp hco TreeRunsExample.heavy hadd hinit
    (fun e f he hf x hx => (elements T hdb e f he hf x hx).1)
  exact ⟨s', hdb, filled T hdb hadd hinit, fun w hw v hv => ((h 0 1 w hw).1 v hv).2⟩

/-- A reader of a few quantities, and of one table. -/
noncomputable def bench : Reader where
  eval s := if s = ['k'] then some ⟨3, .rate⟩ else if s = ['e'] then some ⟨2, .energy⟩
    else if s = ['q'] then some ⟨6, .unity⟩ else if s = ['a'] then some ⟨4, .areaEnergy2⟩
    else if s = ['b'] then some ⟨0, .unity⟩ else none
  pairs _ := .ok [(⟨5, .energy⟩, ⟨0, .area⟩), (⟨1, .energy⟩, ⟨7, .area⟩), (⟨0, .energy⟩, ⟨0, .area⟩)]
  takes _ := true
  KB := 1
  tiny := 1
  me := 1

/-- The hypotheses of `C119_formulas` are met: an inverse law with a threshold, -/
example (T : Tools Unit) : (Xml.elem "Interaction" [] [.elem "cross_section" [("model", "inverse")]
    [.elem "value_vref" [] [.text "k"], .elem "threshold" [] [.text "e"]]]).FiniteEverywhere bench T := by
  refine C119_formulas rfl (.inl ⟨rfl, 3, 2, ⟨_, rfl, ?_⟩, by norm_num, .inl ⟨_, rfl, ?_⟩, by norm_num⟩) <;>
    simp [bench, Xml.str, Xml.strs]

/-- and two shells of Lotz; -/
example (T : Tools Unit) (hT : T.solve.Exact) : (Xml.elem "Interaction" [] [.elem "cross_section" [("model", "lotz")]
    (List.replicate 2 (.elem "LotzParameters" [] [.elem "P" [] [.text "e"], .elem "q" [] [.text "q"],
      .elem "a" [] [.text "a"], .elem "b" [] [.text "b"], .elem "c" [] [.text "b"]]))]).FiniteEverywhere bench T := by
  refine C119_formulas rfl (.inr ⟨by simp [bench], hT, rfl, fun y hy _ => ⟨2, 6, 4, ?_⟩⟩)
  obtain rfl := List.eq_of_mem_replicate hy
  refine ⟨⟨_, rfl, ?_⟩, by norm_num, ⟨_, rfl, ?_⟩, by norm_num, ⟨_, rfl, ?_⟩, by norm_num, ⟨_, rfl, ?_⟩⟩ <;>
    simp [bench, Xml.str, Xml.strs]

/-- and those of `C119_tables`. -/
example (T : Tools Unit) : (Xml.elem "Interaction" [] [.elem "cross_section" [("model", "data")] []]).FiniteEverywhere
    bench T := by
  refine C119_tables rfl rfl rfl ?_ (.inl ?_) (top := (⟨5, .energy⟩, ⟨0, .area⟩)) (by simp) (by norm_num) ?_ <;>
    norm_num

end TreeFinishExample

end Chimp
