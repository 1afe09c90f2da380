import Verif.Lemmas.ThermalDriver
import Verif.Lemmas.CrossMeasurable
import Verif.Props.ExpectedRate
import Verif.Props.Isotropy

/-!
# Property C106: thermal equilibrium is stationary

A gas in thermal equilibrium (`thermal`: every particle has independent, normally distributed velocity components of
variance `kT / m` about a common drift velocity) stays in equilibrium when the driver runs on it in place with elastic
interactions, whatever the cross sections, the bounds and the number of tests.
-/

namespace Chimp

open MeasureTheory Real Set ProbabilityTheory
open scoped ENNReal

variable {S W : Type} {N : ℕ}

/-- The cell with the velocities of the particles at positions `0, …, N - 1` and the generator replaced. -/
def withVel (st : DState (Part W) S ℝ) (x : (Fin N → Vec) × S) : DState (Part W) S ℝ :=
  { st with
    mem := fun p => if h : p < N then { st.mem p with vel := x.1 ⟨p, h⟩ } else st.mem p
    gen := x.2 }

open Classical in
/-- Velocities and generator after a driver run that starts from the velocities and generator `x` (`x` itself if the
run does not finish). -/
noncomputable def runVel (env : DriverEnv (Part W) S ℝ) (st : DState (Part W) S ℝ) (x : (Fin N → Vec) × S) :
    (Fin N → Vec) × S :=
  if h : ∃ st' fi fs, driver env fi fs (withVel st x) = .ok st' then
    (fun i => (h.choose.mem i).vel, h.choose.gen) else x

theorem runVel_eq (env : DriverEnv (Part W) S ℝ) (st st' : DState (Part W) S ℝ) (x : (Fin N → Vec) × S) (fi fs : ℕ)
    (h : driver env fi fs (withVel st x) = .ok st') : runVel env st x = (fun i : Fin N => (st'.mem i).vel, st'.gen) := by
  have hex : ∃ st' fi fs, driver env fi fs (withVel st x) = .ok st' := ⟨st', fi, fs, h⟩
  rw [runVel, dif_pos hex]
  obtain ⟨fi', fs', h'⟩ := hex.choose_spec
  rw [C38_result_unique env _ _ _ _ _ _ _ h' h]

variable [MeasurableSpace S] {μ : Measure S} [IsProbabilityMeasure μ]

/-- All velocities are thermal and independent, also of the generator. -/
noncomputable def equilibrium (μ : Measure S) (kT : ℝ) (d : Vec) (m : Fin N → ℝ) : Measure ((Fin N → Vec) × S) :=
  (Measure.pi fun k => thermal kT d (m k)).prod μ

/-- **C106**  The elastic model, in place, on two particles with independent thermal velocities and a generator of
independent uniform numbers: the two velocities afterwards are again thermal, independent of each other and of the
generator.  The masses may differ. -/
theorem C106_pair {kT m1 m2 : ℝ} (hT : 0 < kT) (h1 : 0 < m1) (h2 : 0 < m2) (d : Vec) {rng : RNG S ℝ}
    (h : rng.IID μ) (p q : Part W) :
    MeasurePreserving (fun x : (Vec × Vec) × S =>
        let r := elasticAct rng (ReducedMass.mk' m1 m2) true { p with vel := x.1.1 } { q with vel := x.1.2 } x.2
        ((r.1.vel, r.2.1.vel), r.2.2.2))
      (((thermal kT d m1).prod (thermal kT d m2)).prod μ) (((thermal kT d m1).prod (thermal kT d m2)).prod μ) :=
  elastic_preserving hT h1 h2 d h

/-! ### What the library's databases give -/

/-- All interactions between the first `n` species are elastic; cross sections that were not loaded but created are
measurable functions of the speed. -/
def AllElastic (db : Registry ℝ) (n : ℕ) (eqs : ℕ → ℕ → List (WEq W)) : Prop :=
  ∀ A B, A ≤ B → B < n → ∀ w ∈ eqs A B, w.model = .elastic ∧ (w.Created db A B → Measurable fun v => okVal (w.cs.sigma v))

/-- A cell of `N` particles for the first `n` species: every particle is in one of the disjoint ranges, every range
holds particles of its species, and a pair of species that interacts is present. -/
structure FullCell (n N : ℕ) (eqs : ℕ → ℕ → List (WEq W)) (st : DState (Part W) S ℝ) : Prop where
  wf : WFRanges n st.range
  le : ∀ A < n, (st.range A).2 ≤ N
  cover : ∀ p < N, ∃ A < n, (st.range A).1 ≤ p ∧ p < (st.range A).2
  species : ∀ A < n, ∀ p, (st.range A).1 ≤ p → p < (st.range A).2 → (st.mem p).species.toNat = A
  present : ∀ A B, A ≤ B → B < n → eqs A B ≠ [] → (st.range A).1 < (st.range A).2 ∧ (st.range B).1 < (st.range B).2

omit [MeasurableSpace S] in
private theorem elasticEnv {T : Tools W} {db : Registry ℝ} {n : ℕ} {eqs : ℕ → ℕ → List (WEq W)}
    {c : CellConst S W} (hdb : WholeDB T db eqs) (hn : n ≤ db.length) (hel : AllElastic db n eqs) (hin : c.inplace = true)
    (hw : ∀ (p : Part W) v, c.weight { p with vel := v } = c.weight p) :
    ElasticEnv (wholeEnv T n eqs c) (speciesVal db Props.mass) := by
  have hmu : ∀ A B, A ≤ B → B < n → ∀ w ∈ eqs A B,
      w.mu = ReducedMass.mk' (speciesVal db Props.mass A) (speciesVal db Props.mass B) := by
    intro A B hAB hB w hw
    rcases hdb.eqn A B hAB (by omega) w hw with ⟨eA, eB, -, d, hc⟩ | ⟨-, -, -, a, b, hA, hB, hmu, -⟩
    · obtain ⟨a, b, ha, hb, -, hmu, -⟩ := completeEq_ok hc
      rw [eA] at ha
      rw [eB] at hb
      simp only [Term.single, Int.toNat_natCast] at ha hb
      rw [hmu, speciesVal, speciesVal, ha, hb]
    · rw [hmu, speciesVal, speciesVal, hA, hB]
  refine ⟨hin, fun _ _ => rfl, ?_, ?_, hw, fun _ _ => rfl⟩
  · intro A B hAB hB e he
    obtain ⟨w, hw, rfl⟩ := List.mem_map.1 he
    funext p q s
    simp only [WEq.toEqn, WEq.act, (hel A B hAB hB w hw).1, Option.getD_some, hmu A B hAB hB w hw, hin]
    rfl
  · intro A B hAB hB e he
    obtain ⟨w, hw, rfl⟩ := List.mem_map.1 he
    have hs : Measurable fun v => okVal (w.cs.sigma v) := by
      rcases hdb.eqn A B hAB (lt_of_lt_of_le hB hn) w hw with ⟨-, -, -, d, hc⟩ | hcr
      · obtain ⟨a, b, -, -, -, -, hl, -⟩ := completeEq_ok hc
        exact measurable_load hl
      · exact (hel A B hAB hB w hw).2 hcr
    exact hs

omit [MeasurableSpace S] in
private theorem gasCell {T : Tools W} {db : Registry ℝ} {n : ℕ} {eqs : ℕ → ℕ → List (WEq W)} {c : CellConst S W}
    {st : DState (Part W) S ℝ} (hc : FullCell n N eqs st) :
    GasCell (wholeEnv T n eqs c) (speciesVal db Props.mass) (fun i : Fin N => massOf db (st.mem i)) st.mem st.range := by
  refine ⟨hc.wf, hc.le, hc.species, fun A hA p _ h1 h2 => ?_⟩
  show speciesVal db Props.mass (st.mem p).species.toNat = _
  rw [hc.species A hA p h1 h2]

omit [MeasurableSpace S] in
private theorem mass_pos {T : Tools W} {db : Registry ℝ} {n : ℕ} {eqs : ℕ → ℕ → List (WEq W)}
    {st : DState (Part W) S ℝ} (hdb : WholeDB T db eqs) (hn : n ≤ db.length) (hc : FullCell n N eqs st) (i : Fin N) :
    0 < massOf db (st.mem i) := by
  obtain ⟨A, hA, h1, h2⟩ := hc.cover i i.2
  unfold massOf speciesVal
  rw [hc.species A hA i h1 h2, List.getElem?_eq_getElem (by omega : A < db.length)]
  exact hdb.masses _ (List.getElem_mem _)

section run
variable {T : Tools W} {db : Registry ℝ} {n : ℕ} {eqs : ℕ → ℕ → List (WEq W)} {c : CellConst S W}
  {st : DState (Part W) S ℝ} {kT : ℝ}

omit [MeasurableSpace S] in
private theorem driver_run (hdb : WholeDB T db eqs) (hn : n ≤ db.length) (hel : AllElastic db n eqs)
    (hin : c.inplace = true) (hw : ∀ (p : Part W) v, c.weight { p with vel := v } = c.weight p)
    (hc : FullCell n N eqs st) (x x' : (Fin N → Vec) × S)
    (h : RunV (wholeEnv T n eqs c) (fun i : Fin N => massOf db (st.mem i)) st.mem st.range x () x') :
    ∃ fi fs st', driver (wholeEnv T n eqs c) fi fs (withVel st x) = .ok st' ∧ st'.mem = memOf st.mem x'.1 ∧
      st'.range = st.range ∧ st'.gen = x'.2 ∧ st'.results = st.results ∧ st'.erased = st.erased :=
  driver_simV (elasticEnv hdb hn hel hin hw) (gasCell hc)
    (fun A B hAB hB hne => hc.present A B hAB hB (by
      intro h0; exact hne (by show (eqs A B).map _ = []; rw [h0]; rfl)))
    (withVel st x) x.1 x' rfl rfl h

/-- **C106**  Almost surely a run on a gas in equilibrium finishes, and it changes nothing but velocities and the
generator: no particle is created, queued for removal, moved or turned into another species. -/
theorem C106_finishes (hdb : WholeDB T db eqs) (hn : n ≤ db.length) (hel : AllElastic db n eqs)
    (hin : c.inplace = true) (hrng : c.rng.IID μ) (hw : ∀ (p : Part W) v, c.weight { p with vel := v } = c.weight p)
    (hc : FullCell n N eqs st) (hT : 0 < kT) (d : Vec) :
    ∀ᵐ x ∂equilibrium μ kT d (fun i : Fin N => massOf db (st.mem i)),
      ∃ fi fs st', driver (wholeEnv T n eqs c) fi fs (withVel st x) = .ok st' ∧
        st' = { withVel st (runVel (wholeEnv T n eqs c) st x) with log := st'.log } := by
  have hp := prog_runV (d := d) hT (mass_pos hdb hn hc) (env := wholeEnv T n eqs c) hrng (elasticEnv hdb hn hel hin hw)
    (gasCell hc)
  filter_upwards [hp.ae_finishes] with x hx
  obtain ⟨a, x', h⟩ := hx
  obtain ⟨fi, fs, st', h1, h2, h3, h4, h5, h6⟩ := driver_run hdb hn hel hin hw hc x x' h
  refine ⟨fi, fs, st', h1, ?_⟩
  rw [runVel_eq _ _ _ _ _ _ h1]
  obtain ⟨mem, range, results, erased, log, gen⟩ := st'
  simp only at h2 h3 h4 h5 h6
  subst h2 h3 h4 h5 h6
  simp only [withVel, DState.mk.injEq, and_true]
  funext p
  by_cases hp : p < N <;> simp [memOf, hp]

/-- **C106**  Thermal equilibrium is stationary: if the velocities are thermal and independent before a run, they are
so after the run, at the same temperature and drift, and independent of the generator. -/
theorem C106_stationary (hdb : WholeDB T db eqs) (hn : n ≤ db.length) (hel : AllElastic db n eqs)
    (hin : c.inplace = true) (hrng : c.rng.IID μ) (hw : ∀ (p : Part W) v, c.weight { p with vel := v } = c.weight p)
    (hc : FullCell n N eqs st) (hT : 0 < kT) (d : Vec) :
    let eq := equilibrium μ kT d fun i : Fin N => massOf db (st.mem i)
    AEMeasurable (runVel (wholeEnv T n eqs c) st) eq ∧ eq.map (runVel (wholeEnv T n eqs c) st) = eq := by
  intro eq
  have hp := prog_runV (d := d) hT (mass_pos hdb hn hc) (env := wholeEnv T n eqs c) hrng (elasticEnv hdb hn hel hin hw)
    (gasCell hc)
  refine prog_map hp _ fun x x' h => ?_
  obtain ⟨fi, fs, st', h1, h2, h3, h4, h5, h6⟩ := driver_run hdb hn hel hin hw hc x x' h
  rw [runVel_eq _ _ _ _ _ _ h1, h2, h4]
  ext1
  · funext i
    simp [memOf]
  · rfl

/-- Velocities and generator after several runs, each with its own time step, volume, announced maxima and weights. -/
noncomputable def runsVel (T : Tools W) (n : ℕ) (eqs : ℕ → ℕ → List (WEq W)) (st : DState (Part W) S ℝ)
    (cs : List (CellConst S W)) (x : (Fin N → Vec) × S) : (Fin N → Vec) × S :=
  cs.foldl (fun x c => runVel (wholeEnv T n eqs c) st x) x

/-- **C106**  The same after any number of runs. -/
theorem C106_many_runs (hdb : WholeDB T db eqs) (hn : n ≤ db.length) (hel : AllElastic db n eqs)
    (hc : FullCell n N eqs st) (hT : 0 < kT) (d : Vec) (cs : List (CellConst S W))
    (hcs : ∀ c ∈ cs, c.inplace = true ∧ c.rng.IID μ ∧ ∀ (p : Part W) v, c.weight { p with vel := v } = c.weight p) :
    let eq := equilibrium μ kT d fun i : Fin N => massOf db (st.mem i)
    AEMeasurable (runsVel T n eqs st cs) eq ∧ eq.map (runsVel T n eqs st cs) = eq := by
  intro eq
  induction cs with
  | nil =>
    have : (runsVel T n eqs st [] : (Fin N → Vec) × S → _) = id := rfl
    rw [this]
    exact ⟨aemeasurable_id, Measure.map_id⟩
  | cons c cs ih =>
    obtain ⟨h1, h2⟩ := ih fun c hc => hcs c (List.mem_cons_of_mem _ hc)
    obtain ⟨hin, hrng, hw⟩ := hcs c List.mem_cons_self
    obtain ⟨h3, h4⟩ := C106_stationary (c := c) hdb hn hel hin hrng hw hc hT d
    have hcomp : (runsVel T n eqs st (c :: cs) : (Fin N → Vec) × S → _) =
        runsVel T n eqs st cs ∘ runVel (wholeEnv T n eqs c) st := rfl
    have h1' : AEMeasurable (runsVel T n eqs st cs) (eq.map (runVel (wholeEnv T n eqs c) st)) := by
      rw [h4]; exact h1
    rw [hcomp]
    exact ⟨h1'.comp_aemeasurable h3, by rw [← AEMeasurable.map_map_of_aemeasurable h1' h3, h4, h2]⟩

end run

/-! ### The temperature -/

theorem thermal_map_x (kT : ℝ) (d : Vec) (m : ℝ) :
    (thermal kT d m).map Vec.x = gaussianReal d.x (kT / m).toNNReal := by
  unfold thermal
  rw [Measure.map_map Vec.measurable_x Vec.measurable_ofTriple]
  exact Measure.map_fst_prod.trans (by simp)

theorem thermal_map_y (kT : ℝ) (d : Vec) (m : ℝ) :
    (thermal kT d m).map Vec.y = gaussianReal d.y (kT / m).toNNReal := by
  unfold thermal
  rw [Measure.map_map Vec.measurable_y Vec.measurable_ofTriple]
  have : Vec.y ∘ Vec.ofTriple = Prod.fst ∘ Prod.snd := rfl
  rw [this, ← Measure.map_map measurable_fst measurable_snd, Measure.map_snd_prod]
  simp [Measure.map_fst_prod]

theorem thermal_map_z (kT : ℝ) (d : Vec) (m : ℝ) :
    (thermal kT d m).map Vec.z = gaussianReal d.z (kT / m).toNNReal := by
  unfold thermal
  rw [Measure.map_map Vec.measurable_z Vec.measurable_ofTriple]
  have : Vec.z ∘ Vec.ofTriple = Prod.snd ∘ Prod.snd := rfl
  rw [this, ← Measure.map_map measurable_snd measurable_snd, Measure.map_snd_prod]
  simp [Measure.map_snd_prod]

private theorem second_moment {c : Vec → ℝ} (hc : Measurable c) {kT m e : ℝ} (hT : 0 < kT) (hm : 0 < m) {d : Vec}
    (h : (thermal kT d m).map c = gaussianReal e (kT / m).toNNReal) :
    Integrable (fun v => (c v - e) ^ 2) (thermal kT d m) ∧ ∫ v, (c v - e) ^ 2 ∂thermal kT d m = kT / m := by
  have hi : Integrable (fun x : ℝ => (x - e) ^ 2) (gaussianReal e (kT / m).toNNReal) :=
    ((memLp_id_gaussianReal 2).sub (memLp_const e)).integrable_sq
  have hf : Measurable (fun x : ℝ => (x - e) ^ 2) := by fun_prop
  constructor
  · rw [← h] at hi
    exact hi.comp_measurable hc
  · have h1 : ∫ v, (c v - e) ^ 2 ∂thermal kT d m = ∫ x, (x - e) ^ 2 ∂(thermal kT d m).map c := by
      rw [integral_map hc.aemeasurable hf.aestronglyMeasurable]
    rw [h1, h]
    have h2 := variance_fun_id_gaussianReal (μ := e) (v := (kT / m).toNNReal)
    rw [variance_eq_integral measurable_id'.aemeasurable, integral_id_gaussianReal] at h2
    rw [h2, Real.coe_toNNReal _ (div_pos hT hm).le]

/-- A particle with thermal velocity has the mean kinetic energy `3/2 kT` in the frame of the drift. -/
theorem thermal_mean_energy {kT m : ℝ} (hT : 0 < kT) (hm : 0 < m) (d : Vec) :
    Integrable (fun v => ke m (v - d)) (thermal kT d m) ∧ ∫ v, ke m (v - d) ∂thermal kT d m = 3 / 2 * kT := by
  obtain ⟨ix, ex⟩ := second_moment Vec.measurable_x hT hm (thermal_map_x kT d m)
  obtain ⟨iy, ey⟩ := second_moment Vec.measurable_y hT hm (thermal_map_y kT d m)
  obtain ⟨iz, ez⟩ := second_moment Vec.measurable_z hT hm (thermal_map_z kT d m)
  have he : (fun v : Vec => ke m (v - d)) = fun v => m / 2 * ((v.x - d.x) ^ 2 + (v.y - d.y) ^ 2 + (v.z - d.z) ^ 2) := by
    funext v
    simp only [ke, Vec.normSq, Vec.sub_def]
    ring
  rw [he]
  refine ⟨((ix.add iy).add iz).const_mul _, ?_⟩
  have h2 : Integrable (fun v : Vec => (v.x - d.x) ^ 2 + (v.y - d.y) ^ 2) (thermal kT d m) := ix.add iy
  rw [integral_const_mul, integral_add h2 iz, integral_add ix iy, ex, ey, ez]
  field_simp
  norm_num

/-- **C106**  After any number of runs every particle, of whatever mass, has the mean kinetic energy `3/2 kT` in the
frame of the drift. -/
theorem C106_temperature {T : Tools W} {db : Registry ℝ} {n : ℕ} {eqs : ℕ → ℕ → List (WEq W)}
    {st : DState (Part W) S ℝ} {kT : ℝ} (hdb : WholeDB T db eqs) (hn : n ≤ db.length) (hel : AllElastic db n eqs)
    (hc : FullCell n N eqs st) (hT : 0 < kT) (d : Vec) (cs : List (CellConst S W))
    (hcs : ∀ c ∈ cs, c.inplace = true ∧ c.rng.IID μ ∧ ∀ (p : Part W) v, c.weight { p with vel := v } = c.weight p)
    (i : Fin N) :
    let eq := equilibrium μ kT d fun i : Fin N => massOf db (st.mem i)
    ∫ x, ke (massOf db (st.mem i)) ((runsVel T n eqs st cs x).1 i - d) ∂eq = 3 / 2 * kT := by
  intro eq
  obtain ⟨h1, h2⟩ := C106_many_runs (μ := μ) hdb hn hel hc hT d cs hcs
  have hk : Measurable fun v : Vec => ke (massOf db (st.mem i)) (v - d) := by
    have : (fun v : Vec => ke (massOf db (st.mem i)) (v - d)) = fun v =>
        massOf db (st.mem i) / 2 * ((v.x - d.x) ^ 2 + (v.y - d.y) ^ 2 + (v.z - d.z) ^ 2) := by
      funext v
      simp only [ke, Vec.normSq, Vec.sub_def]
      ring
    rw [this]
    exact (((Vec.measurable_x.sub_const _).pow_const 2).add ((Vec.measurable_y.sub_const _).pow_const 2) |>.add
      ((Vec.measurable_z.sub_const _).pow_const 2)).const_mul _
  have hi : Measurable fun x : (Fin N → Vec) × S => x.1 i := (measurable_pi_apply i).comp measurable_fst
  have e1 : ∫ x, ke (massOf db (st.mem i)) ((runsVel T n eqs st cs x).1 i - d) ∂eq =
      ∫ x : (Fin N → Vec) × S, ke (massOf db (st.mem i)) (x.1 i - d) ∂eq.map (runsVel T n eqs st cs) :=
    (integral_map h1 (hk.comp hi).aestronglyMeasurable).symm
  rw [e1, h2]
  have hm : eq.map (fun x : (Fin N → Vec) × S => x.1 i) = thermal kT d (massOf db (st.mem i)) := by
    have : (fun x : (Fin N → Vec) × S => x.1 i) = Function.eval i ∘ Prod.fst := rfl
    rw [this, ← Measure.map_map (measurable_pi_apply i) measurable_fst]
    show Measure.map _ (Measure.map Prod.fst ((Measure.pi fun k : Fin N => thermal kT d (massOf db (st.mem k))).prod μ)) = _
    rw [Measure.map_fst_prod, measure_univ, one_smul]
    exact (measurePreserving_eval (fun k : Fin N => thermal kT d (massOf db (st.mem k))) i).map_eq
  rw [← (thermal_mean_energy hT (mass_pos hdb hn hc i) d).2, ← hm, integral_map hi.aemeasurable hk.aestronglyMeasurable]

/-! ### VSS scattering -/

private theorem thermal_box (kT : ℝ) (hT : 0 < kT) (d : Vec) {m : ℝ} (hm : 0 < m) {a b a' b' : ℝ} (hab : a < b)
    (hab' : a' < b') : thermal kT d m {v | v.y ∈ Ioo a b ∧ v.z ∈ Ioo a' b'} ≠ 0 := by
  have hv : (kT / m).toNNReal ≠ 0 := by
    rw [Ne, Real.toNNReal_eq_zero, not_le]; positivity
  have hset : MeasurableSet {v : Vec | v.y ∈ Ioo a b ∧ v.z ∈ Ioo a' b'} :=
    (Vec.measurable_y measurableSet_Ioo).inter (Vec.measurable_z measurableSet_Ioo)
  have hg : ∀ (e l u : ℝ), l < u → gaussianReal e (kT / m).toNNReal (Ioo l u) ≠ 0 := by
    intro e l u hlu h0
    have := gaussianReal_absolutelyContinuous' e hv h0
    rw [Real.volume_Ioo, ENNReal.ofReal_eq_zero] at this
    linarith
  unfold thermal
  rw [Measure.map_apply Vec.measurable_ofTriple hset]
  have : Vec.ofTriple ⁻¹' {v : Vec | v.y ∈ Ioo a b ∧ v.z ∈ Ioo a' b'} = Set.univ ×ˢ (Ioo a b ×ˢ Ioo a' b') := by
    ext ⟨x, y, z⟩
    simp [Vec.ofTriple]
  rw [this, Measure.prod_prod, Measure.prod_prod, measure_univ, one_mul]
  exact mul_ne_zero (hg _ _ _ hab) (hg _ _ _ hab')

private theorem ke_integrable {kT m : ℝ} (hT : 0 < kT) (hm : 0 < m) :
    Integrable (fun v => ke m v) (thermal kT 0 m) ∧ ∫ v, ke m v ∂thermal kT 0 m = 3 / 2 * kT := by
  have h := thermal_mean_energy hT hm 0
  have e : (fun v : Vec => ke m (v - 0)) = fun v => ke m v := by funext v; rw [sub_zero]
  rwa [e] at h

/-- **C106**  VSS scattering does not keep equilibrium: two particles with thermal velocities have the mean energy `3 kT`
before the collision and strictly less after it, because pairs whose relative velocity is nearly along the x axis lose
energy (C46). -/
theorem C106_vss_cools (pow : ℝ → ℝ → ℝ) (paramInv : ℝ)
    (hpow : ∀ u, 0 ≤ u → u ≤ 1 → 0 ≤ pow u paramInv ∧ pow u paramInv ≤ 1) {rng : RNG S ℝ} (hr : rng.Unit) {kT m1 m2 : ℝ}
    (hT : 0 < kT) (h1 : 0 < m1) (h2 : 0 < m2) (p q : Part W) :
    let eq := ((thermal kT 0 m1).prod (thermal kT 0 m2)).prod μ
    let after := fun x : (Vec × Vec) × S =>
      let r := vssAct pow paramInv rng (ReducedMass.mk' m1 m2) true { p with vel := x.1.1 } { q with vel := x.1.2 } x.2
      ke m1 r.1.vel + ke m2 r.2.1.vel
    ∫ x, (ke m1 x.1.1 + ke m2 x.1.2) ∂eq = 3 * kT ∧ Integrable after eq ∧ ∫ x, after x ∂eq < 3 * kT := by
  intro eq after
  let D : (Vec × Vec) × S → ℝ := fun x => √((x.1.1 - x.1.2).y ^ 2 + (x.1.1 - x.1.2).z ^ 2)
  let c := 1 / 2 * (m1 * m2 / (m1 + m2))
  have hc : 0 < c := by positivity
  let L : (Vec × Vec) × S → ℝ := fun x => if D x ≤ 1 / 1000000 then c * D x ^ 2 else 0
  have hL : ∀ x, after x = ke m1 x.1.1 + ke m2 x.1.2 - L x := by
    intro x
    obtain ⟨a, b, he, -, -, hbig, hsmall⟩ := C46_vss pow paramInv hpow rng hr h1 h2 true { p with vel := x.1.1 }
      { q with vel := x.1.2 } x.2
    have hafter : after x = ke m1 a + ke m2 b := by
      simp only [after, he, collided]
      rfl
    rw [hafter]
    by_cases hD : D x ≤ 1 / 1000000
    · simp only [L, if_pos hD]
      exact hsmall hD
    · simp only [L, if_neg hD, sub_zero]
      exact (hbig (.inl (not_le.1 hD))).1
  have m11 : Measurable fun x : (Vec × Vec) × S => x.1.1 := measurable_fst.comp measurable_fst
  have m12 : Measurable fun x : (Vec × Vec) × S => x.1.2 := measurable_snd.comp measurable_fst
  have mD : Measurable D := by
    have hs := measurable_sub_vec m11 m12
    exact (((Vec.measurable_y.comp hs).pow_const 2).add ((Vec.measurable_z.comp hs).pow_const 2)).sqrt
  have mL : Measurable L :=
    Measurable.ite (measurableSet_le mD measurable_const) ((mD.pow_const 2).const_mul c) measurable_const
  have hLb : ∀ x, 0 ≤ L x ∧ L x ≤ c := by
    intro x
    have h0 : 0 ≤ D x := Real.sqrt_nonneg _
    simp only [L]
    split
    · rename_i hD
      exact ⟨by positivity, by nlinarith [mul_le_mul_of_nonneg_left (show D x ^ 2 ≤ 1 by nlinarith) hc.le]⟩
    · exact ⟨le_rfl, hc.le⟩
  have iL : Integrable L eq := by
    refine Integrable.of_bound mL.aestronglyMeasurable c (Filter.Eventually.of_forall fun x => ?_)
    rw [Real.norm_eq_abs, abs_of_nonneg (hLb x).1]
    exact (hLb x).2
  obtain ⟨i1, e1⟩ := ke_integrable hT h1
  obtain ⟨i2, e2⟩ := ke_integrable hT h2
  have j1 : Integrable (fun x : (Vec × Vec) × S => ke m1 x.1.1) eq := (i1.comp_fst _).comp_fst _
  have j2 : Integrable (fun x : (Vec × Vec) × S => ke m2 x.1.2) eq := (i2.comp_snd _).comp_fst _
  have hbefore : ∫ x, (ke m1 x.1.1 + ke m2 x.1.2) ∂eq = 3 * kT := by
    rw [integral_add j1 j2]
    have f1 : ∫ x : (Vec × Vec) × S, ke m1 x.1.1 ∂eq = 3 / 2 * kT := by
      rw [← e1, integral_fun_fst (μ := (thermal kT 0 m1).prod (thermal kT 0 m2)) (ν := μ) fun y : Vec × Vec => ke m1 y.1,
        integral_fun_fst (μ := thermal kT 0 m1) (ν := thermal kT 0 m2) fun y : Vec => ke m1 y]
      simp
    have f2 : ∫ x : (Vec × Vec) × S, ke m2 x.1.2 ∂eq = 3 / 2 * kT := by
      rw [← e2, integral_fun_fst (μ := (thermal kT 0 m1).prod (thermal kT 0 m2)) (ν := μ) fun y : Vec × Vec => ke m2 y.2,
        integral_fun_snd (μ := thermal kT 0 m1) (ν := thermal kT 0 m2) fun y : Vec => ke m2 y]
      simp
    rw [f1, f2]
    ring
  have hae : after = fun x => ke m1 x.1.1 + ke m2 x.1.2 - L x := funext hL
  refine ⟨hbefore, by rw [hae]; exact (j1.add j2).sub iL, ?_⟩
  have hj : Integrable (fun x : (Vec × Vec) × S => ke m1 x.1.1 + ke m2 x.1.2) eq := j1.add j2
  rw [hae, integral_sub hj iL, hbefore]
  have hpos : 0 < ∫ x, L x ∂eq := by
    rw [integral_pos_iff_support_of_nonneg (fun x => (hLb x).1) iL]
    let E1 : Set Vec := {v | v.y ∈ Ioo (0 : ℝ) (1 / 10000000) ∧ v.z ∈ Ioo (0 : ℝ) (1 / 10000000)}
    let E2 : Set Vec := {v | v.y ∈ Ioo (4 / 10000000 : ℝ) (5 / 10000000) ∧ v.z ∈ Ioo (0 : ℝ) (1 / 10000000)}
    have hsub : (E1 ×ˢ E2) ×ˢ (Set.univ : Set S) ⊆ Function.support L := by
      rintro ⟨⟨v, w⟩, s⟩ ⟨⟨⟨⟨a1, a2⟩, a3, a4⟩, ⟨b1, b2⟩, b3, b4⟩, -⟩
      simp only at a1 a2 a3 a4 b1 b2 b3 b4
      have hD0 : 0 < D ((v, w), s) := by
        refine Real.sqrt_pos.2 ?_
        simp only [Vec.sub_def]
        nlinarith [sq_nonneg (v.z - w.z)]
      have hD1 : D ((v, w), s) ≤ 1 / 1000000 := by
        refine Real.sqrt_le_iff.2 ⟨by norm_num, ?_⟩
        simp only [Vec.sub_def]
        have t1 : (v.y - w.y) ^ 2 ≤ (5 / 10000000) ^ 2 := sq_le_sq' (by linarith) (by linarith)
        have t2 : (v.z - w.z) ^ 2 ≤ (1 / 10000000) ^ 2 := sq_le_sq' (by linarith) (by linarith)
        linarith
      have hp : 0 < c * D ((v, w), s) ^ 2 := by positivity
      rw [Function.mem_support]
      simp only [L, if_pos hD1]
      exact hp.ne'
    refine lt_of_lt_of_le ?_ (measure_mono hsub)
    show 0 < (((thermal kT 0 m1).prod (thermal kT 0 m2)).prod μ) _
    rw [Measure.prod_prod, Measure.prod_prod, measure_univ, mul_one]
    exact pos_iff_ne_zero.2 (mul_ne_zero (thermal_box kT hT 0 h1 (by norm_num) (by norm_num))
      (thermal_box kT hT 0 h2 (by norm_num) (by norm_num)))
  linarith

/-! ### Examples -/

namespace ThermalExample

open RateExample

/-- Two electrons and a hydrogen atom. -/
def gas : DState (Part Unit) (ℕ → ℝ) ℝ where
  mem k := if k < 2 then ⟨0, 0, 0, ()⟩ else ⟨0, 0, 1, ()⟩
  range A := if A = 0 then (0, 2) else (2, 3)
  results := []
  erased := []
  log := []
  gen := fun _ => 0

noncomputable def cell : CellConst (ℕ → ℝ) Unit := ⟨fun _ _ => 5, 1, 2, fun _ => 1, true, streamRNG⟩

theorem full (eqs : ℕ → ℕ → List (WEq Unit)) : FullCell 2 3 eqs gas := by
  refine ⟨⟨?_, ?_⟩, ?_, ?_, ?_, ?_⟩
  · intro A _; unfold gas; dsimp only; split <;> decide
  · intro A hA B hB hAB p
    unfold gas; dsimp only
    split <;> split <;> omega
  · intro A _; unfold gas; dsimp only; split <;> decide
  · intro p hp
    by_cases h : p < 2
    · exact ⟨0, by omega, by simp [gas], by simpa [gas] using h⟩
    · exact ⟨1, by omega, by simp [gas]; omega, by simpa [gas] using hp⟩
  · intro A hA p h1 h2
    unfold gas at h1 h2 ⊢; dsimp only at h1 h2 ⊢
    split at h1 <;> rename_i hA0
    · rw [if_pos hA0] at h2; rw [if_pos h2, hA0]; rfl
    · rw [if_neg (by omega)]
      show 1 = A
      omega
  · intro A B _ _ _
    unfold gas; dsimp only
    split <;> split <;> decide

/-- The hypotheses hold for electrons and hydrogen with elastic scattering; after three runs the atom still has the mean
energy `3/2 kT`, and the runs finish almost surely. -/
example (T : Tools Unit) (kT : ℝ) (hT : 0 < kT) (d : Vec) : ∃ w : WEq Unit,
    completeEq T exReal (scatter "elastic") { cs := .constant 3 none } = .ok w ∧
    let eqs := fun A B => if A = 0 ∧ B = 1 then [w] else []
    let eq := equilibrium iidUnif kT d fun i : Fin 3 => massOf exReal (gas.mem i)
    eq.map (runVel (wholeEnv T 2 eqs cell) gas) = eq ∧
    ∫ x, ke 2000 ((runsVel T 2 eqs gas [cell, cell, cell] x).1 2 - d) ∂eq = 3 / 2 * kT ∧
    ∀ᵐ x ∂eq, ∃ fi fs st', driver (wholeEnv T 2 eqs cell) fi fs (withVel gas x) = .ok st' := by
  have hw := completeEq_of T (db := exReal) (e := scatter "elastic") (d := { cs := .constant 3 none })
    (a := ⟨"e", 1, -1⟩) (b := ⟨"H", 2000, 0⟩) rfl rfl rfl (plain_load T) rfl
  refine ⟨_, hw, ?_⟩
  intro eqs eq
  have hwf : WellFormed exReal (scatter "elastic") :=
    ⟨⟨_, rfl⟩, ⟨_, rfl⟩, by simp [scatter, Term.single], by simp [scatter, Term.single],
      by simp [scatter, Term.single, exReal]⟩
  have hdb : WholeDB T exReal eqs := by
    refine ⟨exReal_pos, fun A B _ _ x hx => ?_⟩
    simp only [eqs] at hx
    split at hx
    · rename_i h
      obtain ⟨rfl, rfl⟩ := h
      rw [List.mem_singleton] at hx
      subst hx
      exact .inl ⟨rfl, rfl, hwf, _, hw⟩
    · cases hx
  have hel : AllElastic exReal 2 eqs := by
    intro A B _ _ x hx
    simp only [eqs] at hx
    split at hx
    · rw [List.mem_singleton] at hx
      subst hx
      exact ⟨rfl, fun _ => measurable_load (plain_load T)⟩
    · cases hx
  have hn : 2 ≤ exReal.length := by simp [exReal]
  refine ⟨(C106_stationary hdb hn hel rfl streamRNG_iid (fun _ _ => rfl) (full eqs) hT d).2, ?_, ?_⟩
  · have h := C106_temperature (μ := iidUnif) hdb hn hel (full eqs) hT d [cell, cell, cell] (by
      intro c hc
      have : c = cell := by simpa using hc
      subst this
      exact ⟨rfl, streamRNG_iid, fun _ _ => rfl⟩) 2
    exact h
  · filter_upwards [C106_finishes hdb hn hel (c := cell) rfl streamRNG_iid (fun _ _ => rfl) (full eqs) hT d] with x hx
    obtain ⟨fi, fs, st', h, -⟩ := hx
    exact ⟨fi, fs, st', h⟩

/-- A generator of independent uniform numbers that never leaves the unit interval. -/
noncomputable def clipped : RNG (ℕ → ℝ) ℝ :=
  ⟨fun s => (max 0 (min 1 (s 0)), fun j => s (j + 1)), fun s => (max 0 (min 1 (s 0)), fun j => s (j + 1))⟩

/-- VSS scattering with that generator. -/
example (kT : ℝ) (hT : 0 < kT) :
    ∫ x, (let r := vssAct (W := Unit) (fun u _ => u) 1 clipped (ReducedMass.mk' 1 2000) true
              ⟨0, x.1.1, 0, ()⟩ ⟨0, x.1.2, 1, ()⟩ x.2
      ke 1 r.1.vel + ke 2000 r.2.1.vel) ∂((thermal kT 0 1).prod (thermal kT 0 2000)).prod iidUnif < 3 * kT :=
  (C106_vss_cools (μ := iidUnif) (W := Unit) (fun u _ => u) 1 (fun u h0 h1 => ⟨h0, h1⟩) (rng := clipped)
    (fun s => ⟨le_max_left _ _, max_le zero_le_one (min_le_left _ _)⟩) hT one_pos (by norm_num)
    ⟨0, 0, 0, ()⟩ ⟨0, 0, 1, ()⟩).2.2

end ThermalExample

end Chimp
