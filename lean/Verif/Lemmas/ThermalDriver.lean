import Verif.Lemmas.Thermal

/-!
# The in-place driver on a gas with elastic interactions as a random program

The program acts on the velocities of all particles and the generator together (`Prog` of `Lemmas/Random.lean`).
-/

namespace Chimp

open MeasureTheory Real Set
open scoped ENNReal

variable {S W : Type} [MeasurableSpace S] {μ : Measure S} [IsProbabilityMeasure μ] {N : ℕ}

/-! ### One pair test -/

section step
variable (rng : RNG S ℝ) (rhs : List (Eqn (Part W) S ℝ)) (M : ℝ) (mu : ReducedMass ℝ) (i j : Fin N)

/-- Sum of the cross sections. -/
noncomputable def totAt (r : ℝ) : ℝ := csTotal (rhs.map fun e => e.sigma r)

/-- Index of the chosen equation. -/
noncomputable def firstAt (r w : ℝ) : ℤ := pickFirst (rhs.map fun e => e.sigma r) 0 0 (w * totAt rhs r)

/-- Relative speed of the two particles. -/
noncomputable def speedAt (V : Fin N → Vec) : ℝ := (V i - V j).abs

open Classical in
/-- What happens to an accepted pair. -/
noncomputable def acceptAt (x : (Fin N → Vec) × S) : (Fin N → Vec) × S :=
  if 0 ≤ firstAt rhs (speedAt i j x.1) (rng.randExc x.2).1 then collideAt rng mu i j (x.1, (rng.randExc x.2).2)
  else (x.1, (rng.randExc x.2).2)

open Classical in
/-- The effect of a pair test on velocities and generator. -/
noncomputable def stepAt (x : (Fin N → Vec) × S) : (Fin N → Vec) × S :=
  if (rng.rand x.2).1 * M > totAt rhs (speedAt i j x.1) * speedAt i j x.1 then (x.1, (rng.rand x.2).2)
  else acceptAt rng rhs mu i j (x.1, (rng.rand x.2).2)

theorem measurable_speedAt : Measurable (speedAt i j) :=
  measurable_abs_vec.comp (measurable_sub_vec (measurable_pi_apply i) (measurable_pi_apply j))

omit [MeasurableSpace S] in
theorem measurable_totAt {rhs : List (Eqn (Part W) S ℝ)} (hσ : ∀ e ∈ rhs, Measurable e.sigma) :
    Measurable (totAt rhs) := by
  unfold totAt csTotal
  have : ∀ (l : List (Eqn (Part W) S ℝ)), (∀ e ∈ l, Measurable e.sigma) → ∀ f : ℝ → ℝ, Measurable f →
      Measurable (fun r => (l.map fun e => e.sigma r).foldl (· + ·) (f r)) := by
    intro l
    induction l with
    | nil => intro _ f hf; simpa using hf
    | cons e l ih =>
      intro hl f hf
      simp only [List.map_cons, List.foldl_cons]
      exact ih (fun e he => hl e (List.mem_cons_of_mem _ he)) _ (hf.add (hl e List.mem_cons_self))
  exact this rhs hσ _ measurable_const

omit [MeasurableSpace S] in
theorem measurable_firstAt {rhs : List (Eqn (Part W) S ℝ)} (hσ : ∀ e ∈ rhs, Measurable e.sigma) :
    Measurable (fun x : ℝ × ℝ => firstAt rhs x.1 x.2) := by
  have : ∀ (l : List (Eqn (Part W) S ℝ)), (∀ e ∈ l, Measurable e.sigma) → ∀ (k : ℕ) (f g : ℝ × ℝ → ℝ), Measurable f →
      Measurable g → Measurable (fun x => pickFirst (l.map fun e => e.sigma x.1) (f x) k (g x)) := by
    intro l
    induction l with
    | nil => intro _ k f g _ _; exact measurable_const
    | cons e l ih =>
      intro hl k f g hf hg
      have he : Measurable (fun x : ℝ × ℝ => e.sigma x.1) := (hl e List.mem_cons_self).comp measurable_fst
      have h1 : (fun x : ℝ × ℝ => pickFirst ((e :: l).map fun e => e.sigma x.1) (f x) k (g x)) =
          fun x => if f x + e.sigma x.1 > g x then (k : ℤ) else
            pickFirst (l.map fun e => e.sigma x.1) (f x + e.sigma x.1) (k + 1) (g x) := by
        funext x
        simp only [pickFirst, pickLoop, List.map_cons]
        by_cases h : f x + e.sigma x.1 > g x <;> simp [h]
      rw [h1]
      exact Measurable.ite (measurableSet_lt hg (hf.add he)) measurable_const
        (ih (fun e he => hl e (List.mem_cons_of_mem _ he)) _ _ _ (hf.add he) hg)
  exact this rhs hσ 0 _ _ measurable_const (measurable_snd.mul ((measurable_totAt hσ).comp measurable_fst))

theorem speedAt_collideAt {m1 m2 : ℝ} (h1 : 0 < m1) (h2 : 0 < m2) (hij : i ≠ j) (x : (Fin N → Vec) × S)
    (hs : (rng.rand x.2).1 ∈ Ico (0 : ℝ) 1) :
    speedAt i j (collideAt rng (ReducedMass.mk' m1 m2) i j x).1 = speedAt i j x.1 := by
  unfold speedAt collideAt
  simp only [Function.update_self, Function.update_of_ne hij]
  rw [collidePair_relative h1 h2]
  show √ _ = _
  rw [isoVec_normSq rng _ _ hs]
  exact sqrt_sq (Real.sqrt_nonneg _)

end step

section preserving
variable {kT : ℝ} {d : Vec} {m : Fin N → ℝ} {rng : RNG S ℝ}

omit [IsProbabilityMeasure μ] in
theorem ae_state {X : Type} [MeasurableSpace X] {κ : Measure X} [SFinite κ] {P : S → Prop} (h : ∀ᵐ s ∂μ, P s) :
    ∀ᵐ x ∂κ.prod μ, P x.2 :=
  Measure.quasiMeasurePreserving_snd.ae h

theorem RNG.IID.ae_next_exc {rng : RNG S ℝ} (h : rng.IID μ) {P : S → Prop} (hP : ∀ᵐ s ∂μ, P s) :
    ∀ᵐ s ∂μ, P (rng.randExc s).2 :=
  h.exc_preserving.quasiMeasurePreserving.ae hP

theorem ae_good (h : rng.IID μ) : ∀ᵐ s ∂μ, (rng.rand (rng.randExc s).2).1 ∈ Ico (0 : ℝ) 1 :=
  h.ae_next_exc h.ae_mem

open Classical in
theorem acceptAt_preserving (hT : 0 < kT) (hm : ∀ i, 0 < m i) (h : rng.IID μ) {i j : Fin N} (hij : i ≠ j)
    {rhs : List (Eqn (Part W) S ℝ)} (hσ : ∀ e ∈ rhs, Measurable e.sigma) :
    MeasurePreserving (acceptAt rng rhs (ReducedMass.mk' (m i) (m j)) i j)
      ((Measure.pi fun k => thermal kT d (m k)).prod μ) ((Measure.pi fun k => thermal kT d (m k)).prod μ) := by
  have hc := collideAt_preserving hT d m hm h hij
  have hf : Measurable (fun x : ℝ × (Fin N → Vec) × S => firstAt rhs (speedAt i j x.2.1) x.1) :=
    (measurable_firstAt hσ).comp (((measurable_speedAt i j).comp (measurable_fst.comp measurable_snd)).prodMk measurable_fst)
  have hset : MeasurableSet {x : ℝ × (Fin N → Vec) × S | 0 ≤ firstAt rhs (speedAt i j x.2.1) x.1} :=
    hf measurableSet_Ici
  refine preserving_draw h.exc_meas h.exc_law (Φ := fun x => if 0 ≤ firstAt rhs (speedAt i j x.2.1) x.1 then
    collideAt rng (ReducedMass.mk' (m i) (m j)) i j x.2 else x.2) ?_ fun w => ?_
  · exact Measurable.ite hset (hc.measurable.comp measurable_snd) measurable_snd
  · refine preserving_ite hc (MeasurePreserving.id _) (C := fun x => 0 ≤ firstAt rhs (speedAt i j x.1) w) ?_ ?_ ?_
    · exact (hf.comp (measurable_const.prodMk measurable_id)) measurableSet_Ici
    · filter_upwards [ae_state (κ := Measure.pi fun k => thermal kT d (m k)) h.ae_mem] with x hx
      rw [speedAt_collideAt rng i j (hm i) (hm j) hij x hx]
    · exact Filter.Eventually.of_forall fun x => Iff.rfl

open Classical in
theorem stepAt_preserving (hT : 0 < kT) (hm : ∀ i, 0 < m i) (h : rng.IID μ) {i j : Fin N} (hij : i ≠ j)
    {rhs : List (Eqn (Part W) S ℝ)} (hσ : ∀ e ∈ rhs, Measurable e.sigma) (M : ℝ) :
    MeasurePreserving (stepAt rng rhs M (ReducedMass.mk' (m i) (m j)) i j)
      ((Measure.pi fun k => thermal kT d (m k)).prod μ) ((Measure.pi fun k => thermal kT d (m k)).prod μ) := by
  have ha := acceptAt_preserving (d := d) hT hm h hij hσ
  have hs : Measurable (fun x : ℝ × (Fin N → Vec) × S => speedAt i j x.2.1) :=
    (measurable_speedAt i j).comp (measurable_fst.comp measurable_snd)
  have hset : MeasurableSet {x : ℝ × (Fin N → Vec) × S |
      x.1 * M > totAt rhs (speedAt i j x.2.1) * speedAt i j x.2.1} :=
    measurableSet_lt (((measurable_totAt hσ).comp hs).mul hs) (measurable_fst.mul_const M)
  refine preserving_draw h.rand_meas h.rand_law (Φ := fun x => if x.1 * M > totAt rhs (speedAt i j x.2.1) *
    speedAt i j x.2.1 then x.2 else acceptAt rng rhs (ReducedMass.mk' (m i) (m j)) i j x.2) ?_ fun u => ?_
  · exact Measurable.ite hset measurable_snd (ha.measurable.comp measurable_snd)
  · refine preserving_ite (MeasurePreserving.id _) ha
      (C := fun x => u * M > totAt rhs (speedAt i j x.1) * speedAt i j x.1) ?_ ?_ ?_
    · exact (measurable_const.prodMk measurable_id (f := fun _ : (Fin N → Vec) × S => u)) hset
    · exact Filter.Eventually.of_forall fun x => Iff.rfl
    · filter_upwards [ae_state (κ := Measure.pi fun k => thermal kT d (m k)) (ae_good h)] with x hx
      have : speedAt i j (acceptAt rng rhs (ReducedMass.mk' (m i) (m j)) i j x).1 = speedAt i j x.1 := by
        unfold acceptAt
        split
        · exact speedAt_collideAt rng i j (hm i) (hm j) hij (x.1, (rng.randExc x.2).2) hx
        · rfl
      rw [this]

end preserving

/-! ### The model's pair test is this map -/

/-- The memory of a cell in which only the velocities of the first `N` particles are left open. -/
def memOf (base : ℕ → Part W) (V : Fin N → Vec) : ℕ → Part W :=
  fun p => if h : p < N then { base p with vel := V ⟨p, h⟩ } else base p

/-- What is used of the surroundings of the driver. -/
structure ElasticEnv (env : DriverEnv (Part W) S ℝ) (mass : ℕ → ℝ) : Prop where
  inplace : env.inplace = true
  speed : ∀ p q, env.relSpeed p q = (p.vel - q.vel).abs
  act : ∀ A B, A ≤ B → B < env.nSpecies → ∀ e ∈ env.rhs A B,
    e.act = elasticAct env.rng (ReducedMass.mk' (mass A) (mass B)) true
  sigma : ∀ A B, A ≤ B → B < env.nSpecies → ∀ e ∈ env.rhs A B, Measurable e.sigma
  weight : ∀ p v, env.weight { p with vel := v } = env.weight p
  species : ∀ p v, env.species { p with vel := v } = env.species p

omit [MeasurableSpace S] in
theorem memOf_vel (base : ℕ → Part W) (V : Fin N → Vec) {p : ℕ} (hp : p < N) : (memOf base V p).vel = V ⟨p, hp⟩ := by
  simp [memOf, hp]

omit [MeasurableSpace S] in
theorem memOf_update (base : ℕ → Part W) (V : Fin N → Vec) {p q : ℕ} (hp : p < N) (hq : q < N) (a b : Vec) :
    Function.update (Function.update (memOf base V) p { memOf base V p with vel := a }) q
      { memOf base V q with vel := b } =
      memOf base (Function.update (Function.update V ⟨p, hp⟩ a) ⟨q, hq⟩ b) := by
  funext k
  by_cases hkq : k = q
  · subst hkq; simp [memOf, hq]
  · by_cases hkp : k = p
    · subst hkp
      have : (⟨k, hp⟩ : Fin N) ≠ ⟨q, hq⟩ := by simpa using hkq
      simp [memOf, hp, hkq, this]
    · by_cases hk : k < N
      · have h1 : (⟨k, hk⟩ : Fin N) ≠ ⟨q, hq⟩ := by simpa using hkq
        have h2 : (⟨k, hk⟩ : Fin N) ≠ ⟨p, hp⟩ := by simpa using hkp
        simp [memOf, hk, hkq, hkp, h1, h2]
      · simp [memOf, hk, hkq, hkp]

omit [MeasurableSpace S] in
theorem memOf_species {env : DriverEnv (Part W) S ℝ} {mass : ℕ → ℝ} (hE : ElasticEnv env mass) (base : ℕ → Part W)
    (V : Fin N → Vec) (p : ℕ) : env.species (memOf base V p) = env.species (base p) := by
  unfold memOf
  split
  · exact hE.species _ _
  · rfl

omit [MeasurableSpace S] in
theorem memOf_weight {env : DriverEnv (Part W) S ℝ} {mass : ℕ → ℝ} (hE : ElasticEnv env mass) (base : ℕ → Part W)
    (V : Fin N → Vec) (p : ℕ) : env.weight (memOf base V p) = env.weight (base p) := by
  unfold memOf
  split
  · exact hE.weight _ _
  · rfl

omit [MeasurableSpace S] in
theorem pickFirst_lt (cs : List ℝ) : ∀ (tot : ℝ) (k : ℕ) (r : ℝ), 0 ≤ pickFirst cs tot k r →
    ∃ n, pickFirst cs tot k r = (k + n : ℕ) ∧ n < cs.length := by
  induction cs with
  | nil => intro tot k r h; simp [pickFirst, pickLoop] at h
  | cons c cs ih =>
    intro tot k r h
    have e : pickFirst (c :: cs) tot k r = if tot + c > r then (k : ℤ) else pickFirst cs (tot + c) (k + 1) r := by
      simp only [pickFirst, pickLoop]
      by_cases h : tot + c > r <;> simp [h]
    rw [e] at h ⊢
    split
    · exact ⟨0, by simp, by simp⟩
    · rename_i hc
      rw [if_neg hc] at h
      obtain ⟨n, h1, h2⟩ := ih _ _ _ h
      exact ⟨n + 1, by rw [h1]; push_cast; ring, by simpa using h2⟩

open Classical in
omit [MeasurableSpace S] in
theorem setInteract_step {env : DriverEnv (Part W) S ℝ} {mass : ℕ → ℝ} (hE : ElasticEnv env mass) {A B : ℕ}
    (hAB : A ≤ B) (hB : B < env.nSpecies) (M : ℝ) (base : ℕ → Part W) (V : Fin N → Vec) (s : S) {p q : ℕ} (hp : p < N)
    (hq : q < N) (sp : env.species (base p) = A) (sq : env.species (base q) = B) :
    let r := setInteract env (env.rhs A B) M (memOf base V p) (memOf base V q) s
    let x := stepAt env.rng (env.rhs A B) M (ReducedMass.mk' (mass A) (mass B)) ⟨p, hp⟩ ⟨q, hq⟩ (V, s)
    Function.update (Function.update (memOf base V) p r.2.1) q r.2.2.1 = memOf base x.1 ∧ r.2.2.2.1 = [] ∧
      r.2.2.2.2 = x.2 := by
  have hid : Function.update (Function.update (memOf base V) p (memOf base V p)) q (memOf base V q) = memOf base V := by
    simp
  have hv : env.relSpeed (memOf base V p) (memOf base V q) = speedAt ⟨p, hp⟩ ⟨q, hq⟩ V := by
    rw [hE.speed, memOf_vel base V hp, memOf_vel base V hq]; rfl
  have hspec : ¬ env.species (memOf base V p) > env.species (memOf base V q) := by
    rw [memOf_species hE, memOf_species hE, sp, sq]; omega
  intro r x
  set v := speedAt (⟨p, hp⟩ : Fin N) ⟨q, hq⟩ V with hvdef
  by_cases hrej : (env.rng.rand s).1 * M > totAt (env.rhs A B) v * v
  · have hr : r = (⟨-1, 0, false⟩, memOf base V p, memOf base V q, [], (env.rng.rand s).2) := by
      simp only [r, setInteract, performPath, calculateOutPath, hv]
      have hrej' : (env.rng.rand s).1 * M > csTotal ((env.rhs A B).map fun e => e.sigma v) * v := hrej
      simp only [hrej', if_true]
      simp
    have hx : x = (V, (env.rng.rand s).2) := by
      simp only [x, stepAt]
      rw [if_pos hrej]
    rw [hr, hx]
    exact ⟨hid, rfl, rfl⟩
  · have hrej' : ¬ (env.rng.rand s).1 * M > csTotal ((env.rhs A B).map fun e => e.sigma v) * v := hrej
    have hx : x = acceptAt env.rng (env.rhs A B) (ReducedMass.mk' (mass A) (mass B)) ⟨p, hp⟩ ⟨q, hq⟩
        (V, (env.rng.rand s).2) := by
      simp only [x, stepAt]
      rw [if_neg hrej]
    have hfirst : (calculateOutPath ((env.rhs A B).map fun e => e.sigma v) M v (env.rng.rand s).1
        (env.rng.randExc (env.rng.rand s).2).1).first =
        firstAt (env.rhs A B) v (env.rng.randExc (env.rng.rand s).2).1 := by
      rw [first_eq, if_neg hrej']; rfl
    have hr0 : r = performPath env (env.rhs A B) (calculateOutPath ((env.rhs A B).map fun e => e.sigma v) M v
        (env.rng.rand s).1 (env.rng.randExc (env.rng.rand s).2).1) (memOf base V p) (memOf base V q)
        (env.rng.randExc (env.rng.rand s).2).2 := by
      simp only [r, setInteract, hv]
      rw [if_neg hrej']
    generalize hs2 : (env.rng.randExc (env.rng.rand s).2).2 = s2 at hr0
    generalize hw : (env.rng.randExc (env.rng.rand s).2).1 = w at hr0 hfirst
    generalize hpath : calculateOutPath ((env.rhs A B).map fun e => e.sigma v) M v (env.rng.rand s).1 w = path at hr0 hfirst
    have hx' : x = if 0 ≤ firstAt (env.rhs A B) v w then
        collideAt env.rng (ReducedMass.mk' (mass A) (mass B)) ⟨p, hp⟩ ⟨q, hq⟩ (V, s2) else (V, s2) := by
      rw [hx]; unfold acceptAt; simp only; rw [hs2, hw]
    by_cases hpos : 0 ≤ firstAt (env.rhs A B) v w
    · rw [if_pos hpos] at hx'
      obtain ⟨n, hn, hlt⟩ := pickFirst_lt _ 0 0 _ hpos
      have hn' : path.first = (n : ℤ) := by rw [hfirst]; unfold firstAt; rw [hn]; simp
      have hlt' : n < (env.rhs A B).length := by simpa using hlt
      have hget : (env.rhs A B)[path.first.toNat]? = some (env.rhs A B)[n] := by
        rw [hn']; simp [hlt']
      have hact := hE.act A B hAB hB _ (List.getElem_mem hlt')
      have hge : path.first ≥ 0 := by rw [hn']; positivity
      have hr : r = (path, { memOf base V p with vel := (collidePair env.rng (ReducedMass.mk' (mass A) (mass B))
            ((V ⟨p, hp⟩, V ⟨q, hq⟩), s2)).1.1 },
          { memOf base V q with vel := (collidePair env.rng (ReducedMass.mk' (mass A) (mass B))
            ((V ⟨p, hp⟩, V ⟨q, hq⟩), s2)).1.2 }, [], (collidePair env.rng (ReducedMass.mk' (mass A) (mass B))
            ((V ⟨p, hp⟩, V ⟨q, hq⟩), s2)).2) := by
        rw [hr0]
        unfold performPath
        rw [if_pos hge, hget]
        simp only
        rw [if_neg hspec]
        change (path, ((env.rhs A B)[n].act (memOf base V p) (memOf base V q) s2).1,
          ((env.rhs A B)[n].act (memOf base V p) (memOf base V q) s2).2.1,
          ((env.rhs A B)[n].act (memOf base V p) (memOf base V q) s2).2.2.1,
          ((env.rhs A B)[n].act (memOf base V p) (memOf base V q) s2).2.2.2) = _
        rw [hact]
        simp only [elasticAct, actWith, memOf_vel base V hp, memOf_vel base V hq, if_true]
        rfl
      rw [hr, hx']
      exact ⟨memOf_update base V hp hq _ _, rfl, rfl⟩
    · rw [if_neg hpos] at hx'
      have hr : r = (path, memOf base V p, memOf base V q, [], s2) := by
        rw [hr0]
        unfold performPath
        rw [if_neg (by rw [hfirst]; exact hpos)]
      rw [hr, hx']
      exact ⟨hid, rfl, rfl⟩

/-! ### The run as a random program on velocities and generator -/

omit [IsProbabilityMeasure μ] in
/-- The state after an outcome as a measurable function. -/
theorem prog_fn {A : Type} {R : S → A → S → Prop} (hR : Prog0 μ R) (a : A) :
    ∃ g : S → S, Measurable g ∧ ∀ s s', R s a s' → g s = s' := by
  classical
  let g : S → S := fun s => if h : ∃ s', R s a s' then h.choose else s
  have hg : ∀ s s', R s a s' → g s = s' := by
    intro s s' h
    have h' : ∃ s', R s a s' := ⟨s', h⟩
    simp only [g, dif_pos h']
    exact (hR.func _ _ _ _ _ h'.choose_spec h).2
  have hD : MeasurableSet {s | ∃ s', R s a s'} := hR.meas_outcome a
  have hgm : Measurable g := by
    intro F hF
    have : g ⁻¹' F = {s | ∃ s', R s a s' ∧ s' ∈ F} ∪ (F \ {s | ∃ s', R s a s'}) := by
      ext s
      by_cases h : ∃ s', R s a s'
      · obtain ⟨s', h'⟩ := h
        simp only [Set.mem_preimage, hg s s' h', Set.mem_union, Set.mem_ofPred_eq, Set.mem_sdiff]
        constructor
        · intro hs; exact .inl ⟨s', h', hs⟩
        · rintro (⟨s'', h1, h2⟩ | ⟨_, h2⟩)
          · rwa [(hR.func _ _ _ _ _ h' h1).2]
          · exact absurd ⟨s', h'⟩ h2
      · have hgs : g s = s := by simp only [g, dif_neg h]
        simp only [Set.mem_preimage, hgs, Set.mem_union, Set.mem_ofPred_eq, Set.mem_sdiff]
        constructor
        · intro hs; exact .inr ⟨hs, h⟩
        · rintro (⟨s'', h1, _⟩ | ⟨h1, _⟩)
          · exact absurd ⟨s'', h1⟩ h
          · exact h1
    rw [this]
    exact (hR.meas a F hF).union (hF.diff hD)
  exact ⟨g, hgm, hg⟩

/-- A program with one outcome leaves the distribution of the state alone. -/
theorem prog_map {R : S → Unit → S → Prop} (hR : Prog μ R) (f : S → S) (hf : ∀ s s', R s () s' → f s = s') :
    AEMeasurable f μ ∧ μ.map f = μ := by
  obtain ⟨g, hgm, hg⟩ := prog_fn hR.toProg0 ()
  have hfin : ∀ᵐ s ∂μ, ∃ s', R s () s' := by
    filter_upwards [hR.ae_finishes] with s hs
    obtain ⟨a, s', h⟩ := hs
    exact ⟨s', h⟩
  have hfg : f =ᵐ[μ] g := by
    filter_upwards [hfin] with s hs
    obtain ⟨s', h⟩ := hs
    rw [hf s s' h, hg s s' h]
  refine ⟨hgm.aemeasurable.congr hfg.symm, ?_⟩
  rw [Measure.map_congr hfg]
  ext E hE
  have hlaw : law μ R () = 1 := by
    have := hR.total
    rwa [tsum_fintype, Finset.univ_unique, Finset.sum_singleton] at this
  rw [Measure.map_apply hgm hE]
  have := hR.indep () E hE
  rw [hlaw, one_mul] at this
  rw [← this]
  refine measure_congr ?_
  filter_upwards [hfin] with s hs
  obtain ⟨s', h⟩ := hs
  refine propext ⟨fun h1 => ⟨s', h, ?_⟩, fun h1 => ?_⟩
  · have h2 : g s ∈ E := h1
    rwa [hg s s' h] at h2
  · obtain ⟨s'', h2, h3⟩ := h1
    show g s ∈ E
    rwa [hg s s'' h2]

section lift
variable {X A : Type} [MeasurableSpace X]

/-- A program that leaves the first component alone. -/
def LiftP (X : Type) (R : S → A → S → Prop) : X × S → A → X × S → Prop :=
  fun x a x' => x'.1 = x.1 ∧ R x.2 a x'.2

theorem liftP_measure {κ : Measure X} [IsProbabilityMeasure κ] {R : S → A → S → Prop} (hR : Prog0 μ R) (a : A)
    (E : Set (X × S)) (hE : MeasurableSet E) :
    MeasurableSet {x | ∃ x', LiftP X R x a x' ∧ x' ∈ E} ∧
      (κ.prod μ) {x | ∃ x', LiftP X R x a x' ∧ x' ∈ E} = law μ R a * (κ.prod μ) E := by
  obtain ⟨g, hgm, hg⟩ := prog_fn hR a
  have hD : MeasurableSet {s | ∃ s', R s a s'} := hR.meas_outcome a
  have hset : {x : X × S | ∃ x', LiftP X R x a x' ∧ x' ∈ E} =
      (Prod.snd ⁻¹' {s | ∃ s', R s a s'}) ∩ (fun x : X × S => (x.1, g x.2)) ⁻¹' E := by
    ext ⟨v, s⟩
    simp only [LiftP, Set.mem_ofPred_eq, Set.mem_inter_iff, Set.mem_preimage]
    constructor
    · rintro ⟨⟨v', s'⟩, ⟨rfl, h⟩, h2⟩
      exact ⟨⟨s', h⟩, by rw [hg s s' h]; exact h2⟩
    · rintro ⟨⟨s', h⟩, h2⟩
      exact ⟨(v, s'), ⟨rfl, h⟩, by rw [hg s s' h] at h2; exact h2⟩
  have hm : MeasurableSet {x : X × S | ∃ x', LiftP X R x a x' ∧ x' ∈ E} := by
    rw [hset]
    exact (measurable_snd hD).inter ((measurable_fst.prodMk (hgm.comp measurable_snd)) hE)
  refine ⟨hm, ?_⟩
  rw [Measure.prod_apply hm, Measure.prod_apply hE, ← lintegral_const_mul' _ _ (by
    exact (measure_lt_top μ _).ne)]
  refine lintegral_congr fun v => ?_
  rw [← hR.indep a _ (measurable_prodMk_left hE)]
  congr 1
  ext s
  simp only [LiftP, Set.mem_preimage, Set.mem_ofPred_eq]
  constructor
  · rintro ⟨⟨v', s'⟩, ⟨rfl, h⟩, h2⟩; exact ⟨s', h, h2⟩
  · rintro ⟨s', h, h2⟩; exact ⟨(v, s'), ⟨rfl, h⟩, h2⟩

theorem law_liftP {κ : Measure X} [IsProbabilityMeasure κ] {R : S → A → S → Prop} (hR : Prog0 μ R) (a : A) :
    law (κ.prod μ) (LiftP X R) a = law μ R a := by
  have := (liftP_measure (κ := κ) hR a Set.univ MeasurableSet.univ).2
  simpa [law] using this

theorem prog_liftP {κ : Measure X} [IsProbabilityMeasure κ] {R : S → A → S → Prop} (hR : Prog μ R) :
    Prog (κ.prod μ) (LiftP X R) := by
  refine ⟨⟨?_, fun a E hE => (liftP_measure (κ := κ) hR.toProg0 a E hE).1, fun a E hE => ?_⟩, ?_⟩
  · rintro ⟨v, s⟩ a ⟨v1, s1⟩ b ⟨v2, s2⟩ ⟨h1, h2⟩ ⟨h3, h4⟩
    obtain ⟨rfl, h⟩ := hR.func _ _ _ _ _ h2 h4
    exact ⟨rfl, Prod.ext (h1.trans h3.symm) h⟩
  · rw [law_liftP hR.toProg0, (liftP_measure hR.toProg0 a E hE).2]
  · simp only [law_liftP hR.toProg0]; exact hR.total

end lift

/-- The cell: particles of one species lie in its range and have its mass. -/
structure GasCell (env : DriverEnv (Part W) S ℝ) (mass : ℕ → ℝ) (m : Fin N → ℝ) (base : ℕ → Part W)
    (range : ℕ → ℕ × ℕ) : Prop where
  wf : WFRanges env.nSpecies range
  le : ∀ A < env.nSpecies, (range A).2 ≤ N
  species : ∀ A < env.nSpecies, ∀ p, (range A).1 ≤ p → p < (range A).2 → env.species (base p) = A
  mass : ∀ A < env.nSpecies, ∀ p (hp : p < N), (range A).1 ≤ p → p < (range A).2 → m ⟨p, hp⟩ = mass A

section run
variable (env : DriverEnv (Part W) S ℝ) (m : Fin N → ℝ) (base : ℕ → Part W) (range : ℕ → ℕ × ℕ)

/-- Two different positions in the two ranges. -/
def ValidPair (N : ℕ) (range : ℕ → ℕ × ℕ) (A B : ℕ) (x : ℕ × ℕ) : Prop :=
  (x.1 < N ∧ x.2 < N) ∧ x.1 ≠ x.2 ∧ ((range A).1 ≤ x.1 ∧ x.1 < (range A).2) ∧ ((range B).1 ≤ x.2 ∧ x.2 < (range B).2)

open Classical in
/-- One iteration of the `while` loop, in place. -/
def TestV (A B : ℕ) (M : ℝ) : (Fin N → Vec) × S → Unit → (Fin N → Vec) × S → Prop :=
  Seq (LiftP (Fin N → Vec) (Sel env.rng (range A) (range B))) (fun x =>
    if h : ValidPair N range A B x then fun y a y' => a = () ∧ y' = stepAt env.rng (env.rhs A B) M
        (ReducedMass.mk' (m ⟨x.1, h.1.1⟩) (m ⟨x.2, h.1.2⟩)) ⟨x.1, h.1.1⟩ ⟨x.2, h.1.2⟩ y
    else fun _ _ _ => False)

/-- `n` iterations. -/
def TestsV (A B : ℕ) (M : ℝ) : ℕ → (Fin N → Vec) × S → Unit → (Fin N → Vec) × S → Prop
  | 0 => Pure ()
  | n + 1 => Seq (TestV env m range A B M) (fun _ => TestsV A B M n)

open Classical in
/-- The second double loop. -/
def CollV : List ((ℕ × ℕ) × ℕ) → (Fin N → Vec) × S → Unit → (Fin N → Vec) × S → Prop
  | [] => Pure ()
  | d :: ks => if d.1.1 ≤ d.1.2 ∧ d.1.2 < env.nSpecies ∧ Pickable (range d.1.1) (range d.1.2) then
      Seq (TestsV env m range d.1.1 d.1.2 (boundOf env d.1.1 d.1.2) d.2) (fun _ => CollV ks)
      else CollV ks

/-- A driver run. -/
def RunV : (Fin N → Vec) × S → Unit → (Fin N → Vec) × S → Prop :=
  Seq (LiftP (Fin N → Vec) (Est env base range (speciesPairs env.nSpecies))) (CollV env m range)

variable {env m base range} {kT : ℝ} {d : Vec} {mass : ℕ → ℝ}

/-- Velocities and generator in equilibrium. -/
noncomputable abbrev equil (μ : Measure S) (kT : ℝ) (d : Vec) (m : Fin N → ℝ) : Measure ((Fin N → Vec) × S) :=
  (Measure.pi fun k => thermal kT d (m k)).prod μ

theorem prog_testV (hT : 0 < kT) (hm : ∀ i, 0 < m i) (h : env.rng.IID μ) (hE : ElasticEnv env mass)
    (hC : GasCell env mass m base range) {A B : ℕ} (hAB : A ≤ B) (hB : B < env.nSpecies)
    (hp : Pickable (range A) (range B)) (M : ℝ) : Prog (equil μ kT d m) (TestV env m range A B M) := by
  have hemp : Prog0 (equil μ kT d m) (fun _ _ _ => False : (Fin N → Vec) × S → Unit → (Fin N → Vec) × S → Prop) :=
    ⟨fun _ _ _ _ _ h => h.elim, fun _ _ _ => by simp, fun _ _ _ => by simp [law]⟩
  have hsel := prog_sel h _ _ hp
  unfold TestV
  refine prog_seq' (prog_liftP hsel) (fun x => ?_) (fun x => ?_)
  · split
    · rename_i hv
      exact (prog_state _ (stepAt_preserving hT hm h (by simpa using hv.2.1) (hE.sigma A B hAB hB) M) ()).toProg0
    · exact hemp
  · by_cases hv : ValidPair N range A B x
    · right
      rw [dif_pos hv]
      exact (prog_state _ (stepAt_preserving hT hm h (by simpa using hv.2.1) (hE.sigma A B hAB hB) M) ()).total
    · left
      obtain ⟨p, q⟩ := x
      rw [law_liftP hsel.toProg0, law_sel h]
      have hA : A < env.nSpecies := lt_of_le_of_lt hAB hB
      have hleA := hC.le A hA
      have hleB := hC.le B hB
      by_cases h1 : (range A).1 ≤ p ∧ p < (range A).1 + rsize (range A)
      · by_cases h2 : q = p
        · simp [h2]
        · have h3 : ¬ ((range B).1 ≤ q ∧ q < (range B).1 + rsize (range B)) := by
            intro h3
            refine hv ⟨⟨?_, ?_⟩, fun h => h2 h.symm, ⟨h1.1, ?_⟩, ⟨h3.1, ?_⟩⟩ <;> simp only [rsize] at h1 h3 ⊢ <;> omega
          rw [unif_pick_out _ _ q hp.2.1 h3]
          simp
      · rw [unif_pick_out _ _ p hp.1 h1]
        simp

theorem prog_testsV (hT : 0 < kT) (hm : ∀ i, 0 < m i) (h : env.rng.IID μ) (hE : ElasticEnv env mass)
    (hC : GasCell env mass m base range) {A B : ℕ} (hAB : A ≤ B) (hB : B < env.nSpecies)
    (hp : Pickable (range A) (range B)) (M : ℝ) (n : ℕ) : Prog (equil μ kT d m) (TestsV env m range A B M n) := by
  induction n with
  | zero => exact prog_pure _
  | succ n ih => exact prog_seq (prog_testV hT hm h hE hC hAB hB hp M) fun _ => ih

theorem prog_collV (hT : 0 < kT) (hm : ∀ i, 0 < m i) (h : env.rng.IID μ) (hE : ElasticEnv env mass)
    (hC : GasCell env mass m base range) (ks : List ((ℕ × ℕ) × ℕ)) : Prog (equil μ kT d m) (CollV env m range ks) := by
  induction ks with
  | nil => exact prog_pure _
  | cons k ks ih =>
    rw [CollV]
    split
    · rename_i hp
      exact prog_seq (prog_testsV hT hm h hE hC hp.1 hp.2.1 hp.2.2 _ _) fun _ => ih
    · exact ih

theorem prog_runV (hT : 0 < kT) (hm : ∀ i, 0 < m i) (h : env.rng.IID μ) (hE : ElasticEnv env mass)
    (hC : GasCell env mass m base range) : Prog (equil μ kT d m) (RunV env m base range) :=
  prog_seq (prog_liftP (prog_est env h base range _)) fun ks => prog_collV hT hm h hE hC ks

/-! ### The driver follows it -/

omit [MeasurableSpace S] in
theorem est_congr (hE : ElasticEnv env mass) (V : Fin N → Vec) (ps : List (ℕ × ℕ)) :
    Est env (memOf base V) range ps = Est env base range ps := by
  have : ∀ A B, DrawCount env (memOf base V) range A B = DrawCount env base range A B := by
    intro A B
    unfold DrawCount estimateOf
    rw [memOf_weight hE, memOf_weight hE]
  induction ps with
  | nil => rfl
  | cons ab ps ih => simp only [Est, ih, this]

omit [MeasurableSpace S] in
theorem testLoop_simV (hE : ElasticEnv env mass) (hC : GasCell env mass m base range) {A B : ℕ} (hAB : A ≤ B)
    (hB : B < env.nSpecies) (M : ℝ) :
    ∀ (n : ℕ) (nt : ℝ) (st : DState (Part W) S ℝ) (V : Fin N → Vec) (x' : (Fin N → Vec) × S), loopCount nt = n →
      st.mem = memOf base V → st.range = range → notEnough st A B = false →
      TestsV env m range A B M n (V, st.gen) () x' →
      ∃ fi fs st', testLoop env fs A B M fi nt st = .ok st' ∧ st'.mem = memOf base x'.1 ∧ st'.range = range ∧
        st'.gen = x'.2 ∧ st'.results = st.results ∧ st'.erased = st.erased := by
  intro n
  induction n with
  | zero =>
    intro nt st V x' hn hmem hr hne h
    obtain ⟨-, rfl⟩ := h
    have hn1 : ¬ nt > 1 := fun hc => by rw [loopCount_succ hc] at hn; omega
    exact ⟨0, 0, st, by simp [testLoop, hn1], hmem, hr, rfl, rfl, rfl⟩
  | succ n ih =>
    intro nt st V x' hn hmem hr hne h
    obtain ⟨_, ⟨V1, s1⟩, ⟨⟨p, q⟩, ⟨V2, s2⟩, ⟨rfl, f, hsel⟩, ht⟩, hl⟩ := h
    by_cases hv : ValidPair N range A B (p, q)
    swap
    · rw [dif_neg hv] at ht
      exact ht.elim
    rw [dif_pos hv] at ht
    obtain ⟨-, ht⟩ := ht
    have hn1 : nt > 1 := by
      by_contra hc
      rw [loopCount_of_le hc] at hn; omega
    have hn' : loopCount (nt - 1) = n := by rw [loopCount_succ hn1] at hn; omega
    have hA : A < env.nSpecies := lt_of_le_of_lt hAB hB
    obtain ⟨⟨hp, hq⟩, hpq, hpA, hqB⟩ := hv
    simp only at hp hq hpq hpA hqB ht
    have hmp := hC.mass A hA p hp hpA.1 hpA.2
    have hmq := hC.mass B hB q hq hqB.1 hqB.2
    have hstep := setInteract_step hE hAB hB M base V2 s2 hp hq (hC.species A hA p hpA.1 hpA.2)
      (hC.species B hB q hqB.1 hqB.2)
    rw [hmp, hmq] at ht
    simp only at hstep
    rw [← ht] at hstep
    obtain ⟨hs1, hs2, hs3⟩ := hstep
    have hpt : pairTest env A B M p q { st with gen := s2 } =
        { st with
          mem := memOf base V1
          gen := s1
          log := (pairTest env A B M p q { st with gen := s2 }).log } := by
      unfold pairTest applyPair driverRetval
      simp only [hmem]
      simp only [hs2, List.isEmpty_nil, Bool.not_true, or_true, if_true, hE.inplace, hs1, hs3, List.append_nil]
    have e1 : (pairTest env A B M p q { st with gen := s2 }).mem = memOf base V1 := by rw [hpt]
    have e2 : (pairTest env A B M p q { st with gen := s2 }).range = st.range := by rw [hpt]
    have e3 : (pairTest env A B M p q { st with gen := s2 }).gen = s1 := by rw [hpt]
    have e4 : (pairTest env A B M p q { st with gen := s2 }).results = st.results := by rw [hpt]
    have e5 : (pairTest env A B M p q { st with gen := s2 }).erased = st.erased := by rw [hpt]
    obtain ⟨fi, fs, st', h1, h2, h3, h4, h5, h6⟩ := ih (nt - 1) (pairTest env A B M p q { st with gen := s2 }) V1
      x' hn' e1 (e2.trans hr) (by simpa [notEnough, e2] using hne) (by rw [e3]; exact hl)
    refine ⟨fi + 1, max f fs, st', ?_, h2, h3, h4, h5.trans e4, h6.trans e5⟩
    rw [← hr] at hsel
    simp only [testLoop]
    rw [if_pos hn1, if_neg (by simp [hne]),
      selectRandomPair_mono env.rng false f (max f fs) _ _ _ _ (le_max_left _ _) hsel]
    exact testLoop_mono env fs _ A B M (le_max_right _ _) fi fi _ _ _ le_rfl h1

omit [MeasurableSpace S] in
theorem collideAll_simV (hE : ElasticEnv env mass) (hC : GasCell env mass m base range) :
    ∀ (ds : List ((ℕ × ℕ) × Option (TestData ℝ))) (st : DState (Part W) S ℝ) (V : Fin N → Vec)
      (x' : (Fin N → Vec) × S), st.mem = memOf base V → st.range = range →
      (∀ d ∈ ds, (d.1.1 ≤ d.1.2 ∧ d.1.2 < env.nSpecies) ∧
        ∀ td, d.2 = some td → td.maxSV = boundOf env d.1.1 d.1.2) →
      CollV env m range (ds.filterMap (fun d => d.2.map (fun td => (d.1, loopCount td.numberTests))))
        (V, st.gen) () x' →
      ∃ fi fs st', collideAll env fi fs ds st = .ok st' ∧ st'.mem = memOf base x'.1 ∧ st'.range = range ∧
        st'.gen = x'.2 ∧ st'.results = st.results ∧ st'.erased = st.erased := by
  intro ds
  induction ds with
  | nil =>
    intro st V x' hm hr _ h
    obtain ⟨-, rfl⟩ := h
    exact ⟨0, 0, st, rfl, hm, hr, rfl, rfl, rfl⟩
  | cons d ds ih =>
    intro st V x' hm hr hds h
    obtain ⟨⟨A, B⟩, o⟩ := d
    have hds' := fun d hd => hds d (List.mem_cons_of_mem _ hd)
    cases o with
    | none =>
      obtain ⟨fi, fs, st', h1, h2⟩ := ih st V x' hm hr hds' (by simpa using h)
      exact ⟨fi, fs, st', h1, h2⟩
    | some td =>
      obtain ⟨⟨hAB, hB⟩, hmax⟩ := hds _ List.mem_cons_self
      simp only at hAB hB
      have hmax := hmax td rfl
      simp only at hmax
      simp only [List.filterMap_cons, Option.map_some] at h
      rw [CollV] at h
      have hpick := pickable_iff env.nSpecies st (by rw [hr]; exact hC.wf) A B (lt_of_le_of_lt hAB hB) hB
      rw [hr] at hpick
      by_cases hp : Pickable (range A) (range B)
      · rw [if_pos ⟨hAB, hB, hp⟩] at h
        obtain ⟨_, ⟨V1, s1⟩, ht, hc⟩ := h
        obtain ⟨fi, fs, st1, h1, h2, h3, h4, h5, h6⟩ := testLoop_simV hE hC hAB hB (boundOf env A B) _
          td.numberTests st V (V1, s1) rfl hm hr (hpick.1 hp) ht
        obtain ⟨fi', fs', st', g1, g2, g3, g4, g5, g6⟩ := ih st1 V1 x' h2 h3 hds' (by rw [h4]; exact hc)
        refine ⟨max fi fi', max fs fs', st', ?_, g2, g3, g4, g5.trans h5, g6.trans h6⟩
        simp only [collideAll, hmax]
        rw [testLoop_mono env fs _ A B _ (le_max_left _ _) fi _ _ _ _ (le_max_left _ _) h1]
        exact collideAll_mono env fi' _ fs' _ (le_max_right _ _) (le_max_right _ _) _ _ _ g1
      · rw [if_neg (fun hc => hp hc.2.2)] at h
        have hne : notEnough st A B = true := by
          cases hb : notEnough st A B with
          | true => rfl
          | false => exact absurd (hpick.2 hb) hp
        obtain ⟨fi, fs, st', h1, h2⟩ := ih st V x' hm hr hds' h
        refine ⟨fi + 1, fs, st', ?_, h2⟩
        simp only [collideAll, testLoop]
        by_cases hn : td.numberTests > 1
        · rw [if_pos hn, if_pos hne]
          exact collideAll_mono env fi _ fs _ (Nat.le_succ _) le_rfl _ _ _ h1
        · rw [if_neg hn]
          exact collideAll_mono env fi _ fs _ (Nat.le_succ _) le_rfl _ _ _ h1

omit [MeasurableSpace S] in
theorem driver_simV (hE : ElasticEnv env mass) (hC : GasCell env mass m base range)
    (hpop : ∀ A B, A ≤ B → B < env.nSpecies → env.rhs A B ≠ [] →
      (range A).1 < (range A).2 ∧ (range B).1 < (range B).2)
    (st : DState (Part W) S ℝ) (V : Fin N → Vec) (x' : (Fin N → Vec) × S) (hm : st.mem = memOf base V)
    (hr : st.range = range) (h : RunV env m base range (V, st.gen) () x') :
    ∃ fi fs st', driver env fi fs st = .ok st' ∧ st'.mem = memOf base x'.1 ∧ st'.range = range ∧
      st'.gen = x'.2 ∧ st'.results = st.results ∧ st'.erased = st.erased := by
  obtain ⟨ks, ⟨V1, s1⟩, ⟨hV1, h1⟩, h2⟩ := h
  simp only at hV1 h1
  subst hV1
  rw [← est_congr hE V1] at h1
  obtain ⟨ds, h3, rfl, h4⟩ := estimateAll_sim env (memOf base V1) range (speciesPairs env.nSpecies)
    st ks s1 hm hr (by
      rintro ⟨A, B⟩ hab hne
      have := (mem_speciesPairs _ _ _).1 hab
      have := hpop A B this.1 this.2 hne
      unfold rsize; simp only; omega) h1
  obtain ⟨fi, fs, st', h5, h6⟩ := collideAll_simV hE hC ds { st with gen := s1 } V1 x' hm hr (by
      intro d hd
      have := (mem_speciesPairs _ d.1.1 d.1.2).1 (h4 d hd).1
      exact ⟨⟨by omega, this.2⟩, (h4 d hd).2⟩) h2
  refine ⟨fi, fs, st', ?_, h6⟩
  simp only [driver, h3]
  exact h5

end run

end Chimp
