import Verif.Props.Whole

/-!
# Properties C74 and C75: what an interaction does, and how often pairs interact in a run
-/

namespace Chimp

section

variable {P S K : Type} [Field K] [LinearOrder K] [IsStrictOrderedRing K] [FloorRing K]

/-! ## C75 -/

/-- A reported test was decided by the null-collision rule with the sum of the `findMaxSigmaV` of the pair's equations
at the relative speed the cell announced for the pair before the run, and with two random numbers of the
generator's ranges. -/
def DecidedByRule (env : DriverEnv P S K) (ev : Event P K) : Prop :=
  ∃ u w : K, (0 ≤ u ∧ u ≤ 1) ∧ (0 ≤ w ∧ w < 1) ∧
    ev.path = calculateOutPath ((env.rhs ev.A ev.B).map fun e => e.sigma (env.relSpeed ev.a ev.b))
      (((env.rhs ev.A ev.B).map fun e => e.maxSigmaV (env.maxRelVel ev.A ev.B)).sum) (env.relSpeed ev.a ev.b) u w

omit [IsStrictOrderedRing K] [FloorRing K] in
theorem setInteract_path (env : DriverEnv P S K) (rhs : List (Eqn P S K)) (m : K) (a b : P) (s : S) :
    (setInteract env rhs m a b s).1 = calculateOutPath (rhs.map fun e => e.sigma (env.relSpeed a b)) m
      (env.relSpeed a b) (env.rng.rand s).1 (env.rng.randExc (env.rng.rand s).2).1 := by
  unfold setInteract performPath
  dsimp only
  split
  · split
    · rfl
    · split <;> rfl
  · rfl

omit [LinearOrder K] [IsStrictOrderedRing K] [FloorRing K] in
theorem findMax_sum (ms : List (K → K)) (v : K) : findMaxSigmaVProduct ms v = (ms.map fun m => m v).sum := by
  unfold findMaxSigmaVProduct
  have : ∀ (l : List (K → K)) (x : K), l.foldl (fun s m => s + m v) x = x + (l.map fun m => m v).sum := by
    intro l
    induction l with
    | nil => intro x; simp
    | cons m l ih => intro x; simp only [List.foldl_cons, ih, List.map_cons, List.sum_cons]; ring
  rw [this, zero_add]

omit [IsStrictOrderedRing K] in
theorem testLoop_rule (env : DriverEnv P S K) (hv : env.rng.Valid) (fs A B : ℕ) (m : K)
    (hm : m = findMaxSigmaVProduct ((env.rhs A B).map Eqn.maxSigmaV) (env.maxRelVel A B)) :
    ∀ (fi : ℕ) (nt : K) (st st' : DState P S K), testLoop env fs A B m fi nt st = .ok st' →
      (∀ ev ∈ st.log, DecidedByRule env ev) → ∀ ev ∈ st'.log, DecidedByRule env ev := by
  intro fi
  induction fi with
  | zero =>
    intro nt st st' h hst
    simp only [testLoop] at h
    split at h
    · cases h
    · cases h; exact hst
  | succ f ih =>
    intro nt st st' h hst
    simp only [testLoop] at h
    split at h
    · split at h
      · cases h; exact hst
      · split at h
        · cases h
        · rename_i p q s' heq
          refine ih _ _ _ h fun ev hev => ?_
          rw [(pairTest_fields env A B m p q { st with gen := s' }).2.1] at hev
          rcases List.mem_append.1 hev with hev | hev
          · exact hst ev hev
          · rw [List.mem_singleton.1 hev]
            refine ⟨_, _, hv.rand_mem s', hv.randExc_mem (env.rng.rand s').2, ?_⟩
            dsimp only
            rw [setInteract_path, hm, findMax_sum, List.map_map]
            rfl
    · cases h; exact hst

omit [IsStrictOrderedRing K] in
theorem estimateAll_max (env : DriverEnv P S K) : ∀ (ps : List (ℕ × ℕ)) (st : DState P S K)
    (ds : List ((ℕ × ℕ) × Option (TestData K))) (st' : DState P S K),
    estimateAll env ps st = .ok (ds, st') →
    ∀ d ∈ ds, ∀ td, d.2 = some td →
      td.maxSV = findMaxSigmaVProduct ((env.rhs d.1.1 d.1.2).map Eqn.maxSigmaV) (env.maxRelVel d.1.1 d.1.2) := by
  intro ps
  induction ps with
  | nil =>
    intro st ds st' h
    simp only [estimateAll, Except.ok.injEq, Prod.mk.injEq] at h
    obtain ⟨rfl, rfl⟩ := h
    intro d hd; cases hd
  | cons ab ps ih =>
    intro st ds st' h
    obtain ⟨A, B⟩ := ab
    simp only [estimateAll] at h
    split at h
    · cases h
    · rename_i d st1 he
      split at h
      · cases h
      · rename_i ds2 st2 h2
        simp only [Except.ok.injEq, Prod.mk.injEq] at h
        obtain ⟨rfl, rfl⟩ := h
        intro x hx td htd
        rcases List.mem_cons.1 hx with rfl | hx
        · simp only at htd
          subst htd
          simp only [estimatePair] at he
          split at he
          · simp at he
          · split at he
            · cases he
            · simp only [Except.ok.injEq, Prod.mk.injEq, Option.some.injEq] at he
              rw [← he.1]
        · exact ih _ _ _ h2 x hx td htd

omit [IsStrictOrderedRing K] in
/-- **C75**  Every test of a run is decided by the null-collision rule with the bound of its species pair. -/
theorem C75_null_collision_rule (env : DriverEnv P S K) (hv : env.rng.Valid) (fi fs : ℕ) (st0 st : DState P S K)
    (hlog : st0.log = []) (hrun : driver env fi fs st0 = .ok st) : ∀ ev ∈ st.log, DecidedByRule env ev := by
  simp only [driver] at hrun
  split at hrun
  · cases hrun
  · rename_i ds st1 he
    obtain ⟨⟨g, hg⟩, -⟩ := estimateAll_spec env _ _ _ _ he
    have hmax := estimateAll_max env _ _ _ _ he
    have h1 : ∀ ev ∈ st1.log, DecidedByRule env ev := by
      rw [hg]; intro ev hev; rw [show ({ st0 with gen := g } : DState P S K).log = [] from hlog] at hev; cases hev
    clear he hg
    induction ds generalizing st1 with
    | nil => simp only [collideAll, Except.ok.injEq] at hrun; subst hrun; exact h1
    | cons d ds ih =>
      obtain ⟨⟨A, B⟩, o⟩ := d
      have hds := fun x hx => hmax x (List.mem_cons_of_mem _ hx)
      cases o with
      | none =>
        simp only [collideAll] at hrun
        exact ih st1 hrun hds h1
      | some td =>
        simp only [collideAll] at hrun
        split at hrun
        · cases hrun
        · rename_i st2 h2
          exact ih st2 hrun hds (testLoop_rule env hv fs A B _ (hmax _ List.mem_cons_self td rfl) _ _ _ _ h2 h1)

/-- **C75**  If `findMaxSigmaV` is a bound for every equation of a tested pair and the pair is not faster than the cell
announced, the rule accepts with a probability of at most one: the rate of the pair is at most the bound. -/
theorem C75_ratio_le_one (env : DriverEnv P S K) (hv : env.rng.Valid) (fi fs : ℕ) (st0 st : DState P S K)
    (hlog : st0.log = []) (hrun : driver env fi fs st0 = .ok st) (ev : Event P K) (hev : ev ∈ st.log)
    (h0 : 0 ≤ env.relSpeed ev.a ev.b) (hle : env.relSpeed ev.a ev.b ≤ env.maxRelVel ev.A ev.B)
    (hb : ∀ e ∈ env.rhs ev.A ev.B, ∀ v, 0 ≤ v → v ≤ env.maxRelVel ev.A ev.B →
      e.sigma v * v ≤ e.maxSigmaV (env.maxRelVel ev.A ev.B)) :
    ∃ (sigmas : List K) (bound : K) (u w : K), (0 ≤ u ∧ u ≤ 1) ∧ (0 ≤ w ∧ w < 1) ∧
      sigmas = (env.rhs ev.A ev.B).map (fun e => e.sigma (env.relSpeed ev.a ev.b)) ∧
      ev.path = calculateOutPath sigmas bound (env.relSpeed ev.a ev.b) u w ∧
      sigmas.sum * env.relSpeed ev.a ev.b ≤ bound := by
  obtain ⟨u, w, hu, hw, hp⟩ := C75_null_collision_rule env hv fi fs st0 st hlog hrun ev hev
  refine ⟨_, _, u, w, hu, hw, rfl, hp, ?_⟩
  have : ∀ l : List (Eqn P S K), (∀ e ∈ l, e ∈ env.rhs ev.A ev.B) →
      (l.map fun e => e.sigma (env.relSpeed ev.a ev.b)).sum * env.relSpeed ev.a ev.b ≤
        (l.map fun e => e.maxSigmaV (env.maxRelVel ev.A ev.B)).sum := by
    intro l hl
    induction l with
    | nil => simp
    | cons e l ih =>
      simp only [List.map_cons, List.sum_cons, add_mul]
      exact add_le_add (hb e (hl e List.mem_cons_self) _ h0 hle) (ih fun x hx => hl x (List.mem_cons_of_mem _ hx))
  exact this _ fun _ h => h

/-- **C75**  Out of place the cell does not change during a run, so it suffices that the announced relative speeds bound
those of the particles in the cell at the start. -/
theorem C75_announced_speeds (env : DriverEnv P S K) (hout : env.inplace = false) (hv : env.rng.Valid) (fi fs : ℕ)
    (st0 st : DState P S K) (hlog : st0.log = []) (hrun : driver env fi fs st0 = .ok st)
    (hmax : ∀ A B, A ≤ B → B < env.nSpecies → ∀ p q, (st0.range A).1 ≤ p → p < (st0.range A).2 →
      (st0.range B).1 ≤ q → q < (st0.range B).2 → p ≠ q →
      env.relSpeed (st0.mem p) (st0.mem q) ≤ env.maxRelVel A B) :
    ∀ ev ∈ st.log, env.relSpeed ev.a ev.b ≤ env.maxRelVel ev.A ev.B := by
  obtain ⟨g, hreach⟩ := driver_reach env hv fi fs st0 st hrun
  clear hrun
  have : (st.mem = st0.mem ∧ st.range = st0.range) ∧
      ∀ ev ∈ st.log, env.relSpeed ev.a ev.b ≤ env.maxRelVel ev.A ev.B := by
    induction hreach with
    | refl =>
      refine ⟨⟨rfl, rfl⟩, fun ev hev => ?_⟩
      rw [show ({ st0 with gen := g } : DState P S K).log = st0.log from rfl, hlog] at hev
      cases hev
    | @tail st1 _ _ hstep ih =>
      obtain ⟨A, B, m, p, q, g, _, hAB, hB, hne, hp, hq, hpq⟩ := hstep
      have h2 := pairTest_fields env A B m p q { st1 with gen := g }
      simp only at h2
      obtain ⟨hm, hr, -⟩ := h2.2.2 hout
      refine ⟨⟨hm.trans ih.1.1, hr.trans ih.1.2⟩, fun ev hev => ?_⟩
      rw [h2.2.1] at hev
      rcases List.mem_append.1 hev with hev | hev
      · exact ih.2 ev hev
      · rw [List.mem_singleton.1 hev]
        dsimp only
        rw [ih.1.2] at hp hq
        rw [ih.1.1]
        exact hmax A B hAB hB p q hp.1 hp.2 hq.1 hq.2 hpq
  exact this.2

end

variable {S W : Type}

/-- **C75**  For the library's cross sections: out of place, with announced speeds that bound those in the cell and cross
sections whose `findMaxSigmaV` is a bound (C55, C58, C62, C71), every test of a run is accepted with a
probability `(Σ σ) v / bound` that is at most one. -/
theorem C75_library {T : Tools W} {n : ℕ} {eqs : ℕ → ℕ → List (WEq W)} {c : CellConst S W} (hout : c.inplace = false)
    (hv : c.rng.Valid) {fi fs : ℕ} {st0 st : DState (Part W) S ℝ} (hlog : st0.log = [])
    (hrun : driver (wholeEnv T n eqs c) fi fs st0 = .ok st) (hev : TestsEvaluate eqs st)
    (hmax : ∀ A B, A ≤ B → B < n → ∀ p q, (st0.range A).1 ≤ p → p < (st0.range A).2 →
      (st0.range B).1 ≤ q → q < (st0.range B).2 → p ≠ q →
      ((st0.mem p).vel - (st0.mem q).vel).abs ≤ c.maxRelVel A B)
    (hb : ∀ A B, A ≤ B → B < n → ∀ w ∈ eqs A B, SigmaVBound w.cs (c.maxRelVel A B)) :
    ∀ ev ∈ st.log, ∃ (sigmas maxima : List ℝ) (u w : ℝ), (0 ≤ u ∧ u ≤ 1) ∧ (0 ≤ w ∧ w < 1) ∧
      List.Forall₂ (fun x s => x.cs.sigma (ev.a.vel - ev.b.vel).abs = .ok s) (eqs ev.A ev.B) sigmas ∧
      List.Forall₂ (fun x M => ∃ vm, x.cs.maxSV (c.maxRelVel ev.A ev.B) = .ok (M, vm)) (eqs ev.A ev.B) maxima ∧
      ev.path = calculateOutPath sigmas maxima.sum (ev.a.vel - ev.b.vel).abs u w ∧
      sigmas.sum * (ev.a.vel - ev.b.vel).abs ≤ maxima.sum := by
  intro ev hmem
  obtain ⟨hAB, hB, -⟩ := run_events (wholeEnv T n eqs c) hv fi fs st0 st hev.nonneg hlog hrun ev hmem
  have hle := C75_announced_speeds (wholeEnv T n eqs c) hout hv fi fs st0 st hlog hrun hmax ev hmem
  obtain ⟨u, w, hu, hw, hp⟩ := C75_null_collision_rule (wholeEnv T n eqs c) hv fi fs st0 st hlog hrun ev hmem
  have hbound : ∀ x ∈ eqs ev.A ev.B, SigmaVBound x.cs (c.maxRelVel ev.A ev.B) :=
    fun x hx => hb ev.A ev.B hAB hB x hx
  have hsig : ∀ x ∈ eqs ev.A ev.B, x.cs.sigma (ev.a.vel - ev.b.vel).abs =
      .ok ((x.toEqn T c.rng c.inplace).sigma (ev.a.vel - ev.b.vel).abs) := by
    intro x hx
    obtain ⟨s, hs, -⟩ := hev ev hmem x hx
    show _ = Except.ok (match x.cs.sigma (ev.a.vel - ev.b.vel).abs with | .ok c => c | .error _ => 0)
    rw [hs]
  have hM : ∀ x ∈ eqs ev.A ev.B, ∃ vm, x.cs.maxSV (c.maxRelVel ev.A ev.B) =
      .ok ((x.toEqn T c.rng c.inplace).maxSigmaV (c.maxRelVel ev.A ev.B), vm) := by
    intro x hx
    obtain ⟨M, vm, h1, -⟩ := hbound x hx
    refine ⟨vm, ?_⟩
    show _ = Except.ok ((match x.cs.maxSV (c.maxRelVel ev.A ev.B) with | .ok r => r.1 | .error _ => 0), vm)
    rw [h1]
  have map₂ : ∀ {R : WEq W → ℝ → Prop} {f : WEq W → ℝ} (l : List (WEq W)), (∀ x ∈ l, R x (f x)) →
      List.Forall₂ R l (l.map f) := by
    intro R f l
    induction l with
    | nil => intro _; exact .nil
    | cons x l ih => intro h; exact .cons (h x List.mem_cons_self) (ih fun y hy => h y (List.mem_cons_of_mem _ hy))
  refine ⟨(eqs ev.A ev.B).map fun x => (x.toEqn T c.rng c.inplace).sigma (ev.a.vel - ev.b.vel).abs,
    (eqs ev.A ev.B).map fun x => (x.toEqn T c.rng c.inplace).maxSigmaV (c.maxRelVel ev.A ev.B), u, w, hu, hw,
    map₂ _ hsig, map₂ _ hM, ?_, ?_⟩
  · rw [hp]
    simp only [wholeEnv, List.map_map]
    rfl
  · have : ∀ l : List (WEq W), (∀ e ∈ l, e ∈ eqs ev.A ev.B) →
        (l.map fun x => (x.toEqn T c.rng c.inplace).sigma (ev.a.vel - ev.b.vel).abs).sum *
          (ev.a.vel - ev.b.vel).abs ≤
        (l.map fun x => (x.toEqn T c.rng c.inplace).maxSigmaV (c.maxRelVel ev.A ev.B)).sum := by
      intro l hl
      induction l with
      | nil => simp
      | cons e l ih =>
        simp only [List.map_cons, List.sum_cons, add_mul]
        refine add_le_add ?_ (ih fun x hx => hl x (List.mem_cons_of_mem _ hx))
        have he := hl e List.mem_cons_self
        obtain ⟨M, vm, h1, h2⟩ := hbound e he
        obtain ⟨vm', h3⟩ := hM e he
        rw [h1] at h3
        have h4 : M = (e.toEqn T c.rng c.inplace).maxSigmaV (c.maxRelVel ev.A ev.B) := by
          injection h3 with h3; injection h3
        rw [← h4]
        exact h2 _ _ (Vec.abs_nonneg _) hle (hsig e he)
    exact this _ fun _ h => h

/-! ## C74 -/

/-- Specification: the threshold energy a document asks for. -/
noncomputable def documentThreshold (mu : ℝ) : Option ThrDoc → ℝ
  | none => 0
  | some (.energy e) => e
  | some (.speed v) => 1 / 2 * mu * v ^ 2

/-- Specification: the speed a row of a table is written for. -/
noncomputable def documentSpeed (mu : ℝ) (r : RowDoc) : ℝ :=
  match r.1 with
  | .energy x => Real.sqrt (x / (1 / 2 * mu))
  | .speed v => v

theorem loadThreshold_document (mu : ℝ) (t : Option ThrDoc) : loadThreshold mu t = documentThreshold mu t := by
  rcases t with _ | t
  · rfl
  · cases t
    · rfl
    · simp only [loadThreshold, documentThreshold, pow_two]

/-- Out of place an elastic model hands over what it would have written in place. -/
theorem elastic_out (rng : RNG S ℝ) (mu : ReducedMass ℝ) (p q : Part W) (s : S) {a b : Vec} {s' : S}
    (h : elasticAct rng mu true p q s = collided true p q a b s') (ip : Bool) :
    elasticAct rng mu ip p q s = collided ip p q a b s' := by
  cases ip
  · have h1 : (elasticAct rng mu true p q s).1.vel = a := by rw [h]; rfl
    have h2 : (elasticAct rng mu true p q s).2.1.vel = b := by rw [h]; rfl
    have h3 : (elasticAct rng mu true p q s).2.2.2 = s' := by rw [h]; rfl
    rw [← h1, ← h2, ← h3]
    rfl
  · exact h

theorem vss_out (pow : ℝ → ℝ → ℝ) (k : ℝ) (rng : RNG S ℝ) (mu : ReducedMass ℝ) (p q : Part W) (s : S) {a b : Vec}
    {s' : S} (h : vssAct pow k rng mu true p q s = collided true p q a b s') (ip : Bool) :
    vssAct pow k rng mu ip p q s = collided ip p q a b s' := by
  cases ip
  · have h1 : (vssAct pow k rng mu true p q s).1.vel = a := by rw [h]; rfl
    have h2 : (vssAct pow k rng mu true p q s).2.1.vel = b := by rw [h]; rfl
    have h3 : (vssAct pow k rng mu true p q s).2.2.2 = s' := by rw [h]; rfl
    rw [← h1, ← h2, ← h3]
    rfl
  · exact h

/-- **C74**  A document completes only with one of the three models, and with a cross section of the kind the equation
names. -/
theorem C74_known_models {T : Tools W} {db : Registry ℝ} {e : LEq} {d : InterDoc} {w : WEq W}
    (h : completeEq T db e d = .ok w) :
    w.eq = e ∧ (e.model = "elastic" ∨ e.model = "vss_elastic" ∨ e.model = "inelastic") ∧
      (e.csModel = match d.cs with
        | .constant .. => "constant" | .vhs .. => "vhs" | .inverse .. => "inverse" | .log .. => "log"
        | .data .. => "data" | .lotz .. => "lotz") ∧
      (e.model ≠ "inelastic" → w.energyChange = 0) ∧
      (e.model = "inelastic" → w.energyChange = d.declared.getD (-w.cs.thrE)) := by
  obtain ⟨a, b, -, -, he, -, -, hm, hd, hl⟩ := completeEq_ok h
  refine ⟨he, ?_, by rw [← hl]; cases d.cs <;> rfl, ?_⟩
  · rcases loadModel_ok hm with ⟨h1, -⟩ | ⟨h1, -⟩ | ⟨h1, -⟩
    exacts [.inl h1, .inr (.inl h1), .inr (.inr h1)]
  · unfold WEq.energyChange
    rcases loadModel_ok hm with ⟨h1, h2⟩ | ⟨h1, h2⟩ | ⟨h1, i, h2, -⟩
    · rw [h2, h1]; exact ⟨fun _ => rfl, fun h => absurd h (by decide)⟩
    · rw [h2, h1]; exact ⟨fun _ => rfl, fun h => absurd h (by decide)⟩
    · rw [h2, h1, hd]; exact ⟨fun h => absurd rfl h, fun _ => rfl⟩

/-- **C74**  The cross section of a completed equation is the one of its document, with the threshold of the document taken
at the reduced mass of the two reactants. -/
theorem C74_cross_section {T : Tools W} {db : Registry ℝ} (hpos : ∀ x ∈ db, 0 < x.mass) {e : LEq} {d : InterDoc}
    {w : WEq W} (h : completeEq T db e d = .ok w) {a b : Props ℝ} (hA : db[e.A.species.toNat]? = some a)
    (hB : db[e.B.species.toNat]? = some b) :
    let mu := a.mass * b.mass / (a.mass + b.mass)
    w.mu.value = mu ∧
    (∀ c t, d.cs = .constant c t → ThresholdRule w.cs mu (documentThreshold mu t) fun _ => .ok c) ∧
    (∀ p t, d.cs = .vhs p t → ThresholdRule w.cs mu (documentThreshold mu t) fun v =>
      .ok (p.crossSection * (2 * p.KB * p.Tref / (mu * v ^ 2 + p.tiny)) ^ (p.viscTLaw - 1 / 2) * p.gammaViscInv)) ∧
    (∀ k t, d.cs = .inverse k t → ThresholdRule w.cs mu (documentThreshold mu t) fun v =>
      if v = 0 then .error .nonfinite else .ok (k / v)) ∧
    (∀ A B t, d.cs = .log A B t → ThresholdRule w.cs mu (documentThreshold mu t) fun v =>
      if v = 0 then .error .nonfinite else .ok (A - B * (Real.log v / Real.log 10))) ∧
    (∀ rows, d.cs = .data rows → ∀ r ∈ rows, ∃ r' ∈ rows,
      documentSpeed mu r' = documentSpeed mu r ∧ w.cs.sigma (documentSpeed mu r) = .ok r'.2) := by
  obtain ⟨a', b', hA', hB', -, hmu, hcs, -, -, -⟩ := completeEq_ok h
  rw [hA] at hA'; rw [hB] at hB'
  cases hA'; cases hB'
  have ha := hpos a (List.mem_of_getElem? hA)
  have hb := hpos b (List.mem_of_getElem? hB)
  have hmu0 : 0 < a.mass * b.mass / (a.mass + b.mass) := by positivity
  intro mu
  have key : ∀ (mk : ℝ → Except XErr XSec) (thr : Option ThrDoc) (f : ℝ → Except XErr ℝ),
      (∀ t, (t < 0 → mk t = .error .badThreshold) ∧ (0 ≤ t → ∃ x, mk t = .ok x ∧ ThresholdRule x mu t f)) →
      mk (loadThreshold mu thr) = .ok w.cs → ThresholdRule w.cs mu (documentThreshold mu thr) f := by
    intro mk thr f hmk hok
    rw [loadThreshold_document] at hok
    rcases lt_or_ge (documentThreshold mu thr) 0 with h0 | h0
    · rw [(hmk _).1 h0] at hok; cases hok
    · obtain ⟨x, hx, hr⟩ := (hmk _).2 h0
      rw [hx] at hok; cases hok; exact hr
  refine ⟨by rw [hmu]; rfl, ?_, ?_, ?_, ?_, ?_⟩
  · intro c t hd; rw [hd] at hcs
    exact key _ t _ (fun t => C54_constant hmu0 c t) hcs
  · intro p t hd; rw [hd] at hcs
    exact key _ t _ (fun t => C54_vhs hmu0 p t) hcs
  · intro k t hd; rw [hd] at hcs
    exact key _ t _ (fun t => C54_inverse hmu0 k t) hcs
  · intro A B t hd; rw [hd] at hcs
    exact key _ t _ (fun t => C54_log hmu0 A B t) hcs
  · intro rows hd; rw [hd] at hcs
    obtain ⟨hinc, hfrom, hto⟩ := C57_loaded mu rows
    intro r hr
    obtain ⟨x, hx, hx1⟩ := hto r hr
    obtain ⟨r', hr', hx2, hx3⟩ := hfrom x hx
    have hx4 : x.1 = documentSpeed mu r := hx1
    refine ⟨r', hr', hx3.symm.trans hx4, ?_⟩
    rw [← hx4, ← hx2]
    exact C57_points hinc hcs hx

/-- **C74**  Model `elastic`: the pair keeps its momentum and its relative speed and leaves in the direction drawn
uniformly from two random numbers; everything else of the particles is kept. -/
theorem C74_elastic {T : Tools W} {db : Registry ℝ} (hpos : ∀ x ∈ db, 0 < x.mass) {e : LEq} {d : InterDoc}
    {w : WEq W} (h : completeEq T db e d = .ok w) (hmod : e.model = "elastic") {a b : Props ℝ}
    (hA : db[e.A.species.toNat]? = some a) (hB : db[e.B.species.toNat]? = some b) (rng : RNG S ℝ) (hr : rng.Unit)
    (ip : Bool) (p q : Part W) (s : S) :
    let u := (rng.rand s).1
    let z := (rng.rand (rng.rand s).2).1
    let g := (p.vel - q.vel).abs
    ∃ va vb : Vec, w.act T rng ip p q s = some (collided ip p q va vb (rng.rand (rng.rand s).2).2) ∧
      a.mass • va + b.mass • vb = a.mass • p.vel + b.mass • q.vel ∧
      ke a.mass va + ke b.mass vb = ke a.mass p.vel + ke b.mass q.vel ∧
      va - vb = ⟨g * (2 * u - 1), g * (Real.sqrt (1 - (2 * u - 1) ^ 2) * Real.cos (2 * Real.pi * z)),
        g * (Real.sqrt (1 - (2 * u - 1) ^ 2) * Real.sin (2 * Real.pi * z))⟩ := by
  obtain ⟨a', b', hA', hB', -, hmu, -, hm, -, -⟩ := completeEq_ok h
  rw [hA] at hA'; rw [hB] at hB'
  cases hA'; cases hB'
  have ha := hpos a (List.mem_of_getElem? hA)
  have hb := hpos b (List.mem_of_getElem? hB)
  have hw : w.model = .elastic := by
    rcases loadModel_ok hm with ⟨-, h2⟩ | ⟨h1, -⟩ | ⟨h1, -⟩
    · exact h2
    · rw [hmod] at h1; exact absurd h1 (by decide)
    · rw [hmod] at h1; exact absurd h1 (by decide)
  obtain ⟨va, vb, h1, h2, h3, -, -⟩ := C45_elastic rng hr ha hb true p q s
  have hdir := C45_direction rng ha hb p q s
  simp only at hdir
  rw [h1] at hdir
  refine ⟨va, vb, ?_, h2, h3, hdir⟩
  unfold WEq.act
  rw [hw, hmu]
  exact congrArg some (elastic_out rng _ p q s h1 ip)

/-- **C74**  Model `vss_elastic`: the pair keeps its momentum, and its relative velocity is turned by the angle whose cosine
is `2 u^(1/alpha) - 1` with the parameter of the document. -/
theorem C74_vss {T : Tools W} {db : Registry ℝ} (hpos : ∀ x ∈ db, 0 < x.mass) {e : LEq} {d : InterDoc}
    {w : WEq W} (h : completeEq T db e d = .ok w) (hmod : e.model = "vss_elastic")
    (hpow : ∀ u, 0 ≤ u → u ≤ 1 → 0 ≤ T.pow u d.vssParamInv ∧ T.pow u d.vssParamInv ≤ 1) {a b : Props ℝ}
    (hA : db[e.A.species.toNat]? = some a) (hB : db[e.B.species.toNat]? = some b) (rng : RNG S ℝ) (hr : rng.Unit)
    (ip : Bool) (p q : Part W) (s : S)
    (hD : Real.sqrt ((p.vel - q.vel).y ^ 2 + (p.vel - q.vel).z ^ 2) > 1 / 1000000) :
    ∃ va vb : Vec, w.act T rng ip p q s = some (collided ip p q va vb (rng.rand (rng.rand s).2).2) ∧
      a.mass • va + b.mass • vb = a.mass • p.vel + b.mass • q.vel ∧
      ke a.mass va + ke b.mass vb = ke a.mass p.vel + ke b.mass q.vel ∧
      (va - vb).dot (p.vel - q.vel) =
        (2 * T.pow (rng.rand s).1 d.vssParamInv - 1) * ((va - vb).abs * (p.vel - q.vel).abs) := by
  obtain ⟨a', b', hA', hB', -, hmu, -, hm, -, -⟩ := completeEq_ok h
  rw [hA] at hA'; rw [hB] at hB'
  cases hA'; cases hB'
  have ha := hpos a (List.mem_of_getElem? hA)
  have hb := hpos b (List.mem_of_getElem? hB)
  have hw : w.model = .vss d.vssParamInv := by
    rcases loadModel_ok hm with ⟨h1, -⟩ | ⟨-, h2⟩ | ⟨h1, -⟩
    · rw [hmod] at h1; exact absurd h1 (by decide)
    · exact h2
    · rw [hmod] at h1; exact absurd h1 (by decide)
  obtain ⟨va, vb, h1, h2, -, h4, -⟩ := C46_vss T.pow d.vssParamInv hpow rng hr ha hb true p q s
  have hdir := C46_deflection T.pow d.vssParamInv hpow rng hr ha hb p q s hD
  simp only at hdir
  rw [h1] at hdir
  refine ⟨va, vb, ?_, h2, (h4 (.inl hD)).1, hdir⟩
  unfold WEq.act
  rw [hw, hmu]
  exact congrArg some (vss_out T.pow d.vssParamInv rng _ p q s h1 ip)

/-- **C74**  Model `inelastic`: where it is performed the reactants are left as they are, and the products have the
written species in the written order. -/
theorem C74_inelastic {T : Tools W} {db : Registry ℝ} (hpos : ∀ x ∈ db, 0 < x.mass) {e : LEq} {d : InterDoc}
    (hwf : WellFormed db e) {w : WEq W} (h : completeEq T db e d = .ok w) (hmod : e.model = "inelastic")
    (rng : RNG S ℝ) (ip : Bool) (p q : Part W) (s : S) {r : Part W × Part W × List (Part W) × S}
    (hr : w.act T rng ip p q s = some r) :
    r.1 = p ∧ r.2.1 = q ∧ r.2.2.1.map Part.species = (expandTerms e.products).map Term.species := by
  obtain ⟨a', b', -, -, -, -, -, hm, -, -⟩ := completeEq_ok h
  rcases loadModel_ok hm with ⟨h1, -⟩ | ⟨h1, -⟩ | ⟨-, i, h2, h3⟩
  · rw [hmod] at h1; exact absurd h1 (by decide)
  · rw [hmod] at h1; exact absurd h1 (by decide)
  unfold WEq.act at hr
  rw [h2] at hr
  cases i with
  | two m =>
    obtain ⟨x, hx, rfl⟩ := Option.map_eq_some_iff.1 hr
    exact ⟨rfl, rfl, C49_species_in_order hwf.count hpos rng p q s x.1 ⟨m, x.2, .inl ⟨h3, hx⟩⟩⟩
  | three m =>
    obtain ⟨x, hx, rfl⟩ := Option.map_eq_some_iff.1 hr
    exact ⟨rfl, rfl, C49_species_in_order hwf.count hpos rng p q s x.1 ⟨m, x.2, .inr ⟨h3, hx⟩⟩⟩
  | unsupported => cases hr

namespace RateExample

open WholeExample

noncomputable def plain : XSec where
  sigma v := .ok (if v ≥ Real.sqrt (0 / (1 / 2 * (1 * 2000 / (1 + 2000)))) then 3 else 0)
  thrE := 0
  maxSV vmax := .ok (if vmax ≥ Real.sqrt (0 / (1 / 2 * (1 * 2000 / (1 + 2000)))) then (3 * vmax, vmax) else (0, 0))

theorem plain_load (T : Tools Unit) :
    CSDoc.load T.solve T.extrapolate (ReducedMass.mk' (1 : ℝ) 2000).value (.constant 3 none) = .ok plain := by
  show mkConstant 3 (1 * 2000 / (1 + 2000)) 0 = _
  unfold mkConstant setThreshold
  rw [if_neg (by norm_num)]
  rfl

theorem completeEq_of {W : Type} (T : Tools W) {db : Registry ℝ} {e : LEq} {d : InterDoc} {a b : Props ℝ} {cs : XSec}
    {m : IModel W} (hA : db[e.A.species.toNat]? = some a) (hB : db[e.B.species.toNat]? = some b)
    (hl : d.cs.label = e.csModel) (hcs : d.cs.load T.solve T.extrapolate (ReducedMass.mk' a.mass b.mass).value = .ok cs)
    (hm : loadModel T db e d cs = .ok m) :
    completeEq T db e d = .ok ⟨e, ReducedMass.mk' a.mass b.mass, cs, m, d.declared⟩ := by
  unfold completeEq
  rw [hA, hB]
  dsimp only
  rw [if_pos hl, hcs]
  dsimp only
  rw [hm]

/-- Elastic scattering of electrons by hydrogen, with the model of the given name. -/
def scatter (model : String) : LEq := ⟨Term.single 0, Term.single 1, [Term.single 0, Term.single 1], "constant", model⟩

/-- An elastic and a VSS equation between electrons and hydrogen complete, so the theorems apply to them. -/
example (T : Tools Unit) : ∃ w w' : WEq Unit,
    completeEq T exReal (scatter "elastic") { cs := .constant 3 none } = .ok w ∧
    completeEq T exReal (scatter "vss_elastic") { cs := .constant 3 none, vssParamInv := 1 / 2 } = .ok w' ∧
    w.cs.sigma 7 = .ok 3 := by
  refine ⟨_, _, completeEq_of T (a := ⟨"e", 1, -1⟩) (b := ⟨"H", 2000, 0⟩) rfl rfl rfl (plain_load T) rfl,
    completeEq_of T (a := ⟨"e", 1, -1⟩) (b := ⟨"H", 2000, 0⟩) rfl rfl rfl (plain_load T) rfl, ?_⟩
  show Except.ok (if (7 : ℝ) ≥ _ then (3 : ℝ) else 0) = _
  rw [if_pos (by rw [zero_div, Real.sqrt_zero]; norm_num)]

/-- The run of `WholeExample`, out of place: the announced speed is the one in the cell, the constant cross section
meets its bound, and the test is accepted with probability at most one. -/
example (T : Tools Unit) : ∃ (eqs : ℕ → ℕ → List (WEq Unit)) (st : DState (Part Unit) Unit ℝ),
    driver (wholeEnv T 2 eqs (cell false)) 5 5 start = .ok st ∧ st.log ≠ [] ∧
    ∀ ev ∈ st.log, ∃ (sigmas maxima : List ℝ) (u w : ℝ),
      ev.path = calculateOutPath sigmas maxima.sum (ev.a.vel - ev.b.vel).abs u w ∧
      sigmas.sum * (ev.a.vel - ev.b.vel).abs ≤ maxima.sum := by
  obtain ⟨w, hw, -, -, -, -, -, -, -, st, h5, h6, h7⟩ := run T false
  refine ⟨_, st, h5, fun h => ?_, fun ev hev => ?_⟩
  · unfold performed at h7
    rw [h] at h7
    cases h7
  · have hcs : w.cs = xs := by
      obtain ⟨a, b, hA, hB, -, -, hcs, -⟩ := completeEq_ok hw
      cases (show some ⟨"e", 1, -1⟩ = some a from hA)
      cases (show some ⟨"H", 2000, 0⟩ = some b from hB)
      have hxs : mkConstant 3 (1 * 2000 / (1 + 2000)) 10 = .ok xs := by
        unfold mkConstant setThreshold
        rw [if_neg (by norm_num)]
        rfl
      have : mkConstant 3 (1 * 2000 / (1 + 2000)) 10 = .ok w.cs := hcs
      rw [hxs] at this
      exact (Except.ok.inj this).symm
    have key := C75_library (c := cell false) rfl zeros_valid rfl h5 h6
    refine (fun h => ?_) (key ?_ ?_ ev hev)
    · obtain ⟨sigmas, maxima, u, z, -, -, -, -, h8, h9⟩ := h
      exact ⟨sigmas, maxima, u, z, h8, h9⟩
    · intro A B hAB hB p q hp1 hp2 hq1 hq2 hpq
      show ((start.mem p).vel - (start.mem q).vel).abs ≤ 5
      have h01 : ∀ k, (start.mem k).vel = ⟨5, 0, 0⟩ ∨ (start.mem k).vel = ⟨0, 0, 0⟩ := by
        intro k
        unfold start
        dsimp only
        split
        · exact .inl rfl
        · exact .inr rfl
      unfold Vec.abs
      rw [Real.sqrt_le_left (by norm_num)]
      rcases h01 p with h | h <;> rcases h01 q with h' | h' <;> rw [h, h'] <;>
        simp only [Vec.normSq, Vec.sub_x, Vec.sub_y, Vec.sub_z] <;> norm_num
    · intro A B _ _ x hx
      split at hx
      swap
      · cases hx
      rw [List.mem_singleton.1 hx, hcs]
      refine ⟨3 * 5, 5, ?_, fun v s h0 hv hs => ?_⟩
      · show Except.ok (if (5 : ℝ) ≥ _ then ((3 : ℝ) * 5, (5 : ℝ)) else (0, 0)) = _
        rw [if_pos fast]
      · change v ≤ 5 at hv
        have hs' : (if v ≥ Real.sqrt (10 / (1 / 2 * (1 * 2000 / (1 + 2000)))) then (3 : ℝ) else 0) = s :=
          Except.ok.inj hs
        rw [← hs']
        split
        · linarith
        · norm_num

end RateExample

end Chimp
