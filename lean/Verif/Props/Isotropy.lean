import Verif.Lemmas.VSSLaw
import Verif.Props.DriverRate

/-!
# Properties C77 and C78: the distribution of the directions after an interaction
-/

namespace Chimp

open MeasureTheory Real Set
open scoped ENNReal

variable {S W : Type}

/-! ## Specification -/

/-- The particles that leave an interaction: the products, or the reactants if there are none. -/
def outgoing (r : Part W × Part W × List (Part W) × S) : List (Part W) :=
  if r.2.2.1.isEmpty then [r.1, r.2.1] else r.2.2.1

/-- Velocity of the `i`-th outgoing particle relative to `c`; zero if there is none. -/
def outVel (c : Vec) (o : Option (Part W × Part W × List (Part W) × S)) (i : ℕ) : Vec :=
  match o.bind fun r => (outgoing r)[i]? with
  | some p => p.vel - c
  | none => ⟨0, 0, 0⟩

/-! ## C77 -/

theorem elastic_isoForm (rng : RNG S ℝ) (mu : ReducedMass ℝ) (ip : Bool) (p q : Part W) :
    IsoForm rng (fun s => outVel (velCM mu p.vel q.vel) (some (elasticAct rng mu ip p q s))) := by
  refine .inl ⟨(p.vel - q.vel).abs, fun i => if i = 0 then mu.over_m1 else if i = 1 then -mu.over_m2 else 0, ?_⟩
  intro s i
  have h : outgoing (elasticAct rng mu ip p q s) =
      [{ p with vel := velCM mu p.vel q.vel + mu.over_m1 • (isoVec rng (p.vel - q.vel).abs s).1 },
       { q with vel := velCM mu p.vel q.vel - mu.over_m2 • (isoVec rng (p.vel - q.vel).abs s).1 }] := by
    cases ip <;> rfl
  simp only [outVel, Option.bind_some, h]
  match i with
  | 0 => simp
  | 1 => simp
  | n + 2 => simp

theorem two_isoForm {m : InElastic W} (hk : ∀ o ∈ m.ops, ∀ r p q sc, (applyOps o r p q sc).vel = r.vel)
    (rng : RNG S ℝ) (p q : Part W) :
    IsoForm rng (fun s => outVel (velCM m.mu p.vel q.vel)
      ((m.interact2 rng p q s).map fun r => (p, q, r.1, r.2))) := by
  unfold InElastic.interact2
  split
  swap
  · exact .inl ⟨0, fun _ => 0, fun s i => by simp [outVel]⟩
  rename_i f1 f2 o1 o2 hf ho
  have k1 := hk o1 (by rw [ho]; simp)
  have k2 := hk o2 (by rw [ho]; simp)
  simp only
  split
  swap
  · exact .inl ⟨0, fun _ => 0, fun s i => by simp [outVel]⟩
  rename_i r1 r2 speed h1 h2 h3
  refine .inl ⟨speed, fun i => if i = 0 then m.mu1.over_m1 * m.mu1Scale else
    if i = 1 then -(m.mu1.over_m2 * m.mu1Scale) else 0, ?_⟩
  intro s i
  match i with
  | 0 => simp [outVel, outgoing, k1]
  | 1 => simp [outVel, outgoing, k2]
  | n + 2 => simp [outVel, outgoing]

theorem three_isoForm {m : InElastic W} (hk : ∀ o ∈ m.ops, ∀ r p q sc, (applyOps o r p q sc).vel = r.vel)
    (rng : RNG S ℝ) (p q : Part W) :
    IsoForm rng (fun s => outVel (velCM m.mu p.vel q.vel)
      ((m.interact3 rng p q s).map fun r => (p, q, r.1, r.2))) := by
  unfold InElastic.interact3
  split
  swap
  · exact .inl ⟨0, fun _ => 0, fun s i => by simp [outVel]⟩
  rename_i f1 f2 f3 o1 o2 o3 hf ho
  have k1 := hk o1 (by rw [ho]; simp)
  have k2 := hk o2 (by rw [ho]; simp)
  have k3 := hk o3 (by rw [ho]; simp)
  simp only
  split
  swap
  · exact .inl ⟨0, fun _ => 0, fun s i => by simp [outVel]⟩
  rename_i r1 r2 r3 speed h1 h2 h3 h4
  refine .inr ⟨speed, fun i => if i = 0 then m.mu1.over_m1 * m.mu1Scale else
    if i ≤ 2 then -(m.mu1.over_m2 * m.mu1Scale) else 0, fun i => if i = 1 then m.mu2.over_m1 * m.mu2Scale else
    if i = 2 then -(m.mu2.over_m2 * m.mu2Scale) else 0, ?_⟩
  intro s i
  match i with
  | 0 => simp [outVel, outgoing, k1]
  | 1 =>
    simp [outVel, outgoing, k2]
    refine ⟨?_, ?_, ?_⟩ <;> ring
  | 2 =>
    simp [outVel, outgoing, k3]
    refine ⟨?_, ?_, ?_⟩ <;> ring
  | n + 3 => simp [outVel, outgoing]

/-- Every interaction but VSS. -/
theorem act_isoForm {T : Tools W} {db : Registry ℝ} (hpos : ∀ x ∈ db, 0 < x.mass) {e : LEq} {d : InterDoc}
    {w : WEq W} (h : completeEq T db e d = .ok w) (hn : ∀ t ∈ e.products, 0 ≤ t.n) (hmod : e.model ≠ "vss_elastic")
    (hops : OpsKeepVel T.oc e) {a b : Props ℝ} (hA : db[e.A.species.toNat]? = some a)
    (hB : db[e.B.species.toNat]? = some b) (rng : RNG S ℝ) (ip : Bool) (p q : Part W) :
    IsoForm rng (fun s => outVel (weightedMean a.mass b.mass p.vel q.vel) (w.act T rng ip p q s)) := by
  obtain ⟨a', b', hA', hB', -, hmu, -, hm, -, -⟩ := completeEq_ok h
  have ea : a' = a := by rw [hA] at hA'; cases hA'; rfl
  have eb : b' = b := by rw [hB] at hB'; cases hB'; rfl
  subst ea eb
  have ha := hpos a' (List.mem_of_getElem? hA)
  have hb := hpos b' (List.mem_of_getElem? hB)
  rw [← velCM_eq ha hb, ← hmu]
  unfold WEq.act
  rcases loadModel_ok hm with ⟨-, hw⟩ | ⟨h1, -⟩ | ⟨-, i, hw, hl⟩
  · rw [hw]; exact elastic_isoForm rng w.mu ip p q
  · exact absurd h1 hmod
  · rw [hw]
    cases i with
    | two m =>
      obtain ⟨a2, b2, -, -, -, -, L, -⟩ := newLoad_two hn hl
      have hmu' : w.mu = m.mu := by
        have e1 := L.hA; rw [hA] at e1; cases e1
        have e2 := L.hB; rw [hB] at e2; cases e2
        rw [hmu, L.mu]
      rw [hmu']
      exact two_isoForm (fun o ho => applyOps_vel (keepVel_of L hops o ho)) rng p q
    | three m =>
      obtain ⟨a2, b2, -, -, -, -, -, -, L, -⟩ := newLoad_three hn hl
      have hmu' : w.mu = m.mu := by
        have e1 := L.hA; rw [hA] at e1; cases e1
        have e2 := L.hB; rw [hB] at e2; cases e2
        rw [hmu, L.mu]
      rw [hmu']
      exact three_isoForm (fun o ho => applyOps_vel (keepVel_of L hops o ho)) rng p q
    | unsupported => exact .inl ⟨0, fun _ => 0, fun s i => by simp [outVel]⟩

variable [MeasurableSpace S] {μ : Measure S} [IsProbabilityMeasure μ]

/-- **C77**  Elastic and inelastic interactions prefer no direction: seen from the centre of mass of the reactants,
the velocities of all outgoing particles together have a distribution that is invariant under every rotation and
reflection. -/
theorem C77_isotropic {T : Tools W} {db : Registry ℝ} (hpos : ∀ x ∈ db, 0 < x.mass) {e : LEq} {d : InterDoc}
    {w : WEq W} (h : completeEq T db e d = .ok w) (hn : ∀ t ∈ e.products, 0 ≤ t.n) (hmod : e.model ≠ "vss_elastic")
    (hops : OpsKeepVel T.oc e) {a b : Props ℝ} (hA : db[e.A.species.toNat]? = some a)
    (hB : db[e.B.species.toNat]? = some b) {rng : RNG S ℝ} (hrng : rng.IID μ) (ip : Bool) (p q : Part W)
    {R : Vec → Vec} (hR : Rotation R) :
    let V := fun s => outVel (weightedMean a.mass b.mass p.vel q.vel) (w.act T rng ip p q s)
    Measurable V ∧ μ.map (fun s i => R (V s i)) = μ.map V := by
  have hX := act_isoForm hpos h hn hmod hops hA hB rng ip p q
  exact ⟨hX.measurable hrng, hX.invariant hrng hR⟩

/-- **C77**  On average every outgoing particle moves with the centre of mass of the reactants. -/
theorem C77_mean {T : Tools W} {db : Registry ℝ} (hpos : ∀ x ∈ db, 0 < x.mass) {e : LEq} {d : InterDoc}
    {w : WEq W} (h : completeEq T db e d = .ok w) (hn : ∀ t ∈ e.products, 0 ≤ t.n) (hmod : e.model ≠ "vss_elastic")
    (hops : OpsKeepVel T.oc e) {a b : Props ℝ} (hA : db[e.A.species.toNat]? = some a)
    (hB : db[e.B.species.toNat]? = some b) {rng : RNG S ℝ} (hrng : rng.IID μ) (ip : Bool) (p q : Part W) (i : ℕ) :
    let V := fun s => outVel (weightedMean a.mass b.mass p.vel q.vel) (w.act T rng ip p q s) i
    (Integrable (fun s => (V s).x) μ ∧ ∫ s, (V s).x ∂μ = 0) ∧
    (Integrable (fun s => (V s).y) μ ∧ ∫ s, (V s).y ∂μ = 0) ∧
    (Integrable (fun s => (V s).z) μ ∧ ∫ s, (V s).z ∂μ = 0) := by
  have hX := act_isoForm hpos h hn hmod hops hA hB rng ip p q
  refine ⟨hX.mean hrng i Vec.x Vec.measurable_x (fun v => rfl) fun v => ?_,
    hX.mean hrng i Vec.y Vec.measurable_y (fun v => rfl) fun v => ?_,
    hX.mean hrng i Vec.z Vec.measurable_z (fun v => rfl) fun v => ?_⟩ <;>
  · unfold Vec.normSq
    nlinarith [sq_nonneg v.x, sq_nonneg v.y, sq_nonneg v.z]

/-! ## C78 -/

omit [MeasurableSpace S] in
/-- The VSS interaction in terms of its two random numbers. -/
theorem vss_form {T : Tools W} {db : Registry ℝ} (hpos : ∀ x ∈ db, 0 < x.mass) {e : LEq} {d : InterDoc}
    {w : WEq W} (h : completeEq T db e d = .ok w) (hmod : e.model = "vss_elastic")
    {a b : Props ℝ} (hA : db[e.A.species.toNat]? = some a)
    (hB : db[e.B.species.toNat]? = some b) (rng : RNG S ℝ) (ip : Bool) (p q : Part W) (s : S) (i : ℕ) :
    outVel (weightedMean a.mass b.mass p.vel q.vel) (w.act T rng ip p q s) i =
      (if i = 0 then b.mass / (a.mass + b.mass) else if i = 1 then -(a.mass / (a.mass + b.mass)) else 0) •
        vssPost (p.vel - q.vel) (2 * T.pow (rng.rand s).1 d.vssParamInv - 1)
          (2 * π * (rng.rand (rng.rand s).2).1) := by
  obtain ⟨a', b', hA', hB', -, hmu, -, hm, -, -⟩ := completeEq_ok h
  have ea : a' = a := by rw [hA] at hA'; cases hA'; rfl
  have eb : b' = b := by rw [hB] at hB'; cases hB'; rfl
  subst ea eb
  have ha := hpos a' (List.mem_of_getElem? hA)
  have hb := hpos b' (List.mem_of_getElem? hB)
  obtain ⟨_, e1, e2⟩ := reducedMass_eq ha hb
  rcases loadModel_ok hm with ⟨h1, -⟩ | ⟨-, hw⟩ | ⟨h1, -⟩
  · rw [hmod] at h1; simp at h1
  · have hact : w.act T rng ip p q s = some (vssAct T.pow d.vssParamInv rng w.mu ip p q s) := by
      unfold WEq.act; rw [hw]
    rw [hact, ← velCM_eq ha hb, ← hmu]
    obtain ⟨post, hpost⟩ : ∃ post, post = vssPost (p.vel - q.vel)
      (2 * T.pow (rng.rand s).1 d.vssParamInv - 1) (2 * π * (rng.rand (rng.rand s).2).1) := ⟨_, rfl⟩
    have ho : outgoing (vssAct T.pow d.vssParamInv rng w.mu ip p q s) =
      [{ p with vel := velCM w.mu p.vel q.vel + w.mu.over_m1 • post },
       { q with vel := velCM w.mu p.vel q.vel - w.mu.over_m2 • post }] := by
      rw [hpost]
      cases ip <;> rfl
    rw [← hpost]
    simp only [outVel, Option.bind_some, ho]
    rw [hmu, e1, e2]
    match i with
    | 0 => simp
    | 1 => simp
    | n + 2 => simp
  · rw [hmod] at h1; simp at h1

theorem measurable_vssPost (v : Vec) : Measurable (fun t : ℝ × ℝ => vssPost v t.1 t.2) := by
  unfold vssPost
  simp only
  by_cases h : √(v.y ^ 2 + v.z ^ 2) > 1 / 1000000
  · simp only [h, if_true]
    refine Vec.measurable_mk ?_ ?_ ?_ <;> simp only <;> fun_prop
  · simp only [h, if_false]
    refine Vec.measurable_mk ?_ ?_ ?_ <;> simp only <;> fun_prop

/-- The relative velocity after a VSS interaction. -/
noncomputable def vssRel (pow : ℝ → ℝ → ℝ) (k : ℝ) (rng : RNG S ℝ) (v : Vec) (s : S) : Vec :=
  vssPost v (2 * pow (rng.rand s).1 k - 1) (2 * π * (rng.rand (rng.rand s).2).1)

omit [IsProbabilityMeasure μ] in
theorem measurable_vssRel {pow : ℝ → ℝ → ℝ} {k : ℝ} (hpow : Measurable fun u => pow u k) {rng : RNG S ℝ}
    (hrng : rng.IID μ) (v : Vec) : Measurable (vssRel pow k rng v) := by
  have h1 : Measurable (fun s => rng.rand (rng.rand s).2) := hrng.rand_meas.comp hrng.rand_meas.snd
  have h2 : Measurable (fun s => 2 * pow (rng.rand s).1 k - 1) :=
    ((hpow.comp hrng.rand_meas.fst).const_mul 2).sub_const 1
  exact (measurable_vssPost v).comp (h2.prodMk (h1.fst.const_mul (2 * π)))

theorem lintegral_vssRel {pow : ℝ → ℝ → ℝ} {k : ℝ} (hpow : Measurable fun u => pow u k) {rng : RNG S ℝ}
    (hrng : rng.IID μ) (v : Vec) (f : Vec → ℝ≥0∞) (hf : Measurable f) :
    ∫⁻ s, f (vssRel pow k rng v s) ∂μ =
      ∫⁻ u, ∫⁻ z, f (vssPost v (2 * pow u k - 1) (2 * π * z)) ∂unif ∂unif := by
  have hm : Measurable (fun t : ℝ × ℝ => f (vssPost v (2 * pow t.1 k - 1) (2 * π * t.2))) := by
    have h2 : Measurable (fun t : ℝ × ℝ => 2 * pow t.1 k - 1) :=
      ((hpow.comp measurable_fst).const_mul 2).sub_const 1
    exact hf.comp ((measurable_vssPost v).comp (h2.prodMk (measurable_snd.const_mul (2 * π))))
  have hd : Measurable (fun s => (((rng.rand s).1, (rng.rand (rng.rand s).2).1), (rng.rand (rng.rand s).2).2)) := by
    have h1 := hrng.rand_meas.comp (measurable_snd.comp hrng.rand_meas)
    exact ((measurable_fst.comp hrng.rand_meas).prodMk (measurable_fst.comp h1)).prodMk (measurable_snd.comp h1)
  have h1 := lintegral_map (hm.comp measurable_fst) hd (μ := μ)
  rw [law_draw2 hrng] at h1
  rw [lintegral_prod _ (hm.comp measurable_fst).aemeasurable] at h1
  simp only [Function.comp_apply, lintegral_const, measure_univ, mul_one] at h1
  rw [lintegral_prod _ hm.aemeasurable] at h1
  exact h1.symm

theorem smulAll_measurable (k : ℕ → ℝ) : Measurable (fun (v : Vec) (i : ℕ) => k i • v) :=
  measurable_pi_lambda _ fun i => measurable_smul_vec _ measurable_id

/-- **C78**  VSS prefers no direction but that of the incoming relative velocity: if the velocities of the reactants
are turned, the distribution of the outgoing velocities is turned in the same way.  (Both relative velocities are
off the x axis, see `C46_energy_lost`.) -/
theorem C78_turns {T : Tools W} {db : Registry ℝ} (hpos : ∀ x ∈ db, 0 < x.mass) {e : LEq} {d : InterDoc}
    {w : WEq W} (h : completeEq T db e d = .ok w) (hmod : e.model = "vss_elastic")
    (hpow : Measurable fun u => T.pow u d.vssParamInv)
    {a b : Props ℝ} (hA : db[e.A.species.toNat]? = some a)
    (hB : db[e.B.species.toNat]? = some b) {rng : RNG S ℝ} (hrng : rng.IID μ) (ip : Bool) (p q p' q' : Part W)
    {R : Vec → Vec} (hR : Rotation R) (hp : p'.vel = R p.vel) (hq : q'.vel = R q.vel)
    (hD : √((p.vel - q.vel).y ^ 2 + (p.vel - q.vel).z ^ 2) > 1 / 1000000)
    (hD' : √((p'.vel - q'.vel).y ^ 2 + (p'.vel - q'.vel).z ^ 2) > 1 / 1000000) :
    let V := fun s => outVel (weightedMean a.mass b.mass p.vel q.vel) (w.act T rng ip p q s)
    let V' := fun s => outVel (weightedMean a.mass b.mass p'.vel q'.vel) (w.act T rng ip p' q' s)
    Measurable V ∧ Measurable V' ∧ μ.map (fun s i => R (V s i)) = μ.map V' := by
  intro V V'
  obtain ⟨k, hk⟩ : ∃ k : ℕ → ℝ, k = fun i => if i = 0 then b.mass / (a.mass + b.mass) else
    if i = 1 then -(a.mass / (a.mass + b.mass)) else 0 := ⟨_, rfl⟩
  have hV : V = (fun (v : Vec) (i : ℕ) => k i • v) ∘ vssRel T.pow d.vssParamInv rng (p.vel - q.vel) := by
    funext s i
    rw [hk]
    exact vss_form hpos h hmod hA hB rng ip p q s i
  have hV' : V' = (fun (v : Vec) (i : ℕ) => k i • v) ∘ vssRel T.pow d.vssParamInv rng (p'.vel - q'.vel) := by
    funext s i
    rw [hk]
    exact vss_form hpos h hmod hA hB rng ip p' q' s i
  have hRv : p'.vel - q'.vel = R (p.vel - q.vel) := by
    have h1 : p.vel - q.vel = p.vel + (-1 : ℝ) • q.vel := by
      ext <;> simp only [Vec.sub_def, Vec.add_def, Vec.smul_def] <;> ring
    rw [h1, hR.add, hR.smul, hp, hq]
    ext <;> simp only [Vec.sub_def, Vec.add_def, Vec.smul_def] <;> ring
  have m1 := measurable_vssRel hpow hrng (p.vel - q.vel)
  have m2 := measurable_vssRel hpow hrng (p'.vel - q'.vel)
  have mk := smulAll_measurable k
  refine ⟨hV ▸ mk.comp m1, hV' ▸ mk.comp m2, ?_⟩
  have hRV : (fun s i => R (V s i)) = (fun (v : Vec) (i : ℕ) => k i • v) ∘ R ∘
      vssRel T.pow d.vssParamInv rng (p.vel - q.vel) := by
    funext s i
    rw [hV]
    exact hR.smul _ _
  rw [hRV, hV', ← Measure.map_map mk (hR.measurable.comp m1), ← Measure.map_map mk m2]
  congr 1
  refine Measure.ext_of_lintegral _ fun f hf => ?_
  rw [lintegral_map hf (hR.measurable.comp m1), lintegral_map hf m2]
  have l1 := lintegral_vssRel hpow hrng (p.vel - q.vel) (fun v => f (R v)) (hf.comp hR.measurable)
  have l2 := lintegral_vssRel hpow hrng (p'.vel - q'.vel) f hf
  simp only [Function.comp_apply]
  rw [l1, l2]
  refine lintegral_congr fun u => ?_
  rw [hRv] at hD' ⊢
  exact lintegral_vss_rotate hR _ hD hD' _ f

theorem lintegral_vssRel_one {pow : ℝ → ℝ → ℝ} {k : ℝ} (hpow : Measurable fun u => pow u k)
    (hone : ∀ u, 0 ≤ u → u < 1 → pow u k = u) {rng : RNG S ℝ} (hrng : rng.IID μ) (v : Vec)
    (hD : 1 / 1000000 < √(v.y ^ 2 + v.z ^ 2)) : μ.map (vssRel pow k rng v) = isoLaw v.abs := by
  refine Measure.ext_of_lintegral _ fun f hf => ?_
  rw [lintegral_map hf (measurable_vssRel hpow hrng v), lintegral_vssRel hpow hrng v f hf]
  have hT := vssTurn_rotation v (lt_trans (by norm_num) hD)
  have h1 : ∫⁻ u, ∫⁻ z, f (vssPost v (2 * pow u k - 1) (2 * π * z)) ∂unif ∂unif =
      ∫⁻ u, ∫⁻ z, f (vssTurn v (isoOf v.abs (u, z))) ∂unif ∂unif := by
    refine lintegral_congr_ae ?_
    have : ∀ᵐ u ∂unif, u ∈ Ico (0 : ℝ) 1 := ae_restrict_mem measurableSet_Ico
    filter_upwards [this] with u hu
    refine lintegral_congr fun z => ?_
    rw [hone u hu.1 hu.2, vssPost_turn v hD]
  have hm : Measurable (fun t : ℝ × ℝ => f (vssTurn v (isoOf v.abs t))) :=
    hf.comp (hT.measurable.comp (measurable_isoOf' v.abs))
  rw [h1]
  have h2 := lintegral_map (hf.comp hT.measurable) (measurable_isoOf' v.abs) (μ := unif.prod unif)
  simp only [Function.comp_apply] at h2
  rw [lintegral_prod _ hm.aemeasurable] at h2
  rw [← h2]
  have h3 := lintegral_map hf hT.measurable (μ := isoLaw v.abs)
  rw [isoLaw_invariant hT] at h3
  exact h3.symm

/-- **C78**  With parameter 1 the VSS model scatters as the elastic model does: all velocities after the interaction
have the same joint distribution (relative velocity off the x axis). -/
theorem C78_parameter_one {T : Tools W} {db : Registry ℝ} (hpos : ∀ x ∈ db, 0 < x.mass) {e e' : LEq} {d d' : InterDoc}
    {w w' : WEq W} (h : completeEq T db e d = .ok w) (hmod : e.model = "vss_elastic")
    (h' : completeEq T db e' d' = .ok w') (hmod' : e'.model = "elastic")
    (hsame : e.A.species = e'.A.species ∧ e.B.species = e'.B.species)
    (hpow : Measurable fun u => T.pow u d.vssParamInv) (hone : ∀ u, 0 ≤ u → u < 1 → T.pow u d.vssParamInv = u)
    {a b : Props ℝ} (hA : db[e.A.species.toNat]? = some a) (hB : db[e.B.species.toNat]? = some b)
    {rng : RNG S ℝ} (hrng : rng.IID μ) (ip : Bool) (p q : Part W)
    (hD : √((p.vel - q.vel).y ^ 2 + (p.vel - q.vel).z ^ 2) > 1 / 1000000) :
    let V := fun s => outVel (weightedMean a.mass b.mass p.vel q.vel) (w.act T rng ip p q s)
    let V' := fun s => outVel (weightedMean a.mass b.mass p.vel q.vel) (w'.act T rng ip p q s)
    Measurable V ∧ Measurable V' ∧ μ.map V = μ.map V' := by
  intro V V'
  have ha := hpos a (List.mem_of_getElem? hA)
  have hb := hpos b (List.mem_of_getElem? hB)
  obtain ⟨k, hk⟩ : ∃ k : ℕ → ℝ, k = fun i => if i = 0 then b.mass / (a.mass + b.mass) else
    if i = 1 then -(a.mass / (a.mass + b.mass)) else 0 := ⟨_, rfl⟩
  have hV : V = (fun (v : Vec) (i : ℕ) => k i • v) ∘ vssRel T.pow d.vssParamInv rng (p.vel - q.vel) := by
    funext s i
    rw [hk]
    exact vss_form hpos h hmod hA hB rng ip p q s i
  have hV' : V' = (fun (v : Vec) (i : ℕ) => k i • v) ∘ (fun s => (isoVec rng (p.vel - q.vel).abs s).1) := by
    obtain ⟨a', b', hA', hB', -, hmu, -, hm, -, -⟩ := completeEq_ok h'
    rw [← hsame.1, hA] at hA'
    rw [← hsame.2, hB] at hB'
    cases hA'
    cases hB'
    obtain ⟨_, e1, e2⟩ := reducedMass_eq ha hb
    funext s i
    rcases loadModel_ok hm with ⟨-, hw⟩ | ⟨h1, -⟩ | ⟨h1, -⟩
    · have hact : w'.act T rng ip p q s = some (elasticAct rng w'.mu ip p q s) := by
        unfold WEq.act; rw [hw]
      obtain ⟨post, hpost⟩ : ∃ post, post = (isoVec rng (p.vel - q.vel).abs s).1 := ⟨_, rfl⟩
      have ho : outgoing (elasticAct rng w'.mu ip p q s) =
          [{ p with vel := velCM w'.mu p.vel q.vel + w'.mu.over_m1 • post },
           { q with vel := velCM w'.mu p.vel q.vel - w'.mu.over_m2 • post }] := by
        rw [hpost]
        cases ip <;> rfl
      simp only [V', Function.comp_apply]
      rw [← hpost, hact, ← velCM_eq ha hb, ← hmu]
      simp only [outVel, Option.bind_some, ho]
      rw [hmu, e1, e2, hk]
      match i with
      | 0 => simp
      | 1 => simp
      | n + 2 => simp
    · rw [hmod'] at h1; simp at h1
    · rw [hmod'] at h1; simp at h1
  have mk := smulAll_measurable k
  have m1 := measurable_vssRel hpow hrng (p.vel - q.vel)
  have m2 : Measurable (fun s => (isoVec rng (p.vel - q.vel).abs s).1) := (measurable_isoVec' hrng _).fst
  refine ⟨hV ▸ mk.comp m1, hV' ▸ mk.comp m2, ?_⟩
  rw [hV, hV', ← Measure.map_map mk m1, ← Measure.map_map mk m2, lintegral_vssRel_one hpow hone hrng _ hD,
    law_isoVec_fst hrng]

theorem integral_unif (f : ℝ → ℝ) : ∫ u, f u ∂unif = ∫ u in (0 : ℝ)..1, f u := by
  rw [intervalIntegral.integral_of_le (by norm_num), unif, integral_Ico_eq_integral_Ioc]

theorem integral_unif_cos : ∫ z, cos (2 * π * z) ∂unif = 0 := by
  rw [integral_unif, intervalIntegral.integral_comp_mul_left (fun x => cos x) (by positivity)]
  simp

theorem integral_unif_sin : ∫ z, sin (2 * π * z) ∂unif = 0 := by
  rw [integral_unif, intervalIntegral.integral_comp_mul_left (fun x => sin x) (by positivity)]
  simp

/-- The mean of one component of the relative velocity. -/
theorem mean_vssRel {pow : ℝ → ℝ → ℝ} {k : ℝ} (hk : 0 ≤ k) (hpow : Measurable fun u => pow u k)
    (hexact : ∀ u, 0 ≤ u → u < 1 → pow u k = u ^ k) {rng : RNG S ℝ} (hrng : rng.IID μ) (v : Vec)
    (hD : 1 / 1000000 < √(v.y ^ 2 + v.z ^ 2)) (c : Vec → ℝ) (hadd : ∀ a b, c (a + b) = c a + c b)
    (hsmul : ∀ (t : ℝ) a, c (t • a) = t * c a) :
    Integrable (fun s => c (vssRel pow k rng v s)) μ ∧
      ∫ s, c (vssRel pow k rng v s) ∂μ = (1 - k) / (1 + k) * c v := by
  have hd : Measurable (fun s => ((rng.rand s).1, (rng.rand (rng.rand s).2).1)) :=
    hrng.rand_meas.fst.prodMk (hrng.rand_meas.comp hrng.rand_meas.snd).fst
  have hlaw : μ.map (fun s => ((rng.rand s).1, (rng.rand (rng.rand s).2).1)) = unif.prod unif := by
    have h2 := law_draw2 hrng
    have hm : Measurable (fun s => (((rng.rand s).1, (rng.rand (rng.rand s).2).1), (rng.rand (rng.rand s).2).2)) :=
      hd.prodMk (hrng.rand_meas.comp hrng.rand_meas.snd).snd
    have e : (fun s => ((rng.rand s).1, (rng.rand (rng.rand s).2).1)) = Prod.fst ∘
      (fun s => (((rng.rand s).1, (rng.rand (rng.rand s).2).1), (rng.rand (rng.rand s).2).2)) := rfl
    rw [e, ← Measure.map_map measurable_fst hm, h2]
    simp
  have hin : ∀ᵐ u ∂unif, u ∈ Ico (0 : ℝ) 1 := ae_restrict_mem measurableSet_Ico
  set B : ℝ → ℝ := fun u => 2 * pow u k - 1 with hBdef
  have hBm : Measurable B := (hpow.const_mul 2).sub_const 1
  have hB1 : ∀ᵐ u ∂unif, |B u| ≤ 1 := by
    filter_upwards [hin] with u hu
    have h1 := C46_exact_power k hk u hu.1 hu.2.le
    rw [hBdef]
    simp only
    rw [hexact u hu.1 hu.2, abs_le]
    constructor <;> linarith [h1.1, h1.2]
  have hBi : Integrable B unif := Integrable.of_bound hBm.aestronglyMeasurable 1 hB1
  have hAm : Measurable (fun u => √(1 - B u ^ 2)) := by fun_prop
  have hAi : Integrable (fun u => √(1 - B u ^ 2)) unif := by
    refine Integrable.of_bound hAm.aestronglyMeasurable 1 (Filter.Eventually.of_forall fun u => ?_)
    rw [norm_eq_abs, abs_of_nonneg (sqrt_nonneg _)]
    exact Real.sqrt_le_one.2 (by nlinarith [sq_nonneg (B u)])
  have hci : Integrable (fun z => cos (2 * π * z)) unif := by
    refine Integrable.of_bound (by fun_prop) 1 (Filter.Eventually.of_forall fun z => ?_)
    exact abs_cos_le_one _
  have hsi : Integrable (fun z => sin (2 * π * z)) unif := by
    refine Integrable.of_bound (by fun_prop) 1 (Filter.Eventually.of_forall fun z => ?_)
    exact abs_sin_le_one _
  have h1i : Integrable (fun _ : ℝ => (1 : ℝ)) unif := integrable_const 1
  set G : ℝ × ℝ → ℝ := fun t => (B t.1 * 1) * c v + ((√(1 - B t.1 ^ 2) * cos (2 * π * t.2)) * c (vssE v) +
    (√(1 - B t.1 ^ 2) * sin (2 * π * t.2)) * c (vssF v)) with hG
  have i1 : Integrable (fun t : ℝ × ℝ => (B t.1 * 1) * c v) (unif.prod unif) := (hBi.mul_prod h1i).mul_const _
  have i2 : Integrable (fun t : ℝ × ℝ => (√(1 - B t.1 ^ 2) * cos (2 * π * t.2)) * c (vssE v)) (unif.prod unif) :=
    (hAi.mul_prod hci).mul_const _
  have i3 : Integrable (fun t : ℝ × ℝ => (√(1 - B t.1 ^ 2) * sin (2 * π * t.2)) * c (vssF v)) (unif.prod unif) :=
    (hAi.mul_prod hsi).mul_const _
  have hGi : Integrable G (unif.prod unif) := i1.add (i2.add i3)
  have hform : (fun s => c (vssRel pow k rng v s)) = G ∘ (fun s => ((rng.rand s).1, (rng.rand (rng.rand s).2).1)) := by
    funext s
    simp only [vssRel, Function.comp_apply, hG]
    rw [vssPost_frame v hD, hadd, hadd, hsmul, hsmul, hsmul, mul_one]
  have hBint : ∫ u, B u ∂unif = (1 - k) / (1 + k) := by
    have e1 : ∫ u, B u ∂unif = ∫ u, (2 * u ^ k - 1) ∂unif := by
      refine integral_congr_ae ?_
      filter_upwards [hin] with u hu
      simp only [hBdef]
      rw [hexact u hu.1 hu.2]
    have hr : IntervalIntegrable (fun u : ℝ => u ^ k) volume 0 1 :=
      intervalIntegral.intervalIntegrable_rpow' (by linarith)
    rw [e1, integral_unif, intervalIntegral.integral_sub (hr.const_mul 2) (by simp),
      intervalIntegral.integral_const_mul, integral_rpow (.inl (by linarith))]
    rw [zero_rpow (by linarith : k + 1 ≠ 0)]
    simp
    have : k + 1 ≠ 0 := by linarith
    have : 1 + k ≠ 0 := by linarith
    field_simp
    ring
  refine ⟨?_, ?_⟩
  · rw [hform]
    rw [← hlaw] at hGi
    exact hGi.comp_measurable hd
  · have e1 := integral_map hd.aemeasurable (μ := μ) (f := G) (by rw [hlaw]; exact hGi.aestronglyMeasurable)
    rw [hform]
    show ∫ s, G ((rng.rand s).1, (rng.rand (rng.rand s).2).1) ∂μ = _
    have s1 : ∫ t, G t ∂unif.prod unif = _ := integral_add i1 (i2.add i3)
    have s2 := integral_add i2 i3
    rw [← e1, hlaw, s1]
    refine (congrArg₂ (· + ·) rfl s2).trans ?_
    have p1 := integral_prod_mul (μ := unif) (ν := unif) B (fun _ => (1 : ℝ))
    have p2 := integral_prod_mul (μ := unif) (ν := unif) (fun u => √(1 - B u ^ 2)) (fun z => cos (2 * π * z))
    have p3 := integral_prod_mul (μ := unif) (ν := unif) (fun u => √(1 - B u ^ 2)) (fun z => sin (2 * π * z))
    have q1 := integral_mul_const (μ := unif.prod unif) (c v) (fun t => B t.1 * 1)
    have q2 := integral_mul_const (μ := unif.prod unif) (c (vssE v))
      (fun t => √(1 - B t.1 ^ 2) * cos (2 * π * t.2))
    have q3 := integral_mul_const (μ := unif.prod unif) (c (vssF v))
      (fun t => √(1 - B t.1 ^ 2) * sin (2 * π * t.2))
    rw [q1, q2, q3, p1, p2, p3, integral_unif_cos, integral_unif_sin, hBint]
    simp

/-- **C78**  On average the VSS model keeps the fraction `(1 - k) / (1 + k)` of the velocity of each particle relative
to the centre of mass, where `k = vss_param_inv` (that is `(α - 1) / (α + 1)` for the VSS parameter `α = 1 / k`). -/
theorem C78_mean {T : Tools W} {db : Registry ℝ} (hpos : ∀ x ∈ db, 0 < x.mass) {e : LEq} {d : InterDoc}
    {w : WEq W} (h : completeEq T db e d = .ok w) (hmod : e.model = "vss_elastic")
    (hk : 0 ≤ d.vssParamInv) (hpow : Measurable fun u => T.pow u d.vssParamInv)
    (hexact : ∀ u, 0 ≤ u → u < 1 → T.pow u d.vssParamInv = u ^ d.vssParamInv)
    {a b : Props ℝ} (hA : db[e.A.species.toNat]? = some a) (hB : db[e.B.species.toNat]? = some b)
    {rng : RNG S ℝ} (hrng : rng.IID μ) (ip : Bool) (p q : Part W)
    (hD : √((p.vel - q.vel).y ^ 2 + (p.vel - q.vel).z ^ 2) > 1 / 1000000)
    (c : Vec → ℝ) (hc : c = Vec.x ∨ c = Vec.y ∨ c = Vec.z) :
    let cm := weightedMean a.mass b.mass p.vel q.vel
    let V := fun s => outVel cm (w.act T rng ip p q s)
    (Integrable (fun s => c (V s 0)) μ ∧
      ∫ s, c (V s 0) ∂μ = (1 - d.vssParamInv) / (1 + d.vssParamInv) * c (p.vel - cm)) ∧
    (Integrable (fun s => c (V s 1)) μ ∧
      ∫ s, c (V s 1) ∂μ = (1 - d.vssParamInv) / (1 + d.vssParamInv) * c (q.vel - cm)) := by
  intro cm V
  have ha := hpos a (List.mem_of_getElem? hA)
  have hb := hpos b (List.mem_of_getElem? hB)
  have hadd : ∀ a b, c (a + b) = c a + c b := by rcases hc with rfl | rfl | rfl <;> intro a b <;> rfl
  have hsmul : ∀ (t : ℝ) a, c (t • a) = t * c a := by rcases hc with rfl | rfl | rfl <;> intro t a <;> rfl
  obtain ⟨hi, hm⟩ := mean_vssRel hk hpow hexact hrng (p.vel - q.vel) hD c hadd hsmul
  have hV : ∀ s i, V s i = _ := fun s i => vss_form hpos h hmod hA hB rng ip p q s i
  have e0 : (fun s => c (V s 0)) = fun s => b.mass / (a.mass + b.mass) *
      c (vssRel T.pow d.vssParamInv rng (p.vel - q.vel) s) := by
    funext s; rw [hV, if_pos rfl, hsmul]; rfl
  have e1 : (fun s => c (V s 1)) = fun s => -(a.mass / (a.mass + b.mass)) *
      c (vssRel T.pow d.vssParamInv rng (p.vel - q.vel) s) := by
    funext s; rw [hV, if_neg (by norm_num), if_pos rfl, hsmul]; rfl
  have hne : a.mass + b.mass ≠ 0 := by linarith
  have p0 : p.vel - cm = (b.mass / (a.mass + b.mass)) • (p.vel - q.vel) := by
    simp only [cm, weightedMean]
    ext <;> simp only [Vec.sub_def, Vec.add_def, Vec.smul_def] <;> field_simp <;> ring
  have p1 : q.vel - cm = (-(a.mass / (a.mass + b.mass))) • (p.vel - q.vel) := by
    simp only [cm, weightedMean]
    ext <;> simp only [Vec.sub_def, Vec.add_def, Vec.smul_def] <;> field_simp <;> ring
  rw [e0, e1, p0, p1, hsmul, hsmul]
  refine ⟨⟨hi.const_mul _, ?_⟩, ⟨hi.const_mul _, ?_⟩⟩
  · rw [integral_const_mul, hm]; ring
  · rw [integral_const_mul, hm]; ring

namespace IsotropyExample

open RateExample

/-- A quarter turn about the z axis. -/
def quarter (v : Vec) : Vec := ⟨-v.y, v.x, v.z⟩

theorem quarter_rotation : Rotation quarter where
  add a b := by simp only [quarter, Vec.add_def, Vec.mk.injEq, true_and, and_true]; ring
  smul k a := by simp only [quarter, Vec.smul_def, Vec.mk.injEq, true_and, and_true]; ring
  norm a := by simp only [quarter, Vec.normSq]; ring

/-- Excitation of hydrogen by an electron of speed 5 along x: the velocities after it are distributed alike along x
and along y. -/
example (T : Tools Unit) : ∃ w : WEq Unit, completeEq T exReal WholeExample.eq WholeExample.inter = .ok w ∧
    let V := fun s => outVel (weightedMean 1 2000 ⟨5, 0, 0⟩ ⟨0, 0, 0⟩)
      (w.act T streamRNG true ⟨0, ⟨5, 0, 0⟩, 0, ()⟩ ⟨0, ⟨0, 0, 0⟩, 1, ()⟩ s)
    iidUnif.map (fun s i => quarter (V s i)) = iidUnif.map V ∧ ∫ s, (V s 0).x ∂iidUnif = 0 := by
  obtain ⟨w, hw, -⟩ := WholeExample.run T true
  have hops : OpsKeepVel T.oc WholeExample.eq :=
    NoOps.keepVel (by simp [NoOps, WholeExample.eq, exExcite, productOps, Term.single])
  have hn : ∀ t ∈ WholeExample.eq.products, 0 ≤ t.n := by simp [WholeExample.eq, exExcite, Term.single]
  have hm : WholeExample.eq.model ≠ "vss_elastic" := by decide
  refine ⟨w, hw, ?_, ?_⟩
  · exact (C77_isotropic exReal_pos hw hn hm hops (a := ⟨"e", 1, -1⟩) (b := ⟨"H", 2000, 0⟩) rfl rfl streamRNG_iid true
      ⟨0, ⟨5, 0, 0⟩, 0, ()⟩ ⟨0, ⟨0, 0, 0⟩, 1, ()⟩ quarter_rotation).2
  · exact (C77_mean exReal_pos hw hn hm hops (a := ⟨"e", 1, -1⟩) (b := ⟨"H", 2000, 0⟩) rfl rfl streamRNG_iid true
      ⟨0, ⟨5, 0, 0⟩, 0, ()⟩ ⟨0, ⟨0, 0, 0⟩, 1, ()⟩ 0).1.2

/-- The relative velocity `(0, 6, 0)` is off the x axis. -/
theorem off_axis : √(((⟨0, 6, 0⟩ : Vec) - ⟨0, 0, 0⟩).y ^ 2 + ((⟨0, 6, 0⟩ : Vec) - ⟨0, 0, 0⟩).z ^ 2) > 1 / 1000000 := by
  simp only [Vec.sub_def]
  rw [gt_iff_lt, Real.lt_sqrt (by norm_num)]
  norm_num

/-- VSS scattering with parameter 2 of an electron of velocity `(0, 6, 0)`: it keeps a third of its velocity in the
centre of mass frame on average.  Turned about the x axis the law turns with it. -/
example (T : Tools Unit) (hT : T.pow = fun u k => u ^ k) : ∃ w : WEq Unit,
    completeEq T exReal (scatter "vss_elastic") { cs := .constant 3 none, vssParamInv := 1 / 2 } = .ok w ∧
    ∫ s, (outVel (weightedMean 1 2000 ⟨0, 6, 0⟩ ⟨0, 0, 0⟩)
      (w.act T streamRNG true ⟨0, ⟨0, 6, 0⟩, 0, ()⟩ ⟨0, ⟨0, 0, 0⟩, 1, ()⟩ s) 0).y ∂iidUnif = 4000 / 2001 := by
  refine ⟨_, completeEq_of T (a := ⟨"e", 1, -1⟩) (b := ⟨"H", 2000, 0⟩) rfl rfl rfl (plain_load T) rfl, ?_⟩
  have h := (C78_mean exReal_pos
    (completeEq_of T (a := ⟨"e", 1, -1⟩) (b := ⟨"H", 2000, 0⟩) (e := scatter "vss_elastic")
      (d := { cs := .constant 3 none, vssParamInv := 1 / 2 }) rfl rfl rfl (plain_load T) rfl) rfl
    (by norm_num) (by rw [hT]; fun_prop) (fun u _ _ => by rw [hT]) (a := ⟨"e", 1, -1⟩) (b := ⟨"H", 2000, 0⟩) rfl rfl
    streamRNG_iid true ⟨0, ⟨0, 6, 0⟩, 0, ()⟩ ⟨0, ⟨0, 0, 0⟩, 1, ()⟩ off_axis Vec.y (.inr (.inl rfl))).1.2
  refine h.trans ?_
  simp only [weightedMean, Vec.sub_def, Vec.add_def, Vec.smul_def]
  norm_num

/-- With parameter 1 the same pair scatters as it does in the elastic model. -/
example (T : Tools Unit) (hT : T.pow = fun u k => u ^ k) : ∃ w w' : WEq Unit,
    completeEq T exReal (scatter "vss_elastic") { cs := .constant 3 none, vssParamInv := 1 } = .ok w ∧
    completeEq T exReal (scatter "elastic") { cs := .constant 3 none } = .ok w' ∧
    let c := weightedMean 1 2000 ⟨0, 6, 0⟩ ⟨0, 0, 0⟩
    iidUnif.map (fun s => outVel c (w.act T streamRNG true ⟨0, ⟨0, 6, 0⟩, 0, ()⟩ ⟨0, ⟨0, 0, 0⟩, 1, ()⟩ s)) =
    iidUnif.map (fun s => outVel c (w'.act T streamRNG true ⟨0, ⟨0, 6, 0⟩, 0, ()⟩ ⟨0, ⟨0, 0, 0⟩, 1, ()⟩ s)) := by
  refine ⟨_, _, completeEq_of T (a := ⟨"e", 1, -1⟩) (b := ⟨"H", 2000, 0⟩) rfl rfl rfl (plain_load T) rfl,
    completeEq_of T (a := ⟨"e", 1, -1⟩) (b := ⟨"H", 2000, 0⟩) rfl rfl rfl (plain_load T) rfl, ?_⟩
  exact (C78_parameter_one exReal_pos
    (completeEq_of T (a := ⟨"e", 1, -1⟩) (b := ⟨"H", 2000, 0⟩) (e := scatter "vss_elastic")
      (d := { cs := .constant 3 none, vssParamInv := 1 }) rfl rfl rfl (plain_load T) rfl) rfl
    (completeEq_of T (a := ⟨"e", 1, -1⟩) (b := ⟨"H", 2000, 0⟩) (e := scatter "elastic")
      (d := { cs := .constant 3 none }) rfl rfl rfl (plain_load T) rfl) rfl ⟨rfl, rfl⟩
    (by rw [hT]; fun_prop) (fun u _ _ => by rw [hT]; exact Real.rpow_one u) (a := ⟨"e", 1, -1⟩) (b := ⟨"H", 2000, 0⟩)
    rfl rfl streamRNG_iid true ⟨0, ⟨0, 6, 0⟩, 0, ()⟩ ⟨0, ⟨0, 0, 0⟩, 1, ()⟩ off_axis).2.2

/-- A reflection turns `(0, 6, 0)` to `(0, -6, 0)`, and the law with it. -/
example (T : Tools Unit) (hT : T.pow = fun u k => u ^ k) : ∃ w : WEq Unit,
    completeEq T exReal (scatter "vss_elastic") { cs := .constant 3 none, vssParamInv := 1 / 2 } = .ok w ∧
    iidUnif.map (fun s i => negV (outVel (weightedMean 1 2000 ⟨0, 6, 0⟩ ⟨0, 0, 0⟩)
      (w.act T streamRNG true ⟨0, ⟨0, 6, 0⟩, 0, ()⟩ ⟨0, ⟨0, 0, 0⟩, 1, ()⟩ s) i)) =
    iidUnif.map (fun s => outVel (weightedMean 1 2000 ⟨0, -6, 0⟩ ⟨0, 0, 0⟩)
      (w.act T streamRNG true ⟨0, ⟨0, -6, 0⟩, 0, ()⟩ ⟨0, ⟨0, 0, 0⟩, 1, ()⟩ s)) := by
  refine ⟨_, completeEq_of T (a := ⟨"e", 1, -1⟩) (b := ⟨"H", 2000, 0⟩) rfl rfl rfl (plain_load T) rfl, ?_⟩
  exact (C78_turns exReal_pos
    (completeEq_of T (a := ⟨"e", 1, -1⟩) (b := ⟨"H", 2000, 0⟩) (e := scatter "vss_elastic")
      (d := { cs := .constant 3 none, vssParamInv := 1 / 2 }) rfl rfl rfl (plain_load T) rfl) rfl
    (by rw [hT]; fun_prop) (a := ⟨"e", 1, -1⟩) (b := ⟨"H", 2000, 0⟩) rfl rfl streamRNG_iid true
    ⟨0, ⟨0, 6, 0⟩, 0, ()⟩ ⟨0, ⟨0, 0, 0⟩, 1, ()⟩ ⟨0, ⟨0, -6, 0⟩, 0, ()⟩ ⟨0, ⟨0, 0, 0⟩, 1, ()⟩ negV_rotation
    (by simp [negV]) (by simp [negV]) off_axis (by
      simp only [Vec.sub_def]
      rw [gt_iff_lt, Real.lt_sqrt (by norm_num)]
      norm_num)).2.2

end IsotropyExample

end Chimp
