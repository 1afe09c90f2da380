import Verif.Props.Equilibrium
import Verif.Props.Transport

/-!
# C109: heat flows from hot to cold

Equilibrium is stationary (C106).  Here two species have different temperatures: the mean energy that a particle of
one gains in elastic collisions with the other is computed, for any cross section.
-/

namespace Chimp
open MeasureTheory ProbabilityTheory Set Real
open scoped NNReal ENNReal

variable {S W : Type} [MeasurableSpace S] {μ : Measure S} [IsProbabilityMeasure μ]

/-! ### The energy exchanged by two particles -/

theorem iso_mean {rng : RNG S ℝ} (hrng : rng.IID μ) (r : ℝ) (k : Vec) :
    Integrable (fun s => k.dot (isoVec rng r s).1) μ ∧ ∫ s, k.dot (isoVec rng r s).1 ∂μ = 0 := by
  have hX : IsoForm rng (fun s (_ : ℕ) => (1 : ℝ) • (isoVec rng r s).1) := .inl ⟨r, fun _ => 1, fun _ _ => rfl⟩
  have e : ∀ v : Vec, (1 : ℝ) • v = v := fun v => by ext <;> simp
  simp only [e] at hX
  have hb : ∀ v : Vec, v.x ^ 2 ≤ v.normSq ∧ v.y ^ 2 ≤ v.normSq ∧ v.z ^ 2 ≤ v.normSq := fun v => by
    simp only [Vec.normSq]
    refine ⟨?_, ?_, ?_⟩ <;> nlinarith [sq_nonneg v.x, sq_nonneg v.y, sq_nonneg v.z]
  obtain ⟨ix, ex⟩ := hX.mean hrng 0 Vec.x Vec.measurable_x (fun v => rfl) fun v => (hb v).1
  obtain ⟨iy, ey⟩ := hX.mean hrng 0 Vec.y Vec.measurable_y (fun v => rfl) fun v => (hb v).2.1
  obtain ⟨iz, ez⟩ := hX.mean hrng 0 Vec.z Vec.measurable_z (fun v => rfl) fun v => (hb v).2.2
  simp only [Vec.dot]
  have i1 := ix.const_mul k.x
  have i2 := iy.const_mul k.y
  have i3 := iz.const_mul k.z
  have i12 : Integrable (fun s => k.x * (isoVec rng r s).1.x + k.y * (isoVec rng r s).1.y) μ := i1.add i2
  refine ⟨i12.add i3, ?_⟩
  rw [integral_add i12 i3, integral_add i1 i2, integral_const_mul, integral_const_mul, integral_const_mul, ex, ey,
    ez]
  simp

omit [MeasurableSpace S] in
theorem elastic_velocities {T : Tools W} {db : Registry ℝ} (hpos : ∀ x ∈ db, 0 < x.mass) {e : LEq} {d : InterDoc}
    {w : WEq W} (h : completeEq T db e d = .ok w) (hmod : e.model = "elastic") {a b : Props ℝ}
    (hA : db[e.A.species.toNat]? = some a) (hB : db[e.B.species.toNat]? = some b)
    (rng : RNG S ℝ) (ip : Bool) (p q : Part W) (s : S) (f : Vec) :
    outVel f (w.act T rng ip p q s) 0 = weightedMean a.mass b.mass p.vel q.vel - f +
      (b.mass / (a.mass + b.mass)) • (isoVec rng (p.vel - q.vel).abs s).1 ∧
    outVel f (w.act T rng ip p q s) 1 = weightedMean a.mass b.mass p.vel q.vel - f -
      (a.mass / (a.mass + b.mass)) • (isoVec rng (p.vel - q.vel).abs s).1 := by
  obtain ⟨a', b', hA', hB', -, hmu, -, hm, -, -⟩ := completeEq_ok h
  have ea : a' = a := by rw [hA] at hA'; cases hA'; rfl
  have eb : b' = b := by rw [hB] at hB'; cases hB'; rfl
  subst ea eb
  have ha := hpos a' (List.mem_of_getElem? hA)
  have hb := hpos b' (List.mem_of_getElem? hB)
  obtain ⟨_, e1, e2⟩ := reducedMass_eq ha hb
  rcases loadModel_ok hm with ⟨-, hw⟩ | ⟨h1, -⟩ | ⟨h1, -⟩
  · have hact : w.act T rng ip p q s = some (elasticAct rng w.mu ip p q s) := by
      unfold WEq.act; rw [hw]
    obtain ⟨post, hpost⟩ : ∃ post, post = (isoVec rng (p.vel - q.vel).abs s).1 := ⟨_, rfl⟩
    have ho : outgoing (elasticAct rng w.mu ip p q s) =
        [{ p with vel := velCM w.mu p.vel q.vel + w.mu.over_m1 • post },
         { q with vel := velCM w.mu p.vel q.vel - w.mu.over_m2 • post }] := by
      rw [hpost]
      cases ip <;> rfl
    rw [← hpost, hact]
    simp only [outVel, Option.bind_some, ho, List.getElem?_cons_zero, List.getElem?_cons_succ]
    rw [hmu, e1, e2, velCM_eq ha hb]
    constructor <;> ext <;> simp only [Vec.sub_def, Vec.add_def, Vec.smul_def] <;> ring
  · rw [hmod] at h1; simp at h1
  · rw [hmod] at h1; simp at h1

/-- **C109**  Two particles with given velocities, elastic interaction, in any frame of reference: on average the first
gains the kinetic energy `-μ (V · g)`, where `V` is the velocity of the centre of mass, `g` the relative velocity and
`μ` the reduced mass; the second loses as much. -/
theorem C109_exchange {T : Tools W} {db : Registry ℝ} (hpos : ∀ x ∈ db, 0 < x.mass) {e : LEq} {d : InterDoc}
    {w : WEq W} (h : completeEq T db e d = .ok w) (hmod : e.model = "elastic") {a b : Props ℝ}
    (hA : db[e.A.species.toNat]? = some a) (hB : db[e.B.species.toNat]? = some b)
    {rng : RNG S ℝ} (hrng : rng.IID μ) (ip : Bool) (p q : Part W) (f : Vec) :
    let gain := a.mass * b.mass / (a.mass + b.mass) *
      (weightedMean a.mass b.mass p.vel q.vel - f).dot (p.vel - q.vel)
    ∫ s, (ke a.mass (outVel f (w.act T rng ip p q s) 0) - ke a.mass (p.vel - f)) ∂μ = -gain ∧
    ∫ s, (ke b.mass (outVel f (w.act T rng ip p q s) 1) - ke b.mass (q.vel - f)) ∂μ = gain := by
  intro gain
  have ha := hpos a (List.mem_of_getElem? hA)
  have hb := hpos b (List.mem_of_getElem? hB)
  have hM : a.mass + b.mass ≠ 0 := by positivity
  have hpost : ∀ᵐ s ∂μ, (isoVec rng (p.vel - q.vel).abs s).1.normSq = (p.vel - q.vel).normSq := by
    filter_upwards [hrng.ae_mem] with s hs
    rw [isoVec_normSq rng _ s hs, Vec.abs_sq]
  set V := weightedMean a.mass b.mass p.vel q.vel - f with hV
  obtain ⟨hi, he⟩ := iso_mean hrng (p.vel - q.vel).abs V
  constructor
  · have hc : (fun s => ke a.mass (outVel f (w.act T rng ip p q s) 0) - ke a.mass (p.vel - f)) =ᵐ[μ] fun s =>
        a.mass * b.mass / (a.mass + b.mass) * V.dot (isoVec rng (p.vel - q.vel).abs s).1 + -gain := by
      filter_upwards [hpost] with s hs
      rw [(elastic_velocities hpos h hmod hA hB rng ip p q s f).1, ← hV]
      generalize (isoVec rng (p.vel - q.vel).abs s).1 = u at hs
      simp only [gain, ke, ← hV]
      simp only [Vec.normSq, Vec.sub_def] at hs
      rw [hV]
      simp only [Vec.normSq, Vec.dot, weightedMean, Vec.add_def, Vec.sub_def, Vec.smul_def]
      field_simp
      linear_combination (b.mass ^ 2) * hs
    rw [integral_congr_ae hc, integral_add (hi.const_mul _) (integrable_const _), integral_const_mul, he]
    simp
  · have hc : (fun s => ke b.mass (outVel f (w.act T rng ip p q s) 1) - ke b.mass (q.vel - f)) =ᵐ[μ] fun s =>
        -(a.mass * b.mass / (a.mass + b.mass)) * V.dot (isoVec rng (p.vel - q.vel).abs s).1 + gain := by
      filter_upwards [hpost] with s hs
      rw [(elastic_velocities hpos h hmod hA hB rng ip p q s f).2, ← hV]
      generalize (isoVec rng (p.vel - q.vel).abs s).1 = u at hs
      simp only [gain, ke, ← hV]
      simp only [Vec.normSq, Vec.sub_def] at hs
      rw [hV]
      simp only [Vec.normSq, Vec.dot, weightedMean, Vec.add_def, Vec.sub_def, Vec.smul_def]
      field_simp
      linear_combination (a.mass ^ 2) * hs
    rw [integral_congr_ae hc, integral_add (hi.const_mul _) (integrable_const _), integral_const_mul, he]
    simp

/-! ### Two temperatures -/

private theorem thermal_congr {kT kT' m m' : ℝ} (h : kT / m = kT' / m') (d : Vec) : thermal kT d m = thermal kT' d m' := by
  unfold thermal
  rw [h]

/-- The relative velocity turned round, about the mean with weights `n₁` and `n₂`. -/
private noncomputable def mirror (n₁ n₂ : ℝ) (x : Vec × Vec) : Vec × Vec :=
  (weightedMean n₁ n₂ x.1 x.2 - (n₂ / (n₁ + n₂)) • (x.1 - x.2),
    weightedMean n₁ n₂ x.1 x.2 + (n₁ / (n₁ + n₂)) • (x.1 - x.2))

private theorem measurable_mirror (n₁ n₂ : ℝ) : Measurable (mirror n₁ n₂) :=
  (measurable_sub_vec (measurable_weightedMean n₁ n₂) (measurable_smul_vec _ (measurable_sub_vec measurable_fst
    measurable_snd))).prodMk (measurable_add_vec (measurable_weightedMean n₁ n₂) (measurable_smul_vec _
      (measurable_sub_vec measurable_fst measurable_snd)))

private theorem mirror_preserving {kT n₁ n₂ : ℝ} (hT : 0 < kT) (h₁ : 0 < n₁) (h₂ : 0 < n₂) (d : Vec) :
    MeasurePreserving (mirror n₁ n₂) ((thermal kT d n₁).prod (thermal kT d n₂))
      ((thermal kT d n₁).prod (thermal kT d n₂)) := by
  have hm := measurable_mirror n₁ n₂
  have hs : n₁ + n₂ ≠ 0 := by positivity
  refine ⟨hm, Measure.ext_of_lintegral _ fun f hf => ?_⟩
  have hfm : Measurable (fun x => f (mirror n₁ n₂ x)) := hf.comp hm
  rw [lintegral_map hf hm, lintegral_prod _ hfm.aemeasurable, lintegral_prod _ hf.aemeasurable,
    ← lintegral_elastic hT h₁ h₂ d f hf, ← lintegral_elastic hT h₁ h₂ d _ hfm]
  refine lintegral_congr fun a => lintegral_congr fun b => ?_
  have hG : Measurable fun w : Vec => f (weightedMean n₁ n₂ a b + (n₂ / (n₁ + n₂)) • w,
      weightedMean n₁ n₂ a b - (n₁ / (n₁ + n₂)) • w) :=
    hf.comp ((measurable_add_vec measurable_const (measurable_smul_vec _ measurable_id)).prodMk
      (measurable_sub_vec measurable_const (measurable_smul_vec _ measurable_id)))
  rw [← isoLaw_invariant negV_rotation (a - b).abs, lintegral_map hG negV_rotation.measurable]
  rw [isoLaw_invariant negV_rotation]
  refine lintegral_congr fun w => ?_
  congr 1
  simp only [mirror, weightedMean, negV]
  ext <;> simp only [Vec.add_def, Vec.sub_def, Vec.smul_def] <;> field_simp <;> ring

private theorem odd_integral {kT n₁ n₂ : ℝ} (hT : 0 < kT) (h₁ : 0 < n₁) (h₂ : 0 < n₂) (d : Vec) {F : Vec × Vec → ℝ}
    (hF : Measurable F) (hodd : ∀ x, F (mirror n₁ n₂ x) = -F x) :
    ∫ x, F x ∂((thermal kT d n₁).prod (thermal kT d n₂)) = 0 := by
  have hp := mirror_preserving hT h₁ h₂ d
  have h := integral_map (μ := (thermal kT d n₁).prod (thermal kT d n₂)) hp.measurable.aemeasurable
    (f := F) hF.aestronglyMeasurable
  rw [hp.map_eq] at h
  simp only [hodd, integral_neg] at h
  linarith

private theorem measurable_ke {α : Type} [MeasurableSpace α] (m : ℝ) {g : α → Vec} (hg : Measurable g) :
    Measurable fun x => ke m (g x) := by
  have h1 := Vec.measurable_x.comp hg
  have h2 := Vec.measurable_y.comp hg
  have h3 := Vec.measurable_z.comp hg
  simp only [ke, Vec.normSq]
  exact (((h1.pow_const 2).add (h2.pow_const 2)).add (h3.pow_const 2)).const_mul _

/-- The rate at which two particles collide, but for a factor: the cross section times the relative speed. -/
noncomputable def pairRate (w : WEq W) (x : Vec × Vec) : ℝ := okVal (w.cs.sigma (x.1 - x.2).abs) * (x.1 - x.2).abs

theorem measurable_pairRate {T : Tools W} {db : Registry ℝ} {e : LEq} {d : InterDoc} {w : WEq W}
    (h : completeEq T db e d = .ok w) : Measurable (pairRate w) := by
  obtain ⟨a, b, -, -, -, -, hl, -⟩ := completeEq_ok h
  have hu : Measurable fun x : Vec × Vec => (x.1 - x.2).abs :=
    measurable_abs_vec.comp (measurable_sub_vec measurable_fst measurable_snd)
  exact ((measurable_load hl).comp hu).mul hu

/-- **C109**  Two species with thermal velocities about the same drift, at temperatures `T₁` and `T₂`, elastic
interaction with any cross section: the energy that particles of the first gain in collisions, weighted with the rate
of collisions, is `-m₁ m₂ / (m₁ + m₂)² k (T₁ - T₂) / (k T₁ / m₁ + k T₂ / m₂)` times the mean of `σ(v) v³`. -/
theorem C109_heat {T : Tools W} {db : Registry ℝ} (hpos : ∀ x ∈ db, 0 < x.mass) {e : LEq} {d : InterDoc}
    {w : WEq W} (h : completeEq T db e d = .ok w) (hmod : e.model = "elastic") {a b : Props ℝ}
    (hA : db[e.A.species.toNat]? = some a) (hB : db[e.B.species.toNat]? = some b)
    {rng : RNG S ℝ} (hrng : rng.IID μ) (ip : Bool) (p q : Part W) (f : Vec) {kT₁ kT₂ : ℝ} (h₁ : 0 < kT₁) (h₂ : 0 < kT₂)
    (hint : Integrable (fun x : Vec × Vec => pairRate w x * (ke a.mass (x.1 - f) + ke b.mass (x.2 - f)))
      ((thermal kT₁ f a.mass).prod (thermal kT₂ f b.mass))) :
    ∫ x, pairRate w x.1 * (ke a.mass (outVel f (w.act T rng ip { p with vel := x.1.1 } { q with vel := x.1.2 } x.2) 0) -
        ke a.mass (x.1.1 - f)) ∂((thermal kT₁ f a.mass).prod (thermal kT₂ f b.mass)).prod μ =
      -(a.mass * b.mass / (a.mass + b.mass) ^ 2) * ((kT₁ - kT₂) / (kT₁ / a.mass + kT₂ / b.mass)) *
        ∫ x, pairRate w x * (x.1 - x.2).normSq ∂(thermal kT₁ f a.mass).prod (thermal kT₂ f b.mass) := by
  have ha := hpos a (List.mem_of_getElem? hA)
  have hb := hpos b (List.mem_of_getElem? hB)
  set m₁ := a.mass with hm₁
  set m₂ := b.mass with hm₂
  set th := (thermal kT₁ f m₁).prod (thermal kT₂ f m₂) with hth
  have hR := measurable_pairRate h
  -- the velocity afterwards
  let out : (Vec × Vec) × S → Vec := fun x => weightedMean m₁ m₂ x.1.1 x.1.2 - f +
    (m₂ / (m₁ + m₂)) • (isoVec rng (x.1.1 - x.1.2).abs x.2).1
  have hout : ∀ x : (Vec × Vec) × S,
      outVel f (w.act T rng ip { p with vel := x.1.1 } { q with vel := x.1.2 } x.2) 0 = out x := fun x =>
    (elastic_velocities hpos h hmod hA hB rng ip { p with vel := x.1.1 } { q with vel := x.1.2 } x.2 f).1
  have mv1 : Measurable (fun x : (Vec × Vec) × S => x.1.1) := measurable_fst.comp measurable_fst
  have mv2 : Measurable (fun x : (Vec × Vec) × S => x.1.2) := measurable_snd.comp measurable_fst
  have mout : Measurable out := by
    have hi : Measurable (fun x : (Vec × Vec) × S => isoVec rng (x.1.1 - x.1.2).abs x.2) :=
      (measurable_isoVec hrng).comp ((measurable_abs_vec.comp (measurable_sub_vec mv1 mv2)).prodMk measurable_snd)
    exact measurable_add_vec (measurable_sub_vec ((measurable_weightedMean m₁ m₂).comp measurable_fst) measurable_const)
      (measurable_smul_vec _ hi.fst)
  simp only [hout]
  -- everything is integrable
  have hM : m₁ + m₂ ≠ 0 := by positivity
  have hbound : ∀ᵐ x ∂th.prod μ, |ke m₁ (out x) - ke m₁ (x.1.1 - f)| ≤ ke m₁ (x.1.1 - f) + ke m₂ (x.1.2 - f) := by
    have hs : ∀ᵐ x ∂th.prod μ, (rng.rand x.2).1 ∈ Ico (0 : ℝ) 1 := Measure.quasiMeasurePreserving_snd.ae hrng.ae_mem
    filter_upwards [hs] with x hx
    have hn := isoVec_normSq rng (x.1.1 - x.1.2).abs x.2 hx
    rw [Vec.abs_sq] at hn
    have h0 : ∀ (m : ℝ) (v : Vec), 0 < m → 0 ≤ ke m v := fun m v hm => by
      simp only [ke, Vec.normSq]; positivity
    have htot : ke m₁ (out x) + ke m₂ (weightedMean m₁ m₂ x.1.1 x.1.2 - f -
        (m₁ / (m₁ + m₂)) • (isoVec rng (x.1.1 - x.1.2).abs x.2).1) = ke m₁ (x.1.1 - f) + ke m₂ (x.1.2 - f) := by
      simp only [out]
      generalize (isoVec rng (x.1.1 - x.1.2).abs x.2).1 = u at hn
      simp only [Vec.normSq, Vec.sub_def] at hn
      simp only [ke, Vec.normSq, weightedMean, Vec.add_def, Vec.sub_def, Vec.smul_def]
      field_simp
      linear_combination (m₁ + m₂) * m₁ * m₂ * hn
    have k1 := h0 m₁ (out x) ha
    have k2 := h0 m₂ (weightedMean m₁ m₂ x.1.1 x.1.2 - f -
        (m₁ / (m₁ + m₂)) • (isoVec rng (x.1.1 - x.1.2).abs x.2).1) hb
    have k3 := h0 m₁ (x.1.1 - f) ha
    have k4 := h0 m₂ (x.1.2 - f) hb
    rw [abs_le]
    constructor <;> linarith
  have hI : Integrable (fun x : (Vec × Vec) × S => pairRate w x.1 * (ke m₁ (out x) - ke m₁ (x.1.1 - f))) (th.prod μ) := by
    refine Integrable.mono (hint.comp_fst μ) ?_ ?_
    · exact ((hR.comp measurable_fst).mul ((measurable_ke m₁ mout).sub
        (measurable_ke m₁ (measurable_sub_vec mv1 measurable_const)))).aestronglyMeasurable
    · filter_upwards [hbound] with x hx
      rw [norm_mul, norm_mul]
      gcongr
      exact hx.trans (le_abs_self _)
  have hI2 : Integrable (fun x : Vec × Vec => pairRate w x * (x.1 - x.2).normSq) th := by
    have hc := hint.const_mul (4 / m₁ + 4 / m₂)
    refine Integrable.mono hc ?_ (Filter.Eventually.of_forall fun x => ?_)
    · have := measurable_ke 2 (measurable_sub_vec measurable_fst measurable_snd : Measurable fun x : Vec × Vec => x.1 - x.2)
      simp only [ke, show (1 : ℝ) / 2 * 2 = 1 by norm_num, one_mul] at this
      exact (hR.mul this).aestronglyMeasurable
    · rw [← mul_assoc, mul_comm (4 / m₁ + 4 / m₂), mul_assoc, norm_mul, norm_mul]
      gcongr
      have h0 : 0 ≤ (x.1 - x.2).normSq := by simp only [Vec.normSq]; positivity
      rw [Real.norm_of_nonneg h0]
      refine le_trans ?_ (le_abs_self _)
      have e1 : (4 / m₁ + 4 / m₂) * (ke m₁ (x.1 - f) + ke m₂ (x.2 - f)) = 2 * (x.1 - f).normSq + 2 * (x.2 - f).normSq +
          2 * (m₂ / m₁) * (x.2 - f).normSq + 2 * (m₁ / m₂) * (x.1 - f).normSq := by
        simp only [ke]
        field_simp
        ring
      rw [e1]
      have h3 : 0 ≤ 2 * (m₂ / m₁) * (x.2 - f).normSq := by simp only [Vec.normSq]; positivity
      have h4 : 0 ≤ 2 * (m₁ / m₂) * (x.1 - f).normSq := by simp only [Vec.normSq]; positivity
      have h5 : (x.1 - x.2).normSq ≤ 2 * (x.1 - f).normSq + 2 * (x.2 - f).normSq := by
        simp only [Vec.normSq, Vec.sub_def]
        nlinarith [sq_nonneg (x.1.x - f.x + (x.2.x - f.x)), sq_nonneg (x.1.y - f.y + (x.2.y - f.y)),
          sq_nonneg (x.1.z - f.z + (x.2.z - f.z))]
      linarith
  -- first the mean over the generator
  have hin : ∀ x : Vec × Vec, ∫ s, pairRate w x * (ke m₁ (out (x, s)) - ke m₁ (x.1 - f)) ∂μ =
      -(m₁ * m₂ / (m₁ + m₂)) * (pairRate w x * (weightedMean m₁ m₂ x.1 x.2 - f).dot (x.1 - x.2)) := by
    intro x
    rw [integral_const_mul]
    have := (C109_exchange hpos h hmod hA hB hrng ip { p with vel := x.1 } { q with vel := x.2 } f).1
    simp only [hout (x, _)] at this
    rw [this]
    ring
  rw [integral_prod _ hI]
  simp only [hin]
  have hI3 := hI.integral_prod_left
  simp only [hin] at hI3
  have hμ0 : -(m₁ * m₂ / (m₁ + m₂)) ≠ 0 := by
    have : 0 < m₁ * m₂ / (m₁ + m₂) := by positivity
    linarith
  replace hI3 : Integrable (fun x : Vec × Vec => pairRate w x * (weightedMean m₁ m₂ x.1 x.2 - f).dot (x.1 - x.2)) th :=
    (integrable_const_mul_iff (IsUnit.mk0 _ hμ0) _).1 hI3
  rw [integral_const_mul]
  -- then the part that is odd in the relative velocity
  set n₂ := m₂ * kT₁ / kT₂ with hn₂
  have hn₂p : 0 < n₂ := by positivity
  have hthe : th = (thermal kT₁ f m₁).prod (thermal kT₁ f n₂) := by
    rw [hth, thermal_congr (show kT₂ / m₂ = kT₁ / n₂ by rw [hn₂]; field_simp) f]
  set γ := m₁ / (m₁ + m₂) - m₁ / (m₁ + n₂) with hγ
  have hodd : ∫ x, pairRate w x * (weightedMean m₁ n₂ x.1 x.2 - f).dot (x.1 - x.2) ∂th = 0 := by
    rw [hthe]
    refine odd_integral h₁ ha hn₂p f ?_ fun x => ?_
    · have c := measurable_sub_vec (measurable_weightedMean m₁ n₂) (measurable_const (a := f))
      have u : Measurable fun x : Vec × Vec => x.1 - x.2 := measurable_sub_vec measurable_fst measurable_snd
      refine hR.mul ?_
      simp only [Vec.dot]
      exact (((Vec.measurable_x.comp c).mul (Vec.measurable_x.comp u)).add
        ((Vec.measurable_y.comp c).mul (Vec.measurable_y.comp u))).add
        ((Vec.measurable_z.comp c).mul (Vec.measurable_z.comp u))
    · have hs : m₁ + n₂ ≠ 0 := by positivity
      have e1 : (mirror m₁ n₂ x).1 - (mirror m₁ n₂ x).2 = negV (x.1 - x.2) := by
        simp only [mirror, negV]
        ext <;> simp only [Vec.add_def, Vec.sub_def, Vec.smul_def] <;> field_simp <;> ring
      have e2 : weightedMean m₁ n₂ (mirror m₁ n₂ x).1 (mirror m₁ n₂ x).2 = weightedMean m₁ n₂ x.1 x.2 := by
        simp only [mirror, weightedMean]
        ext <;> simp only [Vec.add_def, Vec.sub_def, Vec.smul_def] <;> field_simp <;> ring
      have e3 : (negV (x.1 - x.2)).abs = (x.1 - x.2).abs := by
        simp only [Vec.abs, negV, Vec.normSq, neg_sq]
      simp only [pairRate, e1, e2, e3]
      simp only [Vec.dot, negV]
      ring
  have hsplit : ∀ x : Vec × Vec, pairRate w x * (weightedMean m₁ n₂ x.1 x.2 - f).dot (x.1 - x.2) =
      pairRate w x * (weightedMean m₁ m₂ x.1 x.2 - f).dot (x.1 - x.2) - γ * (pairRate w x * (x.1 - x.2).normSq) := by
    intro x
    have : (weightedMean m₁ n₂ x.1 x.2 - f).dot (x.1 - x.2) =
        (weightedMean m₁ m₂ x.1 x.2 - f).dot (x.1 - x.2) - γ * (x.1 - x.2).normSq := by
      have hs : m₁ + n₂ ≠ 0 := by positivity
      rw [hγ]
      simp only [weightedMean, Vec.dot, Vec.normSq, Vec.add_def, Vec.sub_def, Vec.smul_def]
      field_simp
      ring
    rw [this]
    ring
  simp only [hsplit] at hodd
  rw [integral_sub hI3 (hI2.const_mul _), integral_const_mul, sub_eq_zero] at hodd
  rw [hodd, ← mul_assoc]
  congr 1
  rw [hγ, hn₂]
  have : m₁ * kT₂ + m₂ * kT₁ ≠ 0 := by positivity
  have : m₁ + m₂ * kT₁ / kT₂ ≠ 0 := by positivity
  field_simp
  ring

/-- **C109**  So heat flows from the hotter species to the colder one, whatever the masses and the cross section (it
must have a positive mean of `σ(v) v³`), and there is none at equal temperatures. -/
theorem C109_hot_to_cold {T : Tools W} {db : Registry ℝ} (hpos : ∀ x ∈ db, 0 < x.mass) {e : LEq} {d : InterDoc}
    {w : WEq W} (h : completeEq T db e d = .ok w) (hmod : e.model = "elastic") {a b : Props ℝ}
    (hA : db[e.A.species.toNat]? = some a) (hB : db[e.B.species.toNat]? = some b)
    {rng : RNG S ℝ} (hrng : rng.IID μ) (ip : Bool) (p q : Part W) (f : Vec) {kT₁ kT₂ : ℝ} (h₁ : 0 < kT₁) (h₂ : 0 < kT₂)
    (hint : Integrable (fun x : Vec × Vec => pairRate w x * (ke a.mass (x.1 - f) + ke b.mass (x.2 - f)))
      ((thermal kT₁ f a.mass).prod (thermal kT₂ f b.mass)))
    (hσ : 0 < ∫ x, pairRate w x * (x.1 - x.2).normSq ∂(thermal kT₁ f a.mass).prod (thermal kT₂ f b.mass)) :
    let Q := ∫ x, pairRate w x.1 *
      (ke a.mass (outVel f (w.act T rng ip { p with vel := x.1.1 } { q with vel := x.1.2 } x.2) 0) -
        ke a.mass (x.1.1 - f)) ∂((thermal kT₁ f a.mass).prod (thermal kT₂ f b.mass)).prod μ
    (Q < 0 ↔ kT₂ < kT₁) ∧ (0 < Q ↔ kT₁ < kT₂) := by
  intro Q
  have ha := hpos a (List.mem_of_getElem? hA)
  have hb := hpos b (List.mem_of_getElem? hB)
  have hQ : Q = _ := C109_heat hpos h hmod hA hB hrng ip p q f h₁ h₂ hint
  set I := ∫ x, pairRate w x * (x.1 - x.2).normSq ∂(thermal kT₁ f a.mass).prod (thermal kT₂ f b.mass)
  have hc : 0 < a.mass * b.mass / (a.mass + b.mass) ^ 2 / (kT₁ / a.mass + kT₂ / b.mass) * I := by positivity
  have hQ' : Q = (kT₂ - kT₁) * (a.mass * b.mass / (a.mass + b.mass) ^ 2 / (kT₁ / a.mass + kT₂ / b.mass) * I) := by
    rw [hQ]
    ring
  rw [hQ']
  constructor
  · rw [mul_neg_iff]
    constructor
    · rintro (⟨-, h⟩ | ⟨h, -⟩) <;> linarith
    · exact fun h => .inr ⟨by linarith, hc⟩
  · rw [mul_pos_iff_of_pos_right hc]
    constructor <;> intro h <;> linarith

/-! ### When the means exist -/

private theorem fourth_moment {c : Vec → ℝ} (hc : Measurable c) {kT m e : ℝ} {d : Vec}
    (h : (thermal kT d m).map c = gaussianReal e (kT / m).toNNReal) :
    Integrable (fun v => (c v - e) ^ 4) (thermal kT d m) ∧ Integrable (fun v => (c v - e) ^ 2) (thermal kT d m) ∧
      Integrable (fun v => c v - e) (thermal kT d m) ∧ ∫ v, (c v - e) ∂thermal kT d m = 0 := by
  have h4 : MemLp (fun x : ℝ => x - e) 4 (gaussianReal e (kT / m).toNNReal) :=
    (memLp_id_gaussianReal 4).sub (memLp_const e)
  have h2 : MemLp (fun x : ℝ => x - e) 2 (gaussianReal e (kT / m).toNNReal) :=
    (memLp_id_gaussianReal 2).sub (memLp_const e)
  have i4 : Integrable (fun x : ℝ => (x - e) ^ 4) (gaussianReal e (kT / m).toNNReal) := by
    have := h4.integrable_norm_pow (p := 4) (by norm_num)
    refine this.congr (Filter.Eventually.of_forall fun x => ?_)
    simp only [Real.norm_eq_abs]
    exact (even_two_mul 2).pow_abs _
  have i1 : Integrable (fun x : ℝ => x - e) (gaussianReal e (kT / m).toNNReal) := h2.integrable (by norm_num)
  have i2 : Integrable (fun x : ℝ => (x - e) ^ 2) (gaussianReal e (kT / m).toNNReal) := h2.integrable_sq
  refine ⟨?_, ?_, ?_, ?_⟩
  · rw [← h] at i4
    exact i4.comp_measurable hc
  · rw [← h] at i2
    exact i2.comp_measurable hc
  · rw [← h] at i1
    exact i1.comp_measurable hc
  · have e1 : ∫ v, (c v - e) ∂thermal kT d m = ∫ x, (x - e) ∂(thermal kT d m).map c := by
      rw [integral_map hc.aemeasurable (by fun_prop)]
    have i0 : Integrable (fun x : ℝ => x) (gaussianReal e (kT / m).toNNReal) := by
      have := i1.add (integrable_const e)
      refine this.congr (Filter.Eventually.of_forall fun x => ?_)
      simp
    rw [e1, h, integral_sub i0 (integrable_const _), integral_id_gaussianReal]
    simp

theorem thermal_moments (kT : ℝ) (d : Vec) (m : ℝ) :
    Integrable (fun v => (v - d).normSq) (thermal kT d m) ∧ Integrable (fun v => (v - d).normSq ^ 2) (thermal kT d m) := by
  obtain ⟨x4, x2, -, -⟩ := fourth_moment Vec.measurable_x (thermal_map_x kT d m)
  obtain ⟨y4, y2, -, -⟩ := fourth_moment Vec.measurable_y (thermal_map_y kT d m)
  obtain ⟨z4, z2, -, -⟩ := fourth_moment Vec.measurable_z (thermal_map_z kT d m)
  have hm : Measurable fun v : Vec => (v - d).normSq := by
    have := measurable_ke 2 (measurable_sub_vec measurable_id measurable_const : Measurable fun v : Vec => v - d)
    simpa only [ke, show (1 : ℝ) / 2 * 2 = 1 by norm_num, one_mul] using this
  refine ⟨((x2.add y2).add z2).congr (Filter.Eventually.of_forall fun v => ?_), ?_⟩
  · simp [Vec.normSq, Vec.sub_def]
  · refine Integrable.mono (((x4.add y4).add z4).const_mul 3) (hm.pow_const 2).aestronglyMeasurable
      (Filter.Eventually.of_forall fun v => ?_)
    simp only [Pi.add_apply]
    rw [Real.norm_of_nonneg (by positivity), Real.norm_of_nonneg (by positivity)]
    simp only [Vec.normSq, Vec.sub_def]
    nlinarith [sq_nonneg ((v.x - d.x) ^ 2 - (v.y - d.y) ^ 2), sq_nonneg ((v.y - d.y) ^ 2 - (v.z - d.z) ^ 2),
      sq_nonneg ((v.x - d.x) ^ 2 - (v.z - d.z) ^ 2)]

/-- **C109**  The means exist whenever `|σ(v)| v ≤ A (1 + v²)` for some `A`: the cross section grows at most linearly and
does not diverge faster than `1 / v` at rest. -/
theorem C109_means_exist {T : Tools W} {db : Registry ℝ} {e : LEq} {d : InterDoc} {w : WEq W}
    (h : completeEq T db e d = .ok w) {A : ℝ} (hA : ∀ v, 0 ≤ v → |okVal (w.cs.sigma v)| * v ≤ A * (1 + v ^ 2))
    (f : Vec) (kT₁ kT₂ : ℝ) {m₁ m₂ : ℝ} (hm₁ : 0 < m₁) (hm₂ : 0 < m₂) :
    Integrable (fun x : Vec × Vec => pairRate w x * (ke m₁ (x.1 - f) + ke m₂ (x.2 - f)))
      ((thermal kT₁ f m₁).prod (thermal kT₂ f m₂)) := by
  have hR := measurable_pairRate h
  have hA0 : 0 ≤ A := by have := hA 0 le_rfl; simpa using this
  obtain ⟨a2, a4⟩ := thermal_moments kT₁ f m₁
  obtain ⟨b2, b4⟩ := thermal_moments kT₂ f m₂
  have i1 := a2.comp_fst (thermal kT₂ f m₂)
  have i2 := a4.comp_fst (thermal kT₂ f m₂)
  have i3 := b2.comp_snd (thermal kT₁ f m₁)
  have i4 := b4.comp_snd (thermal kT₁ f m₁)
  have hdom := (((i1.add i2).add (i3.add i4)).const_mul (A * 4 * (m₁ + m₂)))
  refine Integrable.mono hdom (hR.mul ((measurable_ke m₁ (measurable_sub_vec measurable_fst measurable_const)).add
    (measurable_ke m₂ (measurable_sub_vec measurable_snd measurable_const)))).aestronglyMeasurable
    (Filter.Eventually.of_forall fun x => ?_)
  simp only [Pi.add_apply]
  have hg := hA (x.1 - x.2).abs (Real.sqrt_nonneg _)
  rw [Vec.abs_sq] at hg
  have hr : ‖pairRate w x‖ ≤ A * (1 + (x.1 - x.2).normSq) := by
    rw [pairRate, Real.norm_eq_abs, abs_mul, abs_of_nonneg (show 0 ≤ (x.1 - x.2).abs from Real.sqrt_nonneg _)]
    exact hg
  have h5 : (x.1 - x.2).normSq ≤ 2 * (x.1 - f).normSq + 2 * (x.2 - f).normSq := by
    simp only [Vec.normSq, Vec.sub_def]
    nlinarith [sq_nonneg (x.1.x - f.x + (x.2.x - f.x)), sq_nonneg (x.1.y - f.y + (x.2.y - f.y)),
      sq_nonneg (x.1.z - f.z + (x.2.z - f.z))]
  have p1 : 0 ≤ (x.1 - f).normSq := by simp only [Vec.normSq]; positivity
  have p2 : 0 ≤ (x.2 - f).normSq := by simp only [Vec.normSq]; positivity
  have hk : 0 ≤ ke m₁ (x.1 - f) + ke m₂ (x.2 - f) := by
    simp only [ke]
    positivity
  rw [norm_mul, Real.norm_of_nonneg hk]
  refine le_trans ?_ (le_abs_self _)
  simp only [ke]
  generalize (x.1 - f).normSq = α at h5 p1 ⊢
  generalize (x.2 - f).normSq = β at h5 p2 ⊢
  calc ‖pairRate w x‖ * (1 / 2 * m₁ * α + 1 / 2 * m₂ * β)
      ≤ (A * (1 + (2 * α + 2 * β))) * (1 / 2 * m₁ * α + 1 / 2 * m₂ * β) := by
        refine mul_le_mul_of_nonneg_right (hr.trans ?_) (by positivity)
        gcongr
    _ ≤ (A * (1 + (2 * α + 2 * β))) * (1 / 2 * (m₁ + m₂) * (α + β)) := by
        refine mul_le_mul_of_nonneg_left ?_ (by positivity)
        nlinarith [mul_nonneg hm₁.le p2, mul_nonneg hm₂.le p1]
    _ = A * (m₁ + m₂) * ((1 + (2 * α + 2 * β)) * (1 / 2 * (α + β))) := by ring
    _ ≤ A * (m₁ + m₂) * (4 * (α + α ^ 2 + (β + β ^ 2))) := by
        refine mul_le_mul_of_nonneg_left ?_ (by positivity)
        nlinarith [sq_nonneg (α - β), sq_nonneg α, sq_nonneg β]
    _ = A * 4 * (m₁ + m₂) * (α + α ^ 2 + (β + β ^ 2)) := by ring

/-! ### Maxwell molecules -/

private theorem mean_relative {kT₁ kT₂ m₁ m₂ : ℝ} (h₁ : 0 < kT₁) (h₂ : 0 < kT₂) (hm₁ : 0 < m₁) (hm₂ : 0 < m₂) (f : Vec) :
    ∫ x, (x.1 - x.2).normSq ∂(thermal kT₁ f m₁).prod (thermal kT₂ f m₂) = 3 * (kT₁ / m₁ + kT₂ / m₂) := by
  have hcross : ∀ {c : Vec → ℝ} {e : ℝ}, Measurable c → (thermal kT₁ f m₁).map c = gaussianReal e (kT₁ / m₁).toNNReal →
      (thermal kT₂ f m₂).map c = gaussianReal e (kT₂ / m₂).toNNReal →
      Integrable (fun x : Vec × Vec => (c x.1 - e) * (c x.2 - e)) ((thermal kT₁ f m₁).prod (thermal kT₂ f m₂)) ∧
      ∫ x, (c x.1 - e) * (c x.2 - e) ∂(thermal kT₁ f m₁).prod (thermal kT₂ f m₂) = 0 := by
    intro c e hc e1 e2
    obtain ⟨-, -, j1, z1⟩ := fourth_moment hc e1
    obtain ⟨-, -, j2, z2⟩ := fourth_moment hc e2
    refine ⟨j1.mul_prod j2, ?_⟩
    rw [integral_prod_mul (fun v => c v - e) (fun v => c v - e), z1, zero_mul]
  obtain ⟨cx, zx⟩ := hcross Vec.measurable_x (thermal_map_x kT₁ f m₁) (thermal_map_x kT₂ f m₂)
  obtain ⟨cy, zy⟩ := hcross Vec.measurable_y (thermal_map_y kT₁ f m₁) (thermal_map_y kT₂ f m₂)
  obtain ⟨cz, zz⟩ := hcross Vec.measurable_z (thermal_map_z kT₁ f m₁) (thermal_map_z kT₂ f m₂)
  obtain ⟨k1, t1⟩ := thermal_mean_energy h₁ hm₁ f
  obtain ⟨k2, t2⟩ := thermal_mean_energy h₂ hm₂ f
  have K1 := k1.comp_fst (thermal kT₂ f m₂)
  have K2 := k2.comp_snd (thermal kT₁ f m₁)
  have T1 : ∫ x : Vec × Vec, ke m₁ (x.1 - f) ∂(thermal kT₁ f m₁).prod (thermal kT₂ f m₂) = 3 / 2 * kT₁ := by
    rw [integral_fun_fst (fun v => ke m₁ (v - f)), t1]; simp
  have T2 : ∫ x : Vec × Vec, ke m₂ (x.2 - f) ∂(thermal kT₁ f m₁).prod (thermal kT₂ f m₂) = 3 / 2 * kT₂ := by
    rw [integral_fun_snd (fun v => ke m₂ (v - f)), t2]; simp
  have he : ∀ x : Vec × Vec, (x.1 - x.2).normSq = 2 / m₁ * ke m₁ (x.1 - f) + 2 / m₂ * ke m₂ (x.2 - f) -
      2 * ((x.1.x - f.x) * (x.2.x - f.x) + (x.1.y - f.y) * (x.2.y - f.y) + (x.1.z - f.z) * (x.2.z - f.z)) := by
    intro x
    simp only [ke, Vec.normSq, Vec.sub_def]
    field_simp
    ring
  have L1 : Integrable (fun x : Vec × Vec => 2 / m₁ * ke m₁ (x.1 - f) + 2 / m₂ * ke m₂ (x.2 - f))
      ((thermal kT₁ f m₁).prod (thermal kT₂ f m₂)) := (K1.const_mul _).add (K2.const_mul _)
  have L2 : Integrable (fun x : Vec × Vec => (x.1.x - f.x) * (x.2.x - f.x) + (x.1.y - f.y) * (x.2.y - f.y))
      ((thermal kT₁ f m₁).prod (thermal kT₂ f m₂)) := cx.add cy
  have L3 : Integrable (fun x : Vec × Vec => (x.1.x - f.x) * (x.2.x - f.x) + (x.1.y - f.y) * (x.2.y - f.y) +
      (x.1.z - f.z) * (x.2.z - f.z)) ((thermal kT₁ f m₁).prod (thermal kT₂ f m₂)) := L2.add cz
  simp only [he]
  rw [integral_sub L1 (L3.const_mul 2), integral_add (K1.const_mul _) (K2.const_mul _), integral_const_mul,
    integral_const_mul, integral_const_mul, integral_add L2 cz, integral_add cx cy, zx, zy, zz, T1, T2]
  field_simp
  ring

omit [MeasurableSpace S] [IsProbabilityMeasure μ] in
theorem inverse_rate {T : Tools W} {db : Registry ℝ} {e : LEq} {d : InterDoc}
    {w : WEq W} (h : completeEq T db e d = .ok w) {k : ℝ} (hcs : d.cs = .inverse k none) {v : ℝ} (hv : 0 ≤ v) :
    okVal (w.cs.sigma v) * v = if v = 0 then 0 else k := by
  obtain ⟨a', b', -, -, -, -, hl, -⟩ := completeEq_ok h
  rw [hcs, CSDoc.load, mkInverse, setThreshold, loadThreshold, if_neg (lt_irrefl _)] at hl
  simp only [zero_div, Real.sqrt_zero] at hl
  rw [← Except.ok.inj hl]
  simp only [not_lt.2 hv, if_false]
  by_cases h0 : v = 0
  · simp [h0]
  · simp only [h0, if_false, okVal]
    field_simp

private theorem inverse_means {T : Tools W} {db : Registry ℝ} {e : LEq} {d : InterDoc}
    {w : WEq W} (h : completeEq T db e d = .ok w) {k : ℝ} (hcs : d.cs = .inverse k none) (f : Vec) {kT₁ kT₂ : ℝ}
    (h₁ : 0 < kT₁) (h₂ : 0 < kT₂) {m₁ m₂ : ℝ} (hm₁ : 0 < m₁) (hm₂ : 0 < m₂) :
    Integrable (fun x : Vec × Vec => pairRate w x * (ke m₁ (x.1 - f) + ke m₂ (x.2 - f)))
      ((thermal kT₁ f m₁).prod (thermal kT₂ f m₂)) ∧
    ∫ x, pairRate w x * (x.1 - x.2).normSq ∂(thermal kT₁ f m₁).prod (thermal kT₂ f m₂) =
      k * (3 * (kT₁ / m₁ + kT₂ / m₂)) := by
  constructor
  · refine C109_means_exist h (A := |k|) (fun v hv => ?_) f kT₁ kT₂ hm₁ hm₂
    have h2 : |okVal (w.cs.sigma v)| * v = |if v = 0 then 0 else k| := by
      rw [← inverse_rate h hcs hv, abs_mul, abs_of_nonneg hv]
    rw [h2]
    split_ifs
    · rw [abs_zero]; positivity
    · nlinarith [abs_nonneg k, sq_nonneg v, mul_nonneg (abs_nonneg k) (sq_nonneg v)]
  · have he : ∀ x : Vec × Vec, pairRate w x * (x.1 - x.2).normSq = k * (x.1 - x.2).normSq := by
      intro x
      rw [pairRate, inverse_rate h hcs (show 0 ≤ (x.1 - x.2).abs from Real.sqrt_nonneg _)]
      split_ifs with h0
      · rw [← Vec.abs_sq, h0]; ring
      · rfl
    simp only [he]
    rw [integral_const_mul, mean_relative h₁ h₂ hm₁ hm₂]

/-- **C109**  With an inverse cross section `k / v` the heat flow is proportional to the difference of the
temperatures: `-2 m₁ m₂ / (m₁ + m₂)² k` times the difference of the mean energies. -/
theorem C109_inverse {T : Tools W} {db : Registry ℝ} (hpos : ∀ x ∈ db, 0 < x.mass) {e : LEq} {d : InterDoc}
    {w : WEq W} (h : completeEq T db e d = .ok w) (hmod : e.model = "elastic") {a b : Props ℝ}
    (hA : db[e.A.species.toNat]? = some a) (hB : db[e.B.species.toNat]? = some b) {k : ℝ} (hcs : d.cs = .inverse k none)
    {rng : RNG S ℝ} (hrng : rng.IID μ) (ip : Bool) (p q : Part W) (f : Vec) {kT₁ kT₂ : ℝ} (h₁ : 0 < kT₁)
    (h₂ : 0 < kT₂) :
    ∫ x, pairRate w x.1 * (ke a.mass (outVel f (w.act T rng ip { p with vel := x.1.1 } { q with vel := x.1.2 } x.2) 0) -
        ke a.mass (x.1.1 - f)) ∂((thermal kT₁ f a.mass).prod (thermal kT₂ f b.mass)).prod μ =
      -(2 * (a.mass * b.mass) / (a.mass + b.mass) ^ 2) * k * (3 / 2 * kT₁ - 3 / 2 * kT₂) := by
  have ha := hpos a (List.mem_of_getElem? hA)
  have hb := hpos b (List.mem_of_getElem? hB)
  obtain ⟨hint, hmean⟩ := inverse_means h hcs f h₁ h₂ ha hb
  rw [C109_heat hpos h hmod hA hB hrng ip p q f h₁ h₂ hint, hmean]
  have : 0 < kT₁ / a.mass + kT₂ / b.mass := by positivity
  field_simp

/-! ### Examples -/

section HeatExample
open IsotropyExample RateExample

/-- The equation of the example with an inverse cross section. -/
def hotEq : LEq := ⟨Term.single 0, Term.single 1, [Term.single 0, Term.single 1], "inverse", "elastic"⟩

/-- Non-trivial case: electrons at three times the temperature of hydrogen that is 2000 times heavier, inverse cross
section: the electrons lose energy at the rate given. -/
example (T : Tools Unit) : ∃ w : WEq Unit,
    completeEq T exReal hotEq { cs := .inverse 5 none } = .ok w ∧
    ∫ x, pairRate w x.1 * (ke 1 (outVel ⟨4, 0, 0⟩ (w.act T streamRNG true ⟨0, x.1.1, 0, ()⟩ ⟨0, x.1.2, 1, ()⟩ x.2) 0) -
        ke 1 (x.1.1 - ⟨4, 0, 0⟩)) ∂((thermal 900 ⟨4, 0, 0⟩ 1).prod (thermal 300 ⟨4, 0, 0⟩ 2000)).prod iidUnif =
      -(4000 / 2001 ^ 2) * 5 * 900 := by
  obtain ⟨y, hy⟩ : ∃ y, CSDoc.load T.solve T.extrapolate (ReducedMass.mk' (1 : ℝ) 2000).value (.inverse 5 none) = .ok y := by
    simp only [CSDoc.load, mkInverse, setThreshold, loadThreshold, lt_irrefl, if_false]
    exact ⟨_, rfl⟩
  have hw := completeEq_of T (db := exReal) (e := hotEq) (d := { cs := .inverse 5 none })
    (a := ⟨"e", 1, -1⟩) (b := ⟨"H", 2000, 0⟩) rfl rfl rfl hy rfl
  refine ⟨_, hw, ?_⟩
  have h := C109_inverse exReal_pos hw rfl (a := ⟨"e", 1, -1⟩) (b := ⟨"H", 2000, 0⟩) rfl rfl rfl streamRNG_iid true
    ⟨0, ⟨0, 0, 0⟩, 0, ()⟩ ⟨0, ⟨0, 0, 0⟩, 1, ()⟩ ⟨4, 0, 0⟩ (kT₁ := 900) (kT₂ := 300) (by norm_num) (by norm_num)
  refine h.trans ?_
  norm_num

/-- The hypotheses of `C109_hot_to_cold` hold for the inverse cross section. -/
example (T : Tools Unit) (w : WEq Unit) (hw : completeEq T exReal hotEq { cs := .inverse 5 none } = .ok w) :
    Integrable (fun x : Vec × Vec => pairRate w x * (ke 1 (x.1 - ⟨4, 0, 0⟩) + ke 2000 (x.2 - ⟨4, 0, 0⟩)))
      ((thermal 900 ⟨4, 0, 0⟩ 1).prod (thermal 300 ⟨4, 0, 0⟩ 2000)) ∧
    0 < ∫ x, pairRate w x * (x.1 - x.2).normSq ∂(thermal 900 ⟨4, 0, 0⟩ 1).prod (thermal 300 ⟨4, 0, 0⟩ 2000) := by
  obtain ⟨h1, h2⟩ := inverse_means hw rfl ⟨4, 0, 0⟩ (kT₁ := 900) (kT₂ := 300) (by norm_num) (by norm_num) one_pos
    (show (0 : ℝ) < 2000 by norm_num)
  exact ⟨h1, h2 ▸ by norm_num⟩

/-- The hypotheses of `C109_heat` hold for a constant cross section. -/
example (T : Tools Unit) : ∃ w : WEq Unit,
    completeEq T exReal (scatter "elastic") { cs := .constant 3 none } = .ok w ∧
    Integrable (fun x : Vec × Vec => pairRate w x * (ke 1 (x.1 - ⟨4, 0, 0⟩) + ke 2000 (x.2 - ⟨4, 0, 0⟩)))
      ((thermal 900 ⟨4, 0, 0⟩ 1).prod (thermal 300 ⟨4, 0, 0⟩ 2000)) := by
  have hw := completeEq_of T (a := ⟨"e", 1, -1⟩) (b := ⟨"H", 2000, 0⟩) (e := scatter "elastic") (db := exReal)
    (d := { cs := .constant 3 none }) rfl rfl rfl (plain_load T) rfl
  refine ⟨_, hw, C109_means_exist hw (A := 3) (fun v hv => ?_) _ _ _ one_pos (by norm_num)⟩
  have h3 : |okVal (plain.sigma v)| = 3 := by
    simp [plain, okVal, hv]
  show |okVal (plain.sigma v)| * v ≤ 3 * (1 + v ^ 2)
  rw [h3]
  nlinarith [sq_nonneg (v - 1)]

end HeatExample

end Chimp
