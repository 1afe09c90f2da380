import Verif.Props.ThermalRate
import Verif.Props.Isotropy

/-!
# C108: deflection angles and viscosity

Transport coefficients of a gas depend on an interaction through the mean of functions of the deflection angle, the
angle between the relative velocity of two particles before and after.  Here its distribution is found for the
elastic and the VSS model, and the viscosity of a VHS gas is computed from it.
-/

namespace Chimp
open MeasureTheory ProbabilityTheory Set Real
open scoped NNReal ENNReal

variable {S W : Type}

/-- The cosine of the angle between two velocities. -/
noncomputable def cosBetween (a b : Vec) : ℝ := Vec.dot a b / (a.abs * b.abs)

/-- The velocity of the first outgoing particle relative to the second. -/
def relAfter (o : Option (Part W × Part W × List (Part W) × S)) : Vec :=
  outVel ⟨0, 0, 0⟩ o 0 - outVel ⟨0, 0, 0⟩ o 1

/-! ### Turning a velocity to the x axis -/

/-- The reflection that exchanges `v` and the vector of the same length along x. -/
private noncomputable def toX (v a : Vec) : Vec :=
  let n : Vec := v - ⟨v.abs, 0, 0⟩
  if n.normSq = 0 then a else a - (2 * Vec.dot n a / n.normSq) • n

private theorem abs_sq (v : Vec) : v.abs ^ 2 = v.x ^ 2 + v.y ^ 2 + v.z ^ 2 := by
  rw [v.abs_sq, Vec.normSq]

private theorem toX_rotation (v : Vec) : Rotation (toX v) := by
  by_cases h : (v - ⟨v.abs, 0, 0⟩ : Vec).normSq = 0
  · have : toX v = id := by
      funext a
      simp only [toX, if_pos h, id]
    rw [this]
    exact ⟨fun _ _ => rfl, fun _ _ => rfl, fun _ => rfl⟩
  · have he : ∀ a, toX v a = a - (2 * Vec.dot (v - ⟨v.abs, 0, 0⟩) a / (v - ⟨v.abs, 0, 0⟩ : Vec).normSq) •
        (v - ⟨v.abs, 0, 0⟩) := fun a => by simp only [toX, if_neg h]
    generalize v - ⟨v.abs, 0, 0⟩ = n at h he
    constructor
    · intro a b
      rw [he, he, he]
      ext <;> simp only [Vec.sub_def, Vec.add_def, Vec.smul_def, Vec.dot] <;> ring
    · intro k a
      rw [he, he]
      ext <;> simp only [Vec.sub_def, Vec.smul_def, Vec.dot] <;> ring
    · intro a
      rw [he]
      simp only [Vec.sub_def, Vec.smul_def, Vec.normSq, Vec.dot] at h ⊢
      field_simp
      ring

private theorem toX_self (v : Vec) : toX v v = ⟨v.abs, 0, 0⟩ := by
  have h2 := abs_sq v
  by_cases h : (v - ⟨v.abs, 0, 0⟩ : Vec).normSq = 0
  · simp only [toX, if_pos h]
    simp only [Vec.sub_def, Vec.normSq] at h
    have hx : v.x - v.abs = 0 := by nlinarith [sq_nonneg (v.x - v.abs), sq_nonneg v.y, sq_nonneg v.z]
    have hy : v.y = 0 := by nlinarith [sq_nonneg (v.x - v.abs), sq_nonneg v.y, sq_nonneg v.z]
    have hz : v.z = 0 := by nlinarith [sq_nonneg (v.x - v.abs), sq_nonneg v.y, sq_nonneg v.z]
    ext
    · simp only; linarith
    · exact hy
    · exact hz
  · simp only [toX, if_neg h]
    have e : 2 * Vec.dot (v - ⟨v.abs, 0, 0⟩) v / (v - ⟨v.abs, 0, 0⟩ : Vec).normSq = 1 := by
      rw [div_eq_one_iff_eq h]
      simp only [Vec.sub_def, Vec.normSq, Vec.dot]
      linear_combination -h2
    rw [e]
    ext <;> simp

variable [MeasurableSpace S] {μ : Measure S} [IsProbabilityMeasure μ]

private theorem measurable_dotv (v : Vec) : Measurable (Vec.dot v) := by
  unfold Vec.dot
  exact ((Vec.measurable_x.const_mul _).add (Vec.measurable_y.const_mul _)).add (Vec.measurable_z.const_mul _)

/-- The projection of an isotropic vector on any direction is uniform. -/
private theorem isoLaw_cos {v : Vec} (hv : v.abs ≠ 0) :
    (isoLaw v.abs).map (fun a => Vec.dot v a / v.abs ^ 2) = unif.map (fun u => 2 * u - 1) := by
  have hR := toX_rotation v
  have h1 : (fun a => Vec.dot v a / v.abs ^ 2) = (fun a : Vec => a.x / v.abs) ∘ toX v := by
    funext a
    rw [Function.comp_apply, ← hR.dot, toX_self]
    simp only [Vec.dot]
    field_simp
    ring
  have hm : Measurable fun a : Vec => a.x / v.abs := Vec.measurable_x.div_const _
  rw [h1, ← Measure.map_map hm hR.measurable, isoLaw_invariant hR, isoLaw, Measure.map_map hm (measurable_isoOf' _)]
  have h2 : (fun a : Vec => a.x / v.abs) ∘ isoOf v.abs = (fun u : ℝ => 2 * u - 1) ∘ Prod.fst := by
    funext t
    simp only [Function.comp_apply, isoOf]
    field_simp
  rw [h2, ← Measure.map_map (by fun_prop) measurable_fst]
  simp

omit [MeasurableSpace S] in
private theorem rel_elastic {T : Tools W} {db : Registry ℝ} (hpos : ∀ x ∈ db, 0 < x.mass) {e : LEq} {d : InterDoc}
    {w : WEq W} (h : completeEq T db e d = .ok w) (hmod : e.model = "elastic")
    (rng : RNG S ℝ) (ip : Bool) (p q : Part W) (s : S) :
    relAfter (w.act T rng ip p q s) = (isoVec rng (p.vel - q.vel).abs s).1 := by
  obtain ⟨a, b, hA, hB, -, hmu, -, hm, -, -⟩ := completeEq_ok h
  have ha := hpos a (List.mem_of_getElem? hA)
  have hb := hpos b (List.mem_of_getElem? hB)
  obtain ⟨_, e1, e2⟩ := reducedMass_eq ha hb
  rcases loadModel_ok hm with ⟨-, hw⟩ | ⟨h1, -⟩ | ⟨h1, -⟩
  · have hact : w.act T rng ip p q s = some (elasticAct rng w.mu ip p q s) := by
      unfold WEq.act; rw [hw]
    obtain ⟨post, hpost⟩ : ∃ post, post = (isoVec rng (p.vel - q.vel).abs s).1 := ⟨_, rfl⟩
    have ho : outgoing (elasticAct rng w.mu ip p q s) =
        [{ p with vel := velCM w.mu p.vel q.vel + w.mu.over_m1 • post },
         { q with vel := velCM w.mu p.vel q.vel - w.mu.over_m2 • post }] := by
      rw [hpost]
      cases ip <;> rfl
    rw [← hpost, hact]
    simp only [relAfter, outVel, Option.bind_some, ho, List.getElem?_cons_zero, List.getElem?_cons_succ]
    rw [hmu, e1, e2]
    have hne : a.mass + b.mass ≠ 0 := by linarith
    ext <;> simp only [Vec.sub_def, Vec.add_def, Vec.smul_def] <;> field_simp <;> ring
  · rw [hmod] at h1; simp at h1
  · rw [hmod] at h1; simp at h1

/-- **C108**  Elastic interactions, whatever the masses and velocities: the cosine of the deflection angle is
distributed uniformly between -1 and 1. -/
theorem C108_elastic {T : Tools W} {db : Registry ℝ} (hpos : ∀ x ∈ db, 0 < x.mass) {e : LEq} {d : InterDoc}
    {w : WEq W} (h : completeEq T db e d = .ok w) (hmod : e.model = "elastic")
    {rng : RNG S ℝ} (hrng : rng.IID μ) (ip : Bool) (p q : Part W) (hv : p.vel ≠ q.vel) :
    let c := fun s => cosBetween (p.vel - q.vel) (relAfter (w.act T rng ip p q s))
    AEMeasurable c μ ∧ μ.map c = unif.map (fun u => 2 * u - 1) := by
  intro c
  have hv0 : (p.vel - q.vel).abs ≠ 0 := by
    intro h0
    have h2 := abs_sq (p.vel - q.vel)
    rw [h0] at h2
    simp only [Vec.sub_def] at h2
    refine hv ?_
    ext
    · nlinarith [sq_nonneg (p.vel.x - q.vel.x), sq_nonneg (p.vel.y - q.vel.y), sq_nonneg (p.vel.z - q.vel.z)]
    · nlinarith [sq_nonneg (p.vel.x - q.vel.x), sq_nonneg (p.vel.y - q.vel.y), sq_nonneg (p.vel.z - q.vel.z)]
    · nlinarith [sq_nonneg (p.vel.x - q.vel.x), sq_nonneg (p.vel.y - q.vel.y), sq_nonneg (p.vel.z - q.vel.z)]
  generalize hvdef : p.vel - q.vel = v at hv0 c
  have hm : Measurable fun a => Vec.dot v a / v.abs ^ 2 := (measurable_dotv v).div_const _
  have hi : Measurable fun s => (isoVec rng v.abs s).1 := (measurable_isoVec' hrng _).fst
  have hc : c =ᵐ[μ] (fun a => Vec.dot v a / v.abs ^ 2) ∘ fun s => (isoVec rng v.abs s).1 := by
    filter_upwards [hrng.ae_mem] with s hs
    have h1 := isoVec_normSq rng v.abs s hs
    simp only [c, Function.comp_apply, cosBetween]
    rw [rel_elastic hpos h hmod, hvdef]
    have h2 : (isoVec rng v.abs s).1.abs = v.abs := by
      rw [Vec.abs, h1]
      exact Real.sqrt_sq (Real.sqrt_nonneg _)
    rw [h2, sq]
  refine ⟨⟨_, hm.comp hi, hc⟩, ?_⟩
  rw [Measure.map_congr hc, ← Measure.map_map hm hi, law_isoVec_fst hrng, isoLaw_cos hv0]

omit [MeasurableSpace S] in
private theorem rel_vss {T : Tools W} {db : Registry ℝ} (hpos : ∀ x ∈ db, 0 < x.mass) {e : LEq} {d : InterDoc}
    {w : WEq W} (h : completeEq T db e d = .ok w) (hmod : e.model = "vss_elastic")
    (rng : RNG S ℝ) (ip : Bool) (p q : Part W) (s : S) :
    relAfter (w.act T rng ip p q s) = vssPost (p.vel - q.vel) (2 * T.pow (rng.rand s).1 d.vssParamInv - 1)
      (2 * π * (rng.rand (rng.rand s).2).1) := by
  obtain ⟨a, b, hA, hB, -, hmu, -, hm, -, -⟩ := completeEq_ok h
  have ha := hpos a (List.mem_of_getElem? hA)
  have hb := hpos b (List.mem_of_getElem? hB)
  obtain ⟨_, e1, e2⟩ := reducedMass_eq ha hb
  rcases loadModel_ok hm with ⟨h1, -⟩ | ⟨-, hw⟩ | ⟨h1, -⟩
  · rw [hmod] at h1; simp at h1
  · have hact : w.act T rng ip p q s = some (vssAct T.pow d.vssParamInv rng w.mu ip p q s) := by
      unfold WEq.act; rw [hw]
    obtain ⟨post, hpost⟩ : ∃ post, post = vssPost (p.vel - q.vel)
      (2 * T.pow (rng.rand s).1 d.vssParamInv - 1) (2 * π * (rng.rand (rng.rand s).2).1) := ⟨_, rfl⟩
    have ho : outgoing (vssAct T.pow d.vssParamInv rng w.mu ip p q s) =
      [{ p with vel := velCM w.mu p.vel q.vel + w.mu.over_m1 • post },
       { q with vel := velCM w.mu p.vel q.vel - w.mu.over_m2 • post }] := by
      rw [hpost]
      cases ip <;> rfl
    rw [← hpost, hact]
    simp only [relAfter, outVel, Option.bind_some, ho, List.getElem?_cons_zero, List.getElem?_cons_succ]
    rw [hmu, e1, e2]
    have hne : a.mass + b.mass ≠ 0 := by linarith
    ext <;> simp only [Vec.sub_def, Vec.add_def, Vec.smul_def] <;> field_simp <;> ring
  · rw [hmod] at h1; simp at h1

/-- **C108**  VSS interactions of pairs that do not move along the x axis relative to each other: half of one plus the
cosine of the deflection angle is distributed like the power `1 / α` of a uniform number, if the library's power
function is exact. -/
theorem C108_vss {T : Tools W} {db : Registry ℝ} (hpos : ∀ x ∈ db, 0 < x.mass) {e : LEq} {d : InterDoc}
    {w : WEq W} (h : completeEq T db e d = .ok w) (hmod : e.model = "vss_elastic")
    (hk : 0 ≤ d.vssParamInv)
    (hexact : ∀ u, 0 ≤ u → u < 1 → T.pow u d.vssParamInv = u ^ d.vssParamInv)
    {rng : RNG S ℝ} (hrng : rng.IID μ) (ip : Bool) (p q : Part W)
    (hD : √((p.vel - q.vel).y ^ 2 + (p.vel - q.vel).z ^ 2) > 1 / 1000000) :
    let c := fun s => cosBetween (p.vel - q.vel) (relAfter (w.act T rng ip p q s))
    AEMeasurable c μ ∧ μ.map c = unif.map (fun u => 2 * u ^ d.vssParamInv - 1) := by
  intro c
  set v := p.vel - q.vel with hv
  set k := d.vssParamInv with hkdef
  have hv0 : 0 < v.normSq := by
    have : 0 < √(v.y ^ 2 + v.z ^ 2) := lt_trans (by norm_num) hD
    have := Real.sqrt_pos.1 this
    simp only [Vec.normSq]
    nlinarith [sq_nonneg v.x]
  have habs : v.abs ^ 2 = v.normSq := v.abs_sq
  have hc : c =ᵐ[μ] (fun u => 2 * u ^ k - 1) ∘ fun s => (rng.rand s).1 := by
    filter_upwards [hrng.ae_mem] with s hs
    simp only [c, Function.comp_apply, cosBetween]
    rw [rel_vss hpos h hmod, ← hv, ← hkdef, hexact _ hs.1 hs.2]
    have h0 : 0 ≤ (rng.rand s).1 ^ k := Real.rpow_nonneg hs.1 _
    have h1 : (rng.rand s).1 ^ k ≤ 1 := Real.rpow_le_one hs.1 hs.2.le hk
    obtain ⟨e1, e2⟩ := (vssPost_spec v (2 * (rng.rand s).1 ^ k - 1) (2 * π * (rng.rand (rng.rand s).2).1)
      (by nlinarith)).1 hD
    generalize vssPost v (2 * (rng.rand s).1 ^ k - 1) (2 * π * (rng.rand (rng.rand s).2).1) = post at e1 e2
    rw [show post.abs = v.abs by rw [Vec.abs, Vec.abs, e1], ← sq, habs,
      show v.dot post = post.dot v by simp only [Vec.dot]; ring, e2]
    field_simp
  have hm : Measurable fun u : ℝ => 2 * u ^ k - 1 := by fun_prop
  have hr : Measurable fun s => (rng.rand s).1 := hrng.rand_meas.fst
  refine ⟨⟨_, hm.comp hr, hc⟩, ?_⟩
  have hl : μ.map (fun s => (rng.rand s).1) = unif := by
    have : (fun s => (rng.rand s).1) = Prod.fst ∘ rng.rand := rfl
    rw [this, ← Measure.map_map measurable_fst hrng.rand_meas, hrng.rand_law]
    simp
  rw [Measure.map_congr hc, ← Measure.map_map hm hr, hl]

private theorem unif_rpow {r : ℝ} (hr : 0 ≤ r) : Integrable (fun u : ℝ => u ^ r) unif ∧ ∫ u, u ^ r ∂unif = 1 / (r + 1) := by
  have hc : Continuous fun u : ℝ => u ^ r := Real.continuous_rpow_const hr
  have h1 : IntegrableOn (fun u : ℝ => u ^ r) (Ioc 0 1) :=
    (intervalIntegrable_iff_integrableOn_Ioc_of_le zero_le_one).1 (hc.intervalIntegrable 0 1)
  constructor
  · rw [unif]
    exact (integrableOn_Ico_iff_integrableOn_Ioo (by simp)).2 ((integrableOn_Ioc_iff_integrableOn_Ioo (by simp)).1 h1)
  · rw [unif, integral_Ico_eq_integral_Ioc, ← intervalIntegral.integral_of_le zero_le_one,
      integral_rpow (.inl (by linarith))]
    rw [Real.one_rpow, Real.zero_rpow (by linarith)]
    ring

private theorem unif_means {k : ℝ} (hk : 0 ≤ k) :
    ∫ c, (1 - c) ∂(unif.map fun u : ℝ => 2 * u ^ k - 1) = 2 * k / (k + 1) ∧
    ∫ c, (1 - c ^ 2) ∂(unif.map fun u : ℝ => 2 * u ^ k - 1) = 4 * k / ((k + 1) * (2 * k + 1)) := by
  have hm : Measurable fun u : ℝ => 2 * u ^ k - 1 := by fun_prop
  obtain ⟨i1, e1⟩ := unif_rpow hk
  obtain ⟨i2, e2⟩ := unif_rpow (r := 2 * k) (by linarith)
  constructor
  · rw [integral_map hm.aemeasurable (by fun_prop)]
    have : ∀ u : ℝ, 1 - (2 * u ^ k - 1) = 2 - 2 * u ^ k := fun u => by ring
    simp only [this]
    rw [integral_sub (integrable_const _) (i1.const_mul _), integral_const_mul, e1]
    simp
    field_simp
    ring
  · rw [integral_map hm.aemeasurable (by fun_prop)]
    have : (fun u : ℝ => 1 - (2 * u ^ k - 1) ^ 2) =ᵐ[unif] fun u => 4 * u ^ k - 4 * u ^ (2 * k) := by
      have h2 : ∀ᵐ u ∂unif, u ∈ Ico (0 : ℝ) 1 := ae_restrict_mem measurableSet_Ico
      filter_upwards [h2] with u hu
      rw [show 2 * k = k * 2 by ring, Real.rpow_mul hu.1, Real.rpow_two]
      ring
    rw [integral_congr_ae this, integral_sub (i1.const_mul _) (i2.const_mul _), integral_const_mul,
      integral_const_mul, e1, e2]
    field_simp
    ring

/-- **C108**  The diffusion cross section of an elastic interaction is its cross section, its viscosity cross section
is two thirds of it: these are the means of `1 - cos χ` and `1 - cos² χ`, for any pair of particles. -/
theorem C108_elastic_means {T : Tools W} {db : Registry ℝ} (hpos : ∀ x ∈ db, 0 < x.mass) {e : LEq} {d : InterDoc}
    {w : WEq W} (h : completeEq T db e d = .ok w) (hmod : e.model = "elastic")
    {rng : RNG S ℝ} (hrng : rng.IID μ) (ip : Bool) (p q : Part W) (hv : p.vel ≠ q.vel) :
    let c := fun s => cosBetween (p.vel - q.vel) (relAfter (w.act T rng ip p q s))
    ∫ s, (1 - c s) ∂μ = 1 ∧ ∫ s, (1 - c s ^ 2) ∂μ = 2 / 3 := by
  intro c
  obtain ⟨hm, hl⟩ := C108_elastic hpos h hmod hrng ip p q hv
  have h1 := unif_means (k := 1) zero_le_one
  simp only [Real.rpow_one] at h1
  rw [← hl, integral_map hm (by fun_prop), integral_map hm (by fun_prop)] at h1
  exact ⟨h1.1.trans (by norm_num), h1.2.trans (by norm_num)⟩

/-- **C108**  The same for VSS interactions with parameter `α`, off the x axis: the diffusion cross section is
`2 / (α + 1)` and the viscosity cross section `4 α / ((α + 1) (α + 2))` of the total cross section. -/
theorem C108_vss_means {T : Tools W} {db : Registry ℝ} (hpos : ∀ x ∈ db, 0 < x.mass) {e : LEq} {d : InterDoc}
    {w : WEq W} (h : completeEq T db e d = .ok w) (hmod : e.model = "vss_elastic")
    {α : ℝ} (hα : 0 < α) (hk : d.vssParamInv = 1 / α)
    (hexact : ∀ u, 0 ≤ u → u < 1 → T.pow u d.vssParamInv = u ^ d.vssParamInv)
    {rng : RNG S ℝ} (hrng : rng.IID μ) (ip : Bool) (p q : Part W)
    (hD : √((p.vel - q.vel).y ^ 2 + (p.vel - q.vel).z ^ 2) > 1 / 1000000) :
    let c := fun s => cosBetween (p.vel - q.vel) (relAfter (w.act T rng ip p q s))
    ∫ s, (1 - c s) ∂μ = 2 / (α + 1) ∧ ∫ s, (1 - c s ^ 2) ∂μ = 4 * α / ((α + 1) * (α + 2)) := by
  intro c
  have hk0 : 0 ≤ d.vssParamInv := by rw [hk]; positivity
  obtain ⟨hm, hl⟩ := C108_vss hpos h hmod hk0 hexact hrng ip p q hD
  have h1 := unif_means hk0
  rw [← hl, integral_map hm (by fun_prop), integral_map hm (by fun_prop)] at h1
  refine ⟨h1.1.trans ?_, h1.2.trans ?_⟩ <;> rw [hk] <;> field_simp <;> ring

/-! ### Viscosity -/

/-- The viscosity of a gas of particles of mass `m` at temperature `T` with viscosity cross section `σ` at relative
speed `v`, in the first approximation of Chapman and Enskog (Bird, Molecular Gas Dynamics, chapter 3). -/
noncomputable def viscosity (m kT : ℝ) (σ : ℝ → ℝ) : ℝ :=
  5 / 8 * √(π * m * kT) / ((m / (4 * kT)) ^ 4 * ∫ v in Ioi (0 : ℝ), v ^ 7 * σ v * Real.exp (-m * v ^ 2 / (4 * kT)))

/-- The viscosity cross section at relative speed `v` that an equation produces: its cross section at this speed times
the mean of `1 - cos² χ` over collisions of two particles with velocities `v` and 0. -/
noncomputable def viscosityCross (T : Tools W) (rng : RNG S ℝ) (μ : Measure S) (w : WEq W) (x : W) (v : ℝ) : ℝ :=
  okVal (w.cs.sigma v) * ∫ s, (1 - cosBetween ⟨v, 0, 0⟩
    (relAfter (w.act T rng true ⟨⟨0, 0, 0⟩, ⟨v, 0, 0⟩, 0, x⟩ ⟨⟨0, 0, 0⟩, ⟨0, 0, 0⟩, 0, x⟩ s)) ^ 2) ∂μ

/-- **C108**  What `visc_T_law` promises: a gas of one species with elastic interactions and a VHS cross section has
the viscosity `15 √(π m k T_ref) / (2 value (5 - 2 ω) (7 - 2 ω)) (T / T_ref)^ω`, a power of the temperature with the
exponent `ω = visc_T_law`.  The guard raises it by a fraction of at most about
`(ω - 1/2) / (7/2 - ω) tiny / (2 k T)`. -/
theorem C108_viscosity {T : Tools W} {db : Registry ℝ} (hpos : ∀ x ∈ db, 0 < x.mass) {e : LEq} {d : InterDoc}
    {w : WEq W} (h : completeEq T db e d = .ok w) (hmod : e.model = "elastic")
    {a : Props ℝ} (hA : db[e.A.species.toNat]? = some a) (hB : db[e.B.species.toNat]? = some a)
    {kB tiny value Tref ω : ℝ} (hcs : d.cs = .vhs (vhsInfo kB tiny value Tref ω) none)
    (hk : 0 < kB) (ht : 0 ≤ tiny) (hv : 0 < value) (hR : 0 < Tref) (hω : 1 / 2 ≤ ω) (hω' : ω < 5 / 2)
    {rng : RNG S ℝ} (hrng : rng.IID μ) (x : W) {temp : ℝ} (hT : 0 < temp)
    (hsmall : (ω - 1 / 2) / (7 / 2 - ω) * (tiny / (2 * (kB * temp))) < 1) :
    let η := viscosity a.mass (kB * temp) (viscosityCross T rng μ w x)
    let η₀ := 15 * √(π * a.mass * (kB * Tref)) / (2 * value * (5 - 2 * ω) * (7 - 2 * ω)) * (temp / Tref) ^ ω
    η₀ ≤ η ∧ η * (1 - (ω - 1 / 2) / (7 / 2 - ω) * (tiny / (2 * (kB * temp)))) ≤ η₀ := by
  have hm : 0 < a.mass := hpos a (List.mem_of_getElem? hA)
  intro η η₀
  have hμ : a.mass * a.mass / (a.mass + a.mass) = a.mass / 2 := by field_simp; ring
  obtain ⟨y, hy, hys⟩ := load_vhs T.solve T.extrapolate (a.mass / 2) (vhsInfo kB tiny value Tref ω)
  have hσ : w.cs.sigma = fun v => .ok (vhsSigma (vhsInfo kB tiny value Tref ω) (a.mass / 2) 0 v) := by
    obtain ⟨a', b', hA', hB', -, -, hl, -⟩ := completeEq_ok h
    rw [hA] at hA'
    rw [hB] at hB'
    cases hA'
    cases hB'
    rw [hμ, hcs, hy] at hl
    cases hl
    exact hys
  have hcross : ∀ v, 0 < v → viscosityCross T rng μ w x v =
      vhsSigma (vhsInfo kB tiny value Tref ω) (a.mass / 2) 0 v * (2 / 3) := by
    intro v hv0
    have := (C108_elastic_means hpos h hmod hrng true ⟨⟨0, 0, 0⟩, ⟨v, 0, 0⟩, 0, x⟩ ⟨⟨0, 0, 0⟩, ⟨0, 0, 0⟩, 0, x⟩
      (by simp [hv0.ne'])).2
    simp only [Vec.sub_def, sub_zero] at this
    rw [viscosityCross, hσ, okVal, this]
  set s := 2 * (kB * temp) / a.mass with hsdef
  have hs : 0 < s := by positivity
  obtain ⟨hlo, hup⟩ := vhs_moment (n := 7) hk ht hv.le hR (half_pos hm) hs hω hω' (by linarith)
  have hint : ∫ v in Ioi (0 : ℝ), v ^ 7 * viscosityCross T rng μ w x v * Real.exp (-a.mass * v ^ 2 / (4 * (kB * temp))) =
      2 / 3 * ∫ v in Ioi (0 : ℝ), vhsSigma (vhsInfo kB tiny value Tref ω) (a.mass / 2) 0 v *
        (v ^ (7 : ℝ) * Real.exp (-v ^ 2 / (2 * s))) := by
    rw [← integral_const_mul]
    refine setIntegral_congr_fun measurableSet_Ioi fun v hv0 => ?_
    rw [hcross v hv0, show -a.mass * v ^ 2 / (4 * (kB * temp)) = -v ^ 2 / (2 * s) by rw [hsdef]; field_simp; ring,
      show v ^ (7 : ℝ) = v ^ 7 by exact_mod_cast Real.rpow_natCast v 7]
    ring
  set I := ∫ v in Ioi (0 : ℝ), vhsSigma (vhsInfo kB tiny value Tref ω) (a.mass / 2) 0 v *
        (v ^ (7 : ℝ) * Real.exp (-v ^ 2 / (2 * s))) with hI
  set b := ω - 1 / 2 with hb
  have hb0 : 0 ≤ b := by linarith
  have hb2 : 0 < 2 - b := by linarith
  have hb3 : 0 < 3 - b := by linarith
  have hG : 0 < Real.Gamma (5 / 2 - ω) := Real.Gamma_pos_of_pos (by linarith)
  set c := value * (2 * kB * Tref) ^ b / Real.Gamma (5 / 2 - ω) * (a.mass / 2) ^ (-b) with hc
  have hM : c * speedMom s (7 - 2 * b) = value * (Tref / temp) ^ b * ((2 * s) ^ 4 * ((3 - b) * (2 - b)) / 2) := by
    rw [speedMom_eq hs (by linarith), show (7 - 2 * b + 1) / 2 = 4 - b by ring, hc,
      show 5 / 2 - ω = 2 - b by rw [hb]; ring, show Real.Gamma (4 - b) = (3 - b) * ((2 - b) * Real.Gamma (2 - b)) by
        rw [← Real.Gamma_add_one hb2.ne', show 2 - b + 1 = 3 - b by ring, ← Real.Gamma_add_one hb3.ne']
        congr 1; ring,
      Real.rpow_sub (by positivity : 0 < 2 * s) 4 b, show (2 * s) ^ (4 : ℝ) = (2 * s) ^ 4 by
        exact_mod_cast Real.rpow_natCast (2 * s) 4, Real.div_rpow hR.le hT.le, Real.rpow_neg (half_pos hm).le,
      show (2 * s) ^ b = (2 * kB) ^ b * temp ^ b / (a.mass / 2) ^ b by
        rw [← Real.mul_rpow (by positivity) hT.le, ← Real.div_rpow (by positivity) (by positivity), hsdef]
        congr 1; field_simp,
      Real.mul_rpow (by positivity) hR.le]
    have g0 : Real.Gamma (2 - b) ≠ 0 := (Real.Gamma_pos_of_pos hb2).ne'
    have g1 : 0 < (2 * kB) ^ b := by positivity
    have g2 : 0 < temp ^ b := by positivity
    have g3 : 0 < (a.mass / 2) ^ b := by positivity
    generalize (a.mass / 2) ^ b = g at g3 ⊢
    field_simp
  have hstep := speedMom_step hs (q := 5 - 2 * b) (by linarith)
  rw [show 5 - 2 * b + 2 = 7 - 2 * b by ring] at hstep
  rw [show (7 : ℝ) - 2 - 2 * b = 5 - 2 * b by ring] at hlo
  have hm5 : speedMom s (5 - 2 * b) = speedMom s (7 - 2 * b) / (s * (2 * (3 - b))) := by
    rw [hstep, show 5 - 2 * b + 1 = 2 * (3 - b) by ring]
    field_simp
  set δ := b / (7 / 2 - ω) * (tiny / (2 * (kB * temp))) with hδ
  have hδ' : b * (tiny / (a.mass / 2)) * (1 / (s * (2 * (3 - b)))) = δ := by
    rw [hδ, hsdef, show 7 / 2 - ω = 3 - b by rw [hb]; ring]
    field_simp
  set J₀ := value * (Tref / temp) ^ b * ((3 - b) * (2 - b)) / 3 with hJ₀
  have hJ₀p : 0 < J₀ := by positivity
  set J := (a.mass / (4 * (kB * temp))) ^ 4 * (2 / 3 * I) with hJ
  have hsc : (a.mass / (4 * (kB * temp))) ^ 4 * (2 * s) ^ 4 = 1 := by
    rw [← mul_pow, hsdef]
    field_simp
    norm_num
  have hup' : J ≤ J₀ := by
    rw [hM] at hup
    calc J ≤ (a.mass / (4 * (kB * temp))) ^ 4 * (2 / 3 *
          (value * (Tref / temp) ^ b * ((2 * s) ^ 4 * ((3 - b) * (2 - b)) / 2))) := by rw [hJ]; gcongr
      _ = ((a.mass / (4 * (kB * temp))) ^ 4 * (2 * s) ^ 4) * J₀ := by rw [hJ₀]; ring
      _ = J₀ := by rw [hsc, one_mul]
  have hlo' : J₀ * (1 - δ) ≤ J := by
    have e : c * (speedMom s (7 - 2 * b) - b * (tiny / (a.mass / 2)) * speedMom s (5 - 2 * b)) =
        c * speedMom s (7 - 2 * b) * (1 - δ) := by rw [hm5, ← hδ']; ring
    rw [e, hM] at hlo
    calc J₀ * (1 - δ) = ((a.mass / (4 * (kB * temp))) ^ 4 * (2 * s) ^ 4) * J₀ * (1 - δ) := by rw [hsc, one_mul]
      _ = (a.mass / (4 * (kB * temp))) ^ 4 * (2 / 3 *
          (value * (Tref / temp) ^ b * ((2 * s) ^ 4 * ((3 - b) * (2 - b)) / 2) * (1 - δ))) := by rw [hJ₀]; ring
      _ ≤ J := by rw [hJ]; gcongr
  have hJp : 0 < J := lt_of_lt_of_le (mul_pos hJ₀p (by linarith)) hlo'
  set K := 5 / 8 * √(π * a.mass * (kB * temp)) with hK
  have hKp : 0 ≤ K := by positivity
  have e1 : η = K / J := by
    simp only [η, viscosity]
    rw [hint]
  have e2 : η₀ = K / J₀ := by
    simp only [η₀]
    rw [hK, hJ₀, show 5 - 2 * ω = 2 * (2 - b) by rw [hb]; ring, show 7 - 2 * ω = 2 * (3 - b) by rw [hb]; ring,
      show ω = b + 1 / 2 by rw [hb]; ring, Real.rpow_add (by positivity), ← Real.sqrt_eq_rpow,
      Real.div_rpow hT.le hR.le, Real.div_rpow hR.le hT.le, Real.sqrt_div hT.le,
      show π * a.mass * (kB * Tref) = π * a.mass * kB * Tref by ring,
      show π * a.mass * (kB * temp) = π * a.mass * kB * temp by ring,
      Real.sqrt_mul (by positivity) Tref, Real.sqrt_mul (by positivity) temp]
    have : 0 < √Tref := Real.sqrt_pos.2 hR
    have g2 : 0 < temp ^ b := by positivity
    have g3 : 0 < Tref ^ b := by positivity
    field_simp
    ring
  rw [e1, e2]
  refine ⟨by gcongr, ?_⟩
  rw [div_mul_eq_mul_div, div_le_div_iff₀ hJp hJ₀p]
  nlinarith [mul_le_mul_of_nonneg_left hlo' hKp]

/-! ### Examples -/

section TransportExample
open IsotropyExample RateExample

/-- A gas of one species. -/
def oneGas : Registry ℝ := [⟨"Ar", 2, 0⟩]

/-- Argon with argon, elastic with a VHS cross section. -/
def oneEq : LEq := ⟨Term.single 0, Term.single 0, [Term.single 0, Term.single 0], "vhs", "elastic"⟩

/-- Non-trivial case: particles of mass 2 with viscosity exponent 1 and cross section 5 at 300 K, without the guard.
The viscosity at 600 K is twice that at 300 K, which is `√(600 π) / 10`. -/
example (T : Tools Unit) : ∃ w : WEq Unit,
    completeEq T oneGas oneEq { cs := .vhs (vhsInfo 1 0 5 300 1) none } = .ok w ∧
    viscosity 2 300 (viscosityCross T streamRNG iidUnif w ()) = √(π * 2 * 300) / 10 ∧
    viscosity 2 600 (viscosityCross T streamRNG iidUnif w ()) = 2 * (√(π * 2 * 300) / 10) := by
  obtain ⟨y, hy, -⟩ := load_vhs T.solve T.extrapolate (ReducedMass.mk' (2 : ℝ) 2).value (vhsInfo 1 0 5 300 1)
  have hw := completeEq_of T (db := oneGas) (e := oneEq) (d := { cs := .vhs (vhsInfo 1 0 5 300 1) none })
    (a := ⟨"Ar", 2, 0⟩) (b := ⟨"Ar", 2, 0⟩) rfl rfl rfl hy rfl
  have hp : ∀ x ∈ oneGas, 0 < x.mass := by simp [oneGas]
  refine ⟨_, hw, ?_, ?_⟩
  · have h := C108_viscosity hp hw rfl (a := ⟨"Ar", 2, 0⟩) rfl rfl rfl one_pos le_rfl (by norm_num) (by norm_num)
      (by norm_num) (by norm_num) streamRNG_iid () (temp := 300) (by norm_num) (by norm_num)
    norm_num at h
    rw [le_antisymm h.2 h.1, Real.sqrt_mul (by positivity), Real.sqrt_mul (by positivity)]
    ring
  · have h := C108_viscosity hp hw rfl (a := ⟨"Ar", 2, 0⟩) rfl rfl rfl one_pos le_rfl (by norm_num) (by norm_num)
      (by norm_num) (by norm_num) streamRNG_iid () (temp := 600) (by norm_num) (by norm_num)
    norm_num at h
    rw [le_antisymm h.2 h.1, Real.sqrt_mul (by positivity), Real.sqrt_mul (by positivity)]
    ring

/-- Non-trivial case: VSS scattering with parameter 2 of an electron of velocity `(0, 6, 0)` on a resting atom has two
thirds of the diffusion cross section and a viscosity cross section of two thirds. -/
example (T : Tools Unit) (hT : T.pow = fun u k => u ^ k) : ∃ w : WEq Unit,
    completeEq T exReal (scatter "vss_elastic") { cs := .constant 3 none, vssParamInv := 1 / 2 } = .ok w ∧
    let c := fun s => cosBetween (⟨0, 6, 0⟩ - ⟨0, 0, 0⟩)
      (relAfter (w.act T streamRNG true ⟨0, ⟨0, 6, 0⟩, 0, ()⟩ ⟨0, ⟨0, 0, 0⟩, 1, ()⟩ s))
    ∫ s, (1 - c s) ∂iidUnif = 2 / 3 ∧ ∫ s, (1 - c s ^ 2) ∂iidUnif = 2 / 3 := by
  have hw := completeEq_of T (a := ⟨"e", 1, -1⟩) (b := ⟨"H", 2000, 0⟩) (e := scatter "vss_elastic") (db := exReal)
    (d := { cs := .constant 3 none, vssParamInv := 1 / 2 }) rfl rfl rfl (plain_load T) rfl
  refine ⟨_, hw, ?_⟩
  have h := C108_vss_means exReal_pos hw rfl (α := 2) (by norm_num) rfl (fun u _ _ => by rw [hT])
    streamRNG_iid true ⟨0, ⟨0, 6, 0⟩, 0, ()⟩ ⟨0, ⟨0, 0, 0⟩, 1, ()⟩ off_axis
  exact ⟨h.1.trans (by norm_num), h.2.trans (by norm_num)⟩

end TransportExample

end Chimp
