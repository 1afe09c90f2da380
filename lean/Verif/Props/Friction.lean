import Verif.Props.Heat

/-!
# C113: friction between species

Two species that drift through each other: the mean momentum that a particle of one gains in elastic collisions with
the other, for any cross section and any velocities.
-/

namespace Chimp
open MeasureTheory ProbabilityTheory Set Real
open scoped NNReal ENNReal

variable {S W : Type} [MeasurableSpace S] {μ : Measure S} [IsProbabilityMeasure μ]

/-! ### The momentum exchanged by two particles -/

/-- The momentum along `n` that the particle at place `i` of what is left has gained, if it had mass `m` and velocity
`v` before. -/
def pushed (n : Vec) (m : ℝ) (v : Vec) (o : Option (Part W × Part W × List (Part W) × S)) (i : ℕ) : ℝ :=
  n.dot (m • outVel v o i)

omit [MeasurableSpace S] in
private theorem elastic_push {T : Tools W} {db : Registry ℝ} (hpos : ∀ x ∈ db, 0 < x.mass) {e : LEq} {d : InterDoc}
    {w : WEq W} (h : completeEq T db e d = .ok w) (hmod : e.model = "elastic") {a b : Props ℝ}
    (hA : db[e.A.species.toNat]? = some a) (hB : db[e.B.species.toNat]? = some b)
    (rng : RNG S ℝ) (ip : Bool) (p q : Part W) (n : Vec) (s : S) :
    pushed n a.mass p.vel (w.act T rng ip p q s) 0 = a.mass * b.mass / (a.mass + b.mass) *
      (n.dot (isoVec rng (p.vel - q.vel).abs s).1 - n.dot (p.vel - q.vel)) ∧
    pushed n b.mass q.vel (w.act T rng ip p q s) 1 = -(a.mass * b.mass / (a.mass + b.mass) *
      (n.dot (isoVec rng (p.vel - q.vel).abs s).1 - n.dot (p.vel - q.vel))) := by
  have ha := hpos a (List.mem_of_getElem? hA)
  have hb := hpos b (List.mem_of_getElem? hB)
  have hM : a.mass + b.mass ≠ 0 := by positivity
  unfold pushed
  rw [(elastic_velocities hpos h hmod hA hB rng ip p q s p.vel).1,
    (elastic_velocities hpos h hmod hA hB rng ip p q s q.vel).2]
  generalize (isoVec rng (p.vel - q.vel).abs s).1 = u
  constructor <;>
  · simp only [Vec.dot, weightedMean, Vec.add_def, Vec.sub_def, Vec.smul_def]
    field_simp
    ring

/-- **C113**  Two particles with given velocities, elastic interaction: along any direction the first gains on average
the momentum `-μ g`, where `g` is the relative velocity and `μ` the reduced mass, that is all of its momentum relative to
the centre of mass is lost; the second gains the opposite. -/
theorem C113_push {T : Tools W} {db : Registry ℝ} (hpos : ∀ x ∈ db, 0 < x.mass) {e : LEq} {d : InterDoc}
    {w : WEq W} (h : completeEq T db e d = .ok w) (hmod : e.model = "elastic") {a b : Props ℝ}
    (hA : db[e.A.species.toNat]? = some a) (hB : db[e.B.species.toNat]? = some b)
    {rng : RNG S ℝ} (hrng : rng.IID μ) (ip : Bool) (p q : Part W) (n : Vec) :
    ∫ s, pushed n a.mass p.vel (w.act T rng ip p q s) 0 ∂μ =
      -(a.mass * b.mass / (a.mass + b.mass) * n.dot (p.vel - q.vel)) ∧
    ∫ s, pushed n b.mass q.vel (w.act T rng ip p q s) 1 ∂μ =
      a.mass * b.mass / (a.mass + b.mass) * n.dot (p.vel - q.vel) := by
  obtain ⟨hi, he⟩ := iso_mean hrng (p.vel - q.vel).abs n
  have h1 : ∫ s, a.mass * b.mass / (a.mass + b.mass) *
      (n.dot (isoVec rng (p.vel - q.vel).abs s).1 - n.dot (p.vel - q.vel)) ∂μ =
      -(a.mass * b.mass / (a.mass + b.mass) * n.dot (p.vel - q.vel)) := by
    rw [integral_const_mul, integral_sub hi (integrable_const _), he]
    simp
  simp only [(elastic_push hpos h hmod hA hB rng ip p q n _).1, (elastic_push hpos h hmod hA hB rng ip p q n _).2]
  rw [integral_neg, h1, neg_neg]
  exact ⟨rfl, rfl⟩

omit [MeasurableSpace S] in
private theorem vss_two {T : Tools W} {db : Registry ℝ} {e : LEq} {d : InterDoc} {w : WEq W}
    (h : completeEq T db e d = .ok w) (hmod : e.model = "vss_elastic") (rng : RNG S ℝ) (ip : Bool) (p q : Part W) (s : S) :
    ∃ r p' q', w.act T rng ip p q s = some r ∧ outgoing r = [p', q'] := by
  obtain ⟨a', b', -, -, -, -, -, hm, -, -⟩ := completeEq_ok h
  rcases loadModel_ok hm with ⟨h1, -⟩ | ⟨-, hw⟩ | ⟨h1, -⟩
  · rw [hmod] at h1; simp at h1
  · have hact : w.act T rng ip p q s = some (vssAct T.pow d.vssParamInv rng w.mu ip p q s) := by
      unfold WEq.act; rw [hw]
    cases ip
    · exact ⟨_, _, _, hact, rfl⟩
    · exact ⟨_, _, _, hact, rfl⟩
  · rw [hmod] at h1; simp at h1

/-- **C113**  The same for the VSS model, off the x axis: the momentum exchanged is `2 k / (1 + k)` times that of an
elastic interaction, where `k = vss_param_inv`. -/
theorem C113_push_vss {T : Tools W} {db : Registry ℝ} (hpos : ∀ x ∈ db, 0 < x.mass) {e : LEq} {d : InterDoc}
    {w : WEq W} (h : completeEq T db e d = .ok w) (hmod : e.model = "vss_elastic")
    (hk : 0 ≤ d.vssParamInv) (hpow : Measurable fun u => T.pow u d.vssParamInv)
    (hexact : ∀ u, 0 ≤ u → u < 1 → T.pow u d.vssParamInv = u ^ d.vssParamInv)
    {a b : Props ℝ} (hA : db[e.A.species.toNat]? = some a) (hB : db[e.B.species.toNat]? = some b)
    {rng : RNG S ℝ} (hrng : rng.IID μ) (ip : Bool) (p q : Part W)
    (hD : √((p.vel - q.vel).y ^ 2 + (p.vel - q.vel).z ^ 2) > 1 / 1000000) (n : Vec) :
    let k := d.vssParamInv
    ∫ s, pushed n a.mass p.vel (w.act T rng ip p q s) 0 ∂μ =
      -(2 * k / (1 + k) * (a.mass * b.mass / (a.mass + b.mass)) * n.dot (p.vel - q.vel)) ∧
    ∫ s, pushed n b.mass q.vel (w.act T rng ip p q s) 1 ∂μ =
      2 * k / (1 + k) * (a.mass * b.mass / (a.mass + b.mass)) * n.dot (p.vel - q.vel) := by
  intro k
  have ha := hpos a (List.mem_of_getElem? hA)
  have hb := hpos b (List.mem_of_getElem? hB)
  have hM : a.mass + b.mass ≠ 0 := by positivity
  have hk1 : 1 + k ≠ 0 := by positivity
  have hm := fun c hc => C78_mean hpos h hmod hk hpow hexact hA hB hrng ip p q hD c hc
  set cm := weightedMean a.mass b.mass p.vel q.vel with hcm
  obtain ⟨⟨ix0, ex0⟩, ix1, ex1⟩ := hm Vec.x (.inl rfl)
  obtain ⟨⟨iy0, ey0⟩, iy1, ey1⟩ := hm Vec.y (.inr (.inl rfl))
  obtain ⟨⟨iz0, ez0⟩, iz1, ez1⟩ := hm Vec.z (.inr (.inr rfl))
  have key : ∀ (i : ℕ) (m : ℝ) (v : Vec), i = 0 ∨ i = 1 → ∀ s,
      pushed n m v (w.act T rng ip p q s) i = m * (n.x * (outVel cm (w.act T rng ip p q s) i).x +
        n.y * (outVel cm (w.act T rng ip p q s) i).y + n.z * (outVel cm (w.act T rng ip p q s) i).z) +
        m * n.dot (cm - v) := by
    intro i m v hi s
    have : outVel v (w.act T rng ip p q s) i = outVel cm (w.act T rng ip p q s) i + (cm - v) := by
      obtain ⟨r, p', q', hr, ho⟩ := vss_two h hmod rng ip p q s
      rcases hi with rfl | rfl <;>
      · simp only [outVel, hr, Option.bind_some, ho, List.getElem?_cons_zero, List.getElem?_cons_succ]
        ext <;> simp only [Vec.add_def, Vec.sub_def] <;> ring
    rw [pushed, this]
    simp only [Vec.dot, Vec.add_def, Vec.sub_def, Vec.smul_def]
    ring
  have comb : ∀ (i : ℕ) (m : ℝ) (v : Vec), i = 0 ∨ i = 1 →
      Integrable (fun s => (outVel cm (w.act T rng ip p q s) i).x) μ →
      Integrable (fun s => (outVel cm (w.act T rng ip p q s) i).y) μ →
      Integrable (fun s => (outVel cm (w.act T rng ip p q s) i).z) μ →
      ∫ s, pushed n m v (w.act T rng ip p q s) i ∂μ = m * (n.x * ∫ s, (outVel cm (w.act T rng ip p q s) i).x ∂μ +
        n.y * ∫ s, (outVel cm (w.act T rng ip p q s) i).y ∂μ + n.z * ∫ s, (outVel cm (w.act T rng ip p q s) i).z ∂μ) +
        m * n.dot (cm - v) := by
    intro i m v hi jx jy jz
    simp only [key i m v hi]
    have j1 := jx.const_mul n.x
    have j2 := jy.const_mul n.y
    have j3 := jz.const_mul n.z
    have j12 : Integrable (fun s => n.x * (outVel cm (w.act T rng ip p q s) i).x +
      n.y * (outVel cm (w.act T rng ip p q s) i).y) μ := j1.add j2
    have j : Integrable (fun s => n.x * (outVel cm (w.act T rng ip p q s) i).x +
      n.y * (outVel cm (w.act T rng ip p q s) i).y + n.z * (outVel cm (w.act T rng ip p q s) i).z) μ := j12.add j3
    rw [integral_add (j.const_mul m) (integrable_const _), integral_const_mul, integral_add j12 j3, integral_add j1 j2,
      integral_const_mul, integral_const_mul, integral_const_mul]
    simp
  rw [comb 0 _ _ (.inl rfl) ix0 iy0 iz0, comb 1 _ _ (.inr rfl) ix1 iy1 iz1, ex0, ey0, ez0, ex1, ey1, ez1, hcm]
  change _ = -(2 * k / (1 + k) * _ * _) ∧ _
  rw [show d.vssParamInv = k from rfl]
  constructor <;>
  · simp only [Vec.dot, weightedMean, Vec.add_def, Vec.sub_def, Vec.smul_def]
    field_simp
    ring

/-! ### Two species -/

private theorem dot_bound (n v : Vec) : |n.dot v| ≤ n.abs * v.abs := by
  have h1 : (n.dot v) ^ 2 ≤ (n.abs * v.abs) ^ 2 := by
    rw [mul_pow, Vec.abs_sq, Vec.abs_sq]
    simp only [Vec.dot, Vec.normSq]
    nlinarith [sq_nonneg (n.x * v.y - n.y * v.x), sq_nonneg (n.x * v.z - n.z * v.x),
      sq_nonneg (n.y * v.z - n.z * v.y)]
  exact abs_le_of_sq_le_sq h1 (mul_nonneg (Real.sqrt_nonneg _) (Real.sqrt_nonneg _))

private theorem measurable_dot (n : Vec) {α : Type} [MeasurableSpace α] {g : α → Vec} (hg : Measurable g) :
    Measurable fun x => n.dot (g x) := by
  simp only [Vec.dot]
  exact (((Vec.measurable_x.comp hg).const_mul _).add ((Vec.measurable_y.comp hg).const_mul _)).add
    ((Vec.measurable_z.comp hg).const_mul _)

/-- **C113**  Pairs of particles with any distribution of velocities, elastic interaction with any cross section: the
momentum that particles of the first species gain in collisions, weighted with the rate of collisions, is `-μ` times the
mean of `σ(v) v g`; particles of the second gain the opposite. -/
theorem C113_drag {T : Tools W} {db : Registry ℝ} (hpos : ∀ x ∈ db, 0 < x.mass) {e : LEq} {d : InterDoc}
    {w : WEq W} (h : completeEq T db e d = .ok w) (hmod : e.model = "elastic") {a b : Props ℝ}
    (hA : db[e.A.species.toNat]? = some a) (hB : db[e.B.species.toNat]? = some b)
    {rng : RNG S ℝ} (hrng : rng.IID μ) (ip : Bool) (p q : Part W) (n : Vec)
    (ν : Measure (Vec × Vec)) [SFinite ν] (hint : Integrable (fun x => pairRate w x * (x.1 - x.2).abs) ν) :
    let act := fun x : (Vec × Vec) × S => w.act T rng ip { p with vel := x.1.1 } { q with vel := x.1.2 } x.2
    let F := a.mass * b.mass / (a.mass + b.mass) * ∫ x, pairRate w x * n.dot (x.1 - x.2) ∂ν
    ∫ x, pairRate w x.1 * pushed n a.mass x.1.1 (act x) 0 ∂ν.prod μ = -F ∧
    ∫ x, pairRate w x.1 * pushed n b.mass x.1.2 (act x) 1 ∂ν.prod μ = F := by
  intro act F
  have hR := measurable_pairRate h
  have mg : Measurable fun x : Vec × Vec => x.1 - x.2 := measurable_sub_vec measurable_fst measurable_snd
  have mi : Measurable fun x : (Vec × Vec) × S => (isoVec rng (x.1.1 - x.1.2).abs x.2).1 :=
    ((measurable_isoVec hrng).comp ((measurable_abs_vec.comp (mg.comp measurable_fst)).prodMk measurable_snd)).fst
  have I1 : Integrable (fun x : (Vec × Vec) × S => pairRate w x.1 * n.dot (isoVec rng (x.1.1 - x.1.2).abs x.2).1)
      (ν.prod μ) := by
    refine Integrable.mono ((hint.comp_fst μ).const_mul n.abs)
      ((hR.comp measurable_fst).mul (measurable_dot n mi)).aestronglyMeasurable ?_
    have hs : ∀ᵐ x ∂ν.prod μ, (rng.rand x.2).1 ∈ Ico (0 : ℝ) 1 := Measure.quasiMeasurePreserving_snd.ae hrng.ae_mem
    filter_upwards [hs] with x hx
    have hn := isoVec_normSq rng (x.1.1 - x.1.2).abs x.2 hx
    have habs : (isoVec rng (x.1.1 - x.1.2).abs x.2).1.abs = (x.1.1 - x.1.2).abs := by
      rw [Vec.abs, hn, Real.sqrt_sq (show 0 ≤ (x.1.1 - x.1.2).abs from Real.sqrt_nonneg _)]
    have hb := dot_bound n (isoVec rng (x.1.1 - x.1.2).abs x.2).1
    rw [habs] at hb
    rw [norm_mul, norm_mul, norm_mul, ← mul_assoc, mul_comm ‖n.abs‖, mul_assoc]
    gcongr
    rw [← norm_mul]
    exact hb.trans (le_abs_self _)
  have I2 : Integrable (fun x : Vec × Vec => pairRate w x * n.dot (x.1 - x.2)) ν := by
    refine Integrable.mono (hint.const_mul n.abs) (hR.mul (measurable_dot n mg)).aestronglyMeasurable
      (Filter.Eventually.of_forall fun x => ?_)
    rw [norm_mul, norm_mul, norm_mul, ← mul_assoc, mul_comm ‖n.abs‖, mul_assoc]
    gcongr
    rw [← norm_mul]
    exact (dot_bound n _).trans (le_abs_self _)
  have z1 : ∫ x, pairRate w x.1 * n.dot (isoVec rng (x.1.1 - x.1.2).abs x.2).1 ∂ν.prod μ = 0 := by
    rw [integral_prod _ I1]
    simp only [integral_const_mul, (iso_mean hrng _ n).2, mul_zero, integral_zero]
  have z2 : ∫ x : (Vec × Vec) × S, pairRate w x.1 * n.dot (x.1.1 - x.1.2) ∂ν.prod μ =
      ∫ x, pairRate w x * n.dot (x.1 - x.2) ∂ν := by
    rw [integral_fun_fst (fun x : Vec × Vec => pairRate w x * n.dot (x.1 - x.2))]
    simp
  have hp := fun x : (Vec × Vec) × S =>
    elastic_push hpos h hmod hA hB rng ip { p with vel := x.1.1 } { q with vel := x.1.2 } n x.2
  have e0 : ∀ x, pairRate w x.1 * pushed n a.mass x.1.1 (act x) 0 = a.mass * b.mass / (a.mass + b.mass) *
      (pairRate w x.1 * n.dot (isoVec rng (x.1.1 - x.1.2).abs x.2).1 - pairRate w x.1 * n.dot (x.1.1 - x.1.2)) := by
    intro x
    have := (hp x).1
    simp only [act]
    rw [this]
    ring
  have e1 : ∀ x, pairRate w x.1 * pushed n b.mass x.1.2 (act x) 1 = -(a.mass * b.mass / (a.mass + b.mass) *
      (pairRate w x.1 * n.dot (isoVec rng (x.1.1 - x.1.2).abs x.2).1 - pairRate w x.1 * n.dot (x.1.1 - x.1.2))) := by
    intro x
    have := (hp x).2
    simp only [act]
    rw [this]
    ring
  simp only [e0, e1]
  rw [integral_neg, integral_const_mul, integral_sub I1 (I2.comp_fst μ), z1, z2]
  constructor <;> simp [F]

/-- **C113**  With an inverse cross section `k / v` the friction is proportional to the difference of the mean velocities,
whatever the distributions: `-k μ (u₁ - u₂)`. -/
theorem C113_inverse {T : Tools W} {db : Registry ℝ} (hpos : ∀ x ∈ db, 0 < x.mass) {e : LEq} {d : InterDoc}
    {w : WEq W} (h : completeEq T db e d = .ok w) (hmod : e.model = "elastic") {a b : Props ℝ}
    (hA : db[e.A.species.toNat]? = some a) (hB : db[e.B.species.toNat]? = some b) {k : ℝ} (hcs : d.cs = .inverse k none)
    {rng : RNG S ℝ} (hrng : rng.IID μ) (ip : Bool) (p q : Part W) (n : Vec)
    (P Q : Measure Vec) [IsProbabilityMeasure P] [IsProbabilityMeasure Q]
    (hP : Integrable (fun v => v.abs) P) (hQ : Integrable (fun v => v.abs) Q) :
    ∫ x, pairRate w x.1 * pushed n a.mass x.1.1
        (w.act T rng ip { p with vel := x.1.1 } { q with vel := x.1.2 } x.2) 0 ∂(P.prod Q).prod μ =
      -(k * (a.mass * b.mass / (a.mass + b.mass))) * (∫ v, n.dot v ∂P - ∫ v, n.dot v ∂Q) := by
  have hr : ∀ x : Vec × Vec, pairRate w x = if (x.1 - x.2).abs = 0 then 0 else k := fun x =>
    inverse_rate h hcs (show 0 ≤ (x.1 - x.2).abs from Real.sqrt_nonneg _)
  have hR := measurable_pairRate h
  have mg : Measurable fun x : Vec × Vec => x.1 - x.2 := measurable_sub_vec measurable_fst measurable_snd
  have tri : ∀ x : Vec × Vec, (x.1 - x.2).abs ≤ x.1.abs + x.2.abs := by
    intro x
    have h1 := dot_bound x.1 x.2
    have h2 := neg_le_of_abs_le h1
    refine abs_le_of_sq_le_sq' (a := (x.1 - x.2).abs) (b := x.1.abs + x.2.abs) ?_ (add_nonneg (Real.sqrt_nonneg _) (Real.sqrt_nonneg _)) |>.2
    rw [add_sq, Vec.abs_sq, Vec.abs_sq, Vec.abs_sq]
    have h3 : (x.1 - x.2).normSq = x.1.normSq + x.2.normSq - 2 * x.1.dot x.2 := by
      simp only [Vec.normSq, Vec.dot, Vec.sub_def]; ring
    rw [h3]
    nlinarith
  have hint : Integrable (fun x : Vec × Vec => pairRate w x * (x.1 - x.2).abs) (P.prod Q) := by
    refine Integrable.mono (((hP.comp_fst Q).add (hQ.comp_snd P)).const_mul k)
      (hR.mul (measurable_abs_vec.comp mg)).aestronglyMeasurable (Filter.Eventually.of_forall fun x => ?_)
    rw [norm_mul, norm_mul]
    have hk : ‖pairRate w x‖ ≤ ‖k‖ := by
      rw [hr]; split_ifs <;> simp
    refine mul_le_mul hk ?_ (norm_nonneg _) (norm_nonneg _)
    simp only [Pi.add_apply]
    rw [Real.norm_of_nonneg (show 0 ≤ (x.1 - x.2).abs from Real.sqrt_nonneg _)]
    exact (tri x).trans (le_abs_self _)
  refine (C113_drag hpos h hmod hA hB hrng ip p q n (P.prod Q) hint).1.trans ?_
  have hd : ∀ {R : Measure Vec}, Integrable (fun v => v.abs) R → Integrable (fun v => n.dot v) R := by
    intro R hR
    refine Integrable.mono (hR.const_mul n.abs) (measurable_dot n measurable_id).aestronglyMeasurable
      (Filter.Eventually.of_forall fun x => ?_)
    exact (dot_bound n x).trans (le_abs_self _)
  have e1 : ∀ x : Vec × Vec, pairRate w x * n.dot (x.1 - x.2) = k * (n.dot x.1 - n.dot x.2) := by
    intro x
    have hs : n.dot (x.1 - x.2) = n.dot x.1 - n.dot x.2 := by simp only [Vec.dot, Vec.sub_def]; ring
    rw [hr, ← hs]
    split_ifs with h0
    · have := dot_bound n (x.1 - x.2)
      rw [h0, mul_zero] at this
      rw [abs_nonpos_iff.1 this]; ring
    · rfl
  simp only [e1]
  rw [integral_const_mul, integral_sub ((hd hP).comp_fst Q) ((hd hQ).comp_snd P), integral_fun_fst (fun v => n.dot v),
    integral_fun_snd (fun v => n.dot v)]
  simp
  ring

/-! ### Friction opposes the drift -/

/-- The exponent of the density of thermal velocities about `d` relative to those about `f`. -/
private noncomputable def tilt (kT m : ℝ) (f d v : Vec) : ℝ :=
  m / kT * (v - f).dot (d - f) - m * (d - f).normSq / (2 * kT)

private theorem measurable_tilt (kT m : ℝ) (f d : Vec) : Measurable (tilt kT m f d) := by
  have h := measurable_dot (d - f) (measurable_sub_vec measurable_id (measurable_const (a := f)))
  have e : ∀ v : Vec, (v - f).dot (d - f) = (d - f).dot (id v - f) := fun v => by simp only [Vec.dot, id]; ring
  unfold tilt
  simp only [e]
  exact (h.const_mul _).sub_const _

private theorem thermal_tilt {kT m : ℝ} (hT : 0 < kT) (hm : 0 < m) (f d : Vec) :
    thermal kT d m = (thermal kT f m).withDensity fun v => ENNReal.ofReal (exp (tilt kT m f d v)) := by
  have ht : Measurable fun v => ENNReal.ofReal (exp (tilt kT m f d v)) :=
    (measurable_exp.comp (measurable_tilt kT m f d)).ennreal_ofReal
  refine Measure.ext_of_lintegral _ fun g hg => ?_
  rw [lintegral_withDensity_eq_lintegral_mul _ ht hg, lintegral_thermal hT hm d g hg,
    lintegral_thermal hT hm f _ (ht.mul hg)]
  refine lintegral_congr fun p => ?_
  simp only [Pi.mul_apply]
  rw [← mul_assoc]
  congr 1
  unfold maxwell
  rw [← ENNReal.ofReal_mul (by positivity), mul_assoc (_ ^ 3), ← exp_add]
  congr 3
  simp only [tilt, dist3, Vec.triple, Vec.ofTriple, Vec.dot, Vec.normSq, Vec.sub_def]
  field_simp
  ring

/-- All velocities turned round in the frame that moves with `f`. -/
private def turned (f v : Vec) : Vec := ⟨2 * f.x - v.x, 2 * f.y - v.y, 2 * f.z - v.z⟩

private theorem turned_preserving (kT m : ℝ) (f : Vec) :
    MeasurePreserving (turned f) (thermal kT f m) (thermal kT f m) := by
  have hm : Measurable (turned f) := by
    have : Measurable fun v : Vec => Vec.ofTriple (2 * f.x - v.x, 2 * f.y - v.y, 2 * f.z - v.z) :=
      Vec.measurable_ofTriple.comp ((Vec.measurable_x.const_sub _).prodMk
        ((Vec.measurable_y.const_sub _).prodMk (Vec.measurable_z.const_sub _)))
    exact this
  refine ⟨hm, ?_⟩
  have hg : ∀ (c : ℝ) (v : ℝ≥0), (gaussianReal c v).map (fun x => 2 * c - x) = gaussianReal c v := fun c v => by
    rw [gaussianReal_map_const_sub]; congr 1; ring
  have mg : ∀ c : ℝ, Measurable fun x : ℝ => 2 * c - x := fun c => measurable_id.const_sub _
  unfold thermal
  rw [Measure.map_map hm Vec.measurable_ofTriple]
  have e : turned f ∘ Vec.ofTriple = Vec.ofTriple ∘
      Prod.map (fun x => 2 * f.x - x) (Prod.map (fun x => 2 * f.y - x) (fun x => 2 * f.z - x)) := by
    funext t; rfl
  rw [e, ← Measure.map_map Vec.measurable_ofTriple ((mg _).prodMap ((mg _).prodMap (mg _))),
    ← Measure.map_prod_map _ _ (mg _) ((mg _).prodMap (mg _)), ← Measure.map_prod_map _ _ (mg _) (mg _), hg, hg, hg]

private theorem pair_tilt {kT₁ kT₂ m₁ m₂ : ℝ} (h₁ : 0 < kT₁) (h₂ : 0 < kT₂) (hm₁ : 0 < m₁) (hm₂ : 0 < m₂) (u₁ u₂ : Vec) :
    ∃ f : Vec, ∃ c : ℝ, (thermal kT₁ u₁ m₁).prod (thermal kT₂ u₂ m₂) =
      ((thermal kT₁ f m₁).prod (thermal kT₂ f m₂)).withDensity fun x =>
        ENNReal.ofReal (exp ((u₁ - u₂).dot (x.1 - x.2) / (kT₁ / m₁ + kT₂ / m₂) - c)) := by
  have hs : 0 < kT₁ / m₁ + kT₂ / m₂ := by positivity
  set s := kT₁ / m₁ + kT₂ / m₂ with hsd
  refine ⟨u₁ - (kT₁ / m₁ / s) • (u₁ - u₂), (u₁ - u₂).normSq / (2 * s), ?_⟩
  set f := u₁ - (kT₁ / m₁ / s) • (u₁ - u₂) with hf
  have e1 : u₁ - f = (kT₁ / m₁ / s) • (u₁ - u₂) := by
    rw [hf]; ext <;> simp only [Vec.sub_def, Vec.smul_def] <;> ring
  have e2 : u₂ - f = (-(kT₂ / m₂ / s)) • (u₁ - u₂) := by
    have : kT₂ / m₂ / s = 1 - kT₁ / m₁ / s := by rw [hsd]; field_simp; ring
    rw [hf, this]; ext <;> simp only [Vec.sub_def, Vec.smul_def] <;> ring
  have ht : ∀ kT m d, Measurable fun v => ENNReal.ofReal (exp (tilt kT m f d v)) := fun kT m d =>
    (measurable_exp.comp (measurable_tilt kT m f d)).ennreal_ofReal
  rw [thermal_tilt h₁ hm₁ f u₁, thermal_tilt h₂ hm₂ f u₂, prod_withDensity (ht _ _ _) (ht _ _ _)]
  congr 1
  funext x
  rw [← ENNReal.ofReal_mul (by positivity), ← exp_add]
  congr 2
  rw [tilt, tilt, e1, e2]
  generalize u₁ - u₂ = U
  have hs1 : s ≠ 0 := hs.ne'
  have h3 : m₁ * kT₂ + m₂ * kT₁ ≠ 0 := by positivity
  have q1 : m₁ / kT₁ * (x.1 - f).dot ((kT₁ / m₁ / s) • U) = (x.1 - f).dot U / s := by
    simp only [Vec.dot, Vec.smul_def]; field_simp
  have q2 : m₂ / kT₂ * (x.2 - f).dot ((-(kT₂ / m₂ / s)) • U) = -((x.2 - f).dot U / s) := by
    simp only [Vec.dot, Vec.smul_def]; field_simp; ring
  have q3 : m₁ * ((kT₁ / m₁ / s) • U).normSq / (2 * kT₁) = kT₁ / m₁ * (U.normSq / (2 * s ^ 2)) := by
    simp only [Vec.normSq, Vec.smul_def]; field_simp
  have q4 : m₂ * ((-(kT₂ / m₂ / s)) • U).normSq / (2 * kT₂) = kT₂ / m₂ * (U.normSq / (2 * s ^ 2)) := by
    simp only [Vec.normSq, Vec.smul_def]; field_simp
  rw [q1, q2, q3, q4]
  have q5 : kT₁ / m₁ * (U.normSq / (2 * s ^ 2)) + kT₂ / m₂ * (U.normSq / (2 * s ^ 2)) = U.normSq / (2 * s) := by
    rw [← add_mul, ← hsd]; field_simp
  rw [← q5]
  simp only [Vec.dot, Vec.sub_def]
  ring

/-- A weight that is not negative and does not change if all velocities are turned round: the weighted mean of the
relative velocity does not point against the drift. -/
private theorem drift_sign {kT₁ kT₂ m₁ m₂ : ℝ} (h₁ : 0 < kT₁) (h₂ : 0 < kT₂) (hm₁ : 0 < m₁) (hm₂ : 0 < m₂) (u₁ u₂ : Vec)
    {R : Vec × Vec → ℝ} (hR : Measurable R) (hR0 : ∀ x, 0 ≤ R x)
    (hsym : ∀ f x, R (turned f x.1, turned f x.2) = R x)
    (hint : Integrable (fun x => R x * (u₁ - u₂).dot (x.1 - x.2)) ((thermal kT₁ u₁ m₁).prod (thermal kT₂ u₂ m₂))) :
    0 ≤ ∫ x, R x * (u₁ - u₂).dot (x.1 - x.2) ∂(thermal kT₁ u₁ m₁).prod (thermal kT₂ u₂ m₂) ∧
    (∫ x, R x * (u₁ - u₂).dot (x.1 - x.2) ∂(thermal kT₁ u₁ m₁).prod (thermal kT₂ u₂ m₂) = 0 →
      ∀ᵐ x ∂(thermal kT₁ u₁ m₁).prod (thermal kT₂ u₂ m₂), R x * (u₁ - u₂).dot (x.1 - x.2) = 0) := by
  obtain ⟨f, c, hP⟩ := pair_tilt h₁ h₂ hm₁ hm₂ u₁ u₂
  have hs : 0 < kT₁ / m₁ + kT₂ / m₂ := by positivity
  set s := kT₁ / m₁ + kT₂ / m₂
  set U := u₁ - u₂
  set B := (thermal kT₁ f m₁).prod (thermal kT₂ f m₂) with hB
  set ρ : Vec × Vec → ℝ := fun x => exp (U.dot (x.1 - x.2) / s - c) with hρ
  have mU : Measurable fun x : Vec × Vec => U.dot (x.1 - x.2) :=
    measurable_dot U (measurable_sub_vec measurable_fst measurable_snd)
  have mρ : Measurable ρ := measurable_exp.comp ((mU.div_const _).sub_const _)
  have mN : MeasurePreserving (Prod.map (turned f) (turned f)) B B :=
    (turned_preserving kT₁ m₁ f).prod (turned_preserving kT₂ m₂ f)
  set F : Vec × Vec → ℝ := fun x => R x * U.dot (x.1 - x.2) with hF
  have mF : Measurable F := hR.mul mU
  have hρR : ∀ x, (ENNReal.ofReal (ρ x)).toReal = ρ x := fun x => ENNReal.toReal_ofReal (exp_pos _).le
  rw [hP] at hint ⊢
  have hI : Integrable (fun x => ρ x * F x) B := by
    have := (integrable_withDensity_iff_integrable_smul' (μ := B) mρ.ennreal_ofReal
      (Filter.Eventually.of_forall fun x => ENNReal.ofReal_lt_top)).1 hint
    simpa only [hρR, smul_eq_mul] using this
  have hJ : ∫ x, F x ∂B.withDensity (fun x => ENNReal.ofReal (ρ x)) = ∫ x, ρ x * F x ∂B := by
    rw [integral_withDensity_eq_integral_toReal_smul mρ.ennreal_ofReal
      (Filter.Eventually.of_forall fun x => ENNReal.ofReal_lt_top)]
    simp only [hρR, smul_eq_mul]
  have hodd : ∀ x, F (Prod.map (turned f) (turned f) x) = -F x := by
    intro x
    simp only [hF, Prod.map]
    rw [hsym f x]
    simp only [turned, Vec.dot, Vec.sub_def]
    ring
  have hρN : ∀ x, ρ (Prod.map (turned f) (turned f) x) = exp (-(U.dot (x.1 - x.2) / s) - c) := by
    intro x
    simp only [hρ]
    congr 2
    simp only [Prod.map, turned, Vec.dot, Vec.sub_def]
    ring
  have hI' : Integrable (fun x => exp (-(U.dot (x.1 - x.2) / s) - c) * -F x) B := by
    have := mN.integrable_comp_of_integrable hI
    simpa only [Function.comp_def, hodd, hρN] using this
  have hJ' : ∫ x, ρ x * F x ∂B = ∫ x, exp (-(U.dot (x.1 - x.2) / s) - c) * -F x ∂B := by
    have := integral_map (μ := B) mN.measurable.aemeasurable (f := fun x => ρ x * F x)
      (mρ.mul mF).aestronglyMeasurable
    rw [mN.map_eq] at this
    simpa only [hodd, hρN] using this
  have h2 : 2 * ∫ x, ρ x * F x ∂B = ∫ x, (ρ x * F x + exp (-(U.dot (x.1 - x.2) / s) - c) * -F x) ∂B := by
    rw [integral_add hI hI', ← hJ']; ring
  have hpt : ∀ x, 0 ≤ ρ x * F x + exp (-(U.dot (x.1 - x.2) / s) - c) * -F x ∧
      (ρ x * F x + exp (-(U.dot (x.1 - x.2) / s) - c) * -F x = 0 → F x = 0) := by
    intro x
    have e : ρ x * F x + exp (-(U.dot (x.1 - x.2) / s) - c) * -F x =
        R x * (U.dot (x.1 - x.2) * (ρ x - exp (-(U.dot (x.1 - x.2) / s) - c))) := by
      simp only [hF]; ring
    rw [e]
    simp only [hF, hρ]
    generalize U.dot (x.1 - x.2) = t
    have hq : 0 ≤ t * (exp (t / s - c) - exp (-(t / s) - c)) ∧
        (t * (exp (t / s - c) - exp (-(t / s) - c)) = 0 → t = 0) := by
      rcases lt_trichotomy t 0 with ht | ht | ht
      · have : exp (t / s - c) < exp (-(t / s) - c) := by
          rw [exp_lt_exp]
          have : t / s < 0 := div_neg_of_neg_of_pos ht hs
          linarith
        have hp : 0 < t * (exp (t / s - c) - exp (-(t / s) - c)) := mul_pos_of_neg_of_neg ht (by linarith)
        exact ⟨hp.le, fun h => absurd h hp.ne'⟩
      · subst ht; simp
      · have : exp (-(t / s) - c) < exp (t / s - c) := by
          rw [exp_lt_exp]
          have : 0 < t / s := div_pos ht hs
          linarith
        have hp : 0 < t * (exp (t / s - c) - exp (-(t / s) - c)) := mul_pos ht (by linarith)
        exact ⟨hp.le, fun h => absurd h hp.ne'⟩
    refine ⟨mul_nonneg (hR0 x) hq.1, fun h => ?_⟩
    rcases mul_eq_zero.1 h with h | h
    · rw [h, zero_mul]
    · rw [hq.2 h, mul_zero]
  constructor
  · have : 0 ≤ ∫ x, (ρ x * F x + exp (-(U.dot (x.1 - x.2) / s) - c) * -F x) ∂B := integral_nonneg fun x => (hpt x).1
    show 0 ≤ ∫ x, F x ∂_
    rw [hJ]
    linarith
  · intro h0
    change ∫ x, F x ∂_ = 0 at h0
    rw [hJ] at h0
    rw [h0, mul_zero] at h2
    have := (integral_eq_zero_iff_of_nonneg (f := fun x => ρ x * F x + exp (-(U.dot (x.1 - x.2) / s) - c) * -F x)
      (fun x => (hpt x).1) (hI.add hI')).1 h2.symm
    have hB0 : ∀ᵐ x ∂B, F x = 0 := by
      filter_upwards [this] with x hx
      exact (hpt x).2 hx
    exact (withDensity_absolutelyContinuous _ _).ae_le hB0

private theorem thermal_speed (kT : ℝ) (d : Vec) (m : ℝ) :
    Integrable (fun v => v.abs) (thermal kT d m) ∧ ∀ n : Vec, ∫ v, n.dot v ∂thermal kT d m = n.dot d := by
  have hg : ∀ {c : Vec → ℝ} {e : ℝ}, Measurable c → (thermal kT d m).map c = gaussianReal e (kT / m).toNNReal →
      Integrable c (thermal kT d m) ∧ ∫ v, c v ∂thermal kT d m = e := by
    intro c e hc he
    have h1 : Integrable id (gaussianReal e (kT / m).toNNReal) := memLp_one_iff_integrable.1 (memLp_id_gaussianReal 1)
    constructor
    · rw [← he] at h1
      exact (integrable_map_measure measurable_id.aestronglyMeasurable hc.aemeasurable).1 h1
    · have := integral_map (μ := thermal kT d m) hc.aemeasurable (f := id) measurable_id.aestronglyMeasurable
      rw [he] at this
      simpa using this.symm
  obtain ⟨ix, ex⟩ := hg Vec.measurable_x (thermal_map_x kT d m)
  obtain ⟨iy, ey⟩ := hg Vec.measurable_y (thermal_map_y kT d m)
  obtain ⟨iz, ez⟩ := hg Vec.measurable_z (thermal_map_z kT d m)
  constructor
  · refine Integrable.mono ((ix.abs.add iy.abs).add iz.abs) measurable_abs_vec.aestronglyMeasurable
      (Filter.Eventually.of_forall fun v => ?_)
    simp only [Pi.add_apply]
    rw [Real.norm_of_nonneg (show 0 ≤ v.abs from Real.sqrt_nonneg _), Real.norm_of_nonneg (by positivity)]
    refine abs_le_of_sq_le_sq' (a := v.abs) (b := |v.x| + |v.y| + |v.z|) ?_ (by positivity) |>.2
    rw [Vec.abs_sq]
    simp only [Vec.normSq]
    nlinarith [sq_abs v.x, sq_abs v.y, sq_abs v.z, mul_nonneg (abs_nonneg v.x) (abs_nonneg v.y),
      mul_nonneg (abs_nonneg v.x) (abs_nonneg v.z), mul_nonneg (abs_nonneg v.y) (abs_nonneg v.z)]
  · intro n
    simp only [Vec.dot]
    have i12 : Integrable (fun v : Vec => n.x * v.x + n.y * v.y) (thermal kT d m) := (ix.const_mul _).add (iy.const_mul _)
    rw [integral_add i12 (iz.const_mul _), integral_add (ix.const_mul _) (iy.const_mul _), integral_const_mul,
      integral_const_mul, integral_const_mul, ex, ey, ez]

/-- **C113**  The means exist whenever `|σ(v)| v² ≤ A (1 + v²)` for some `A`. -/
theorem C113_means_exist {T : Tools W} {db : Registry ℝ} {e : LEq} {d : InterDoc} {w : WEq W}
    (h : completeEq T db e d = .ok w) {A : ℝ} (hA : ∀ v, 0 ≤ v → |okVal (w.cs.sigma v)| * v ^ 2 ≤ A * (1 + v ^ 2))
    (u₁ u₂ : Vec) (kT₁ kT₂ m₁ m₂ : ℝ) :
    Integrable (fun x => pairRate w x * (x.1 - x.2).abs) ((thermal kT₁ u₁ m₁).prod (thermal kT₂ u₂ m₂)) := by
  have hR := measurable_pairRate h
  have hA0 : 0 ≤ A := by have := hA 0 le_rfl; simpa using this
  have hb := (((thermal_moments kT₁ u₁ m₁).1.comp_fst (thermal kT₂ u₂ m₂)).add
    ((thermal_moments kT₂ u₂ m₂).1.comp_snd (thermal kT₁ u₁ m₁))).add
    (integrable_const (1 + (u₁ - u₂).normSq))
  refine Integrable.mono (hb.const_mul (A * 3)) (hR.mul (measurable_abs_vec.comp
    (measurable_sub_vec measurable_fst measurable_snd))).aestronglyMeasurable (Filter.Eventually.of_forall fun x => ?_)
  have h0 : 0 ≤ (x.1 - x.2).abs := Real.sqrt_nonneg _
  have h1 := hA _ h0
  have hn : ∀ v : Vec, 0 ≤ v.normSq := fun v => by simp only [Vec.normSq]; positivity
  simp only [Pi.add_apply]
  rw [pairRate, mul_assoc, ← sq, norm_mul, norm_of_nonneg (sq_nonneg (x.1 - x.2).abs)]
  refine h1.trans (le_trans ?_ (le_abs_self _))
  rw [mul_assoc]
  refine mul_le_mul_of_nonneg_left ?_ hA0
  rw [Vec.abs_sq]
  have h2 : (x.1 - x.2).normSq ≤ 3 * ((x.1 - u₁).normSq + (x.2 - u₂).normSq + (u₁ - u₂).normSq) := by
    have key : ∀ p q r : ℝ, (p - q + r) ^ 2 ≤ 3 * (p ^ 2 + q ^ 2 + r ^ 2) := fun p q r => by
      nlinarith [sq_nonneg (p + q), sq_nonneg (p - r), sq_nonneg (q + r)]
    have kx := key (x.1.x - u₁.x) (x.2.x - u₂.x) (u₁.x - u₂.x)
    have ky := key (x.1.y - u₁.y) (x.2.y - u₂.y) (u₁.y - u₂.y)
    have kz := key (x.1.z - u₁.z) (x.2.z - u₂.z) (u₁.z - u₂.z)
    simp only [Vec.normSq, Vec.sub_def]
    ring_nf at kx ky kz ⊢
    linarith
  linarith

/-- **C113**  Two species with thermal velocities, each with its own drift and temperature, elastic interaction with any
cross section that is nowhere negative: the friction on the first never points along its drift relative to the second. It
is strictly against it if the cross section is positive at every speed but zero and there is a drift. -/
theorem C113_opposes {T : Tools W} {db : Registry ℝ} (hpos : ∀ x ∈ db, 0 < x.mass) {e : LEq} {d : InterDoc}
    {w : WEq W} (h : completeEq T db e d = .ok w) (hmod : e.model = "elastic") {a b : Props ℝ}
    (hA : db[e.A.species.toNat]? = some a) (hB : db[e.B.species.toNat]? = some b)
    {rng : RNG S ℝ} (hrng : rng.IID μ) (ip : Bool) (p q : Part W) (u₁ u₂ : Vec) {kT₁ kT₂ : ℝ} (h₁ : 0 < kT₁)
    (h₂ : 0 < kT₂) (hσ : ∀ v, 0 ≤ v → 0 ≤ okVal (w.cs.sigma v))
    (hint : Integrable (fun x => pairRate w x * (x.1 - x.2).abs)
      ((thermal kT₁ u₁ a.mass).prod (thermal kT₂ u₂ b.mass))) :
    let F := ∫ x, pairRate w x.1 * pushed (u₁ - u₂) a.mass x.1.1
        (w.act T rng ip { p with vel := x.1.1 } { q with vel := x.1.2 } x.2) 0
      ∂((thermal kT₁ u₁ a.mass).prod (thermal kT₂ u₂ b.mass)).prod μ
    F ≤ 0 ∧ ((∀ v, 0 < v → 0 < okVal (w.cs.sigma v)) → u₁ ≠ u₂ → F < 0) := by
  intro F
  have ha := hpos a (List.mem_of_getElem? hA)
  have hb := hpos b (List.mem_of_getElem? hB)
  have hR := measurable_pairRate h
  set th := (thermal kT₁ u₁ a.mass).prod (thermal kT₂ u₂ b.mass) with hth
  have hF : F = _ := (C113_drag hpos h hmod hA hB hrng ip p q (u₁ - u₂) th hint).1
  have hc : 0 < a.mass * b.mass / (a.mass + b.mass) := by positivity
  have I2 : Integrable (fun x : Vec × Vec => pairRate w x * (u₁ - u₂).dot (x.1 - x.2)) th := by
    refine Integrable.mono (hint.const_mul (u₁ - u₂).abs) (hR.mul (measurable_dot _
      (measurable_sub_vec measurable_fst measurable_snd))).aestronglyMeasurable (Filter.Eventually.of_forall fun x => ?_)
    rw [norm_mul, norm_mul, norm_mul, ← mul_assoc, mul_comm ‖(u₁ - u₂).abs‖, mul_assoc]
    gcongr
    rw [← norm_mul]
    exact (dot_bound _ _).trans (le_abs_self _)
  have hR0 : ∀ x, 0 ≤ pairRate w x := fun x =>
    mul_nonneg (hσ _ (show 0 ≤ (x.1 - x.2).abs from Real.sqrt_nonneg _)) (show 0 ≤ (x.1 - x.2).abs from Real.sqrt_nonneg _)
  have hsym : ∀ (f : Vec) (x : Vec × Vec), pairRate w (turned f x.1, turned f x.2) = pairRate w x := by
    intro f x
    have : (turned f x.1 - turned f x.2).abs = (x.1 - x.2).abs := by
      simp only [Vec.abs, Vec.normSq, turned, Vec.sub_def]
      congr 1
      ring
    simp only [pairRate, this]
  obtain ⟨j0, j1⟩ := drift_sign h₁ h₂ ha hb u₁ u₂ hR hR0 hsym I2
  rw [← hth] at j0 j1
  refine ⟨?_, fun hσ' hne => ?_⟩
  · rw [hF]
    nlinarith [mul_nonneg hc.le j0]
  · rcases j0.lt_or_eq with hp | hz
    · rw [hF]
      nlinarith [mul_pos hc hp]
    · exfalso
      have hz' : ∀ᵐ x ∂th, (u₁ - u₂).dot x.1 - (u₁ - u₂).dot x.2 = 0 := by
        filter_upwards [j1 hz.symm] with x hx
        have hs : (u₁ - u₂).dot x.1 - (u₁ - u₂).dot x.2 = (u₁ - u₂).dot (x.1 - x.2) := by
          simp only [Vec.dot, Vec.sub_def]; ring
        rw [hs]
        rcases mul_eq_zero.1 hx with h0 | h0
        · by_cases hv : (x.1 - x.2).abs = 0
          · have := dot_bound (u₁ - u₂) (x.1 - x.2)
            rw [hv, mul_zero] at this
            exact abs_nonpos_iff.1 this
          · have hv' : 0 < (x.1 - x.2).abs := lt_of_le_of_ne (Real.sqrt_nonneg _) (Ne.symm hv)
            exact absurd h0 (mul_pos (hσ' _ hv') hv').ne'
        · exact h0
      obtain ⟨s1, t1⟩ := thermal_speed kT₁ u₁ a.mass
      obtain ⟨s2, t2⟩ := thermal_speed kT₂ u₂ b.mass
      have hd : ∀ {R : Measure Vec}, Integrable (fun v => v.abs) R → Integrable (fun v => (u₁ - u₂).dot v) R := by
        intro R hR
        refine Integrable.mono (hR.const_mul (u₁ - u₂).abs) (measurable_dot _ measurable_id).aestronglyMeasurable
          (Filter.Eventually.of_forall fun x => ?_)
        exact (dot_bound _ x).trans (le_abs_self _)
      have hm := integral_congr_ae (μ := th) (f := fun x => (u₁ - u₂).dot x.1 - (u₁ - u₂).dot x.2) (g := fun _ => (0 : ℝ)) hz'
      rw [hth, integral_sub ((hd s1).comp_fst _) ((hd s2).comp_snd _), integral_fun_fst (fun v => (u₁ - u₂).dot v),
        integral_fun_snd (fun v => (u₁ - u₂).dot v), t1, t2] at hm
      simp only [probReal_univ, one_smul, integral_zero] at hm
      have hn : (u₁ - u₂).normSq = 0 := by
        rw [← hm]; simp only [Vec.normSq, Vec.dot, Vec.sub_def]; ring
      apply hne
      simp only [Vec.normSq, Vec.sub_def] at hn
      ext
      · nlinarith [sq_nonneg (u₁.x - u₂.x), sq_nonneg (u₁.y - u₂.y), sq_nonneg (u₁.z - u₂.z)]
      · nlinarith [sq_nonneg (u₁.x - u₂.x), sq_nonneg (u₁.y - u₂.y), sq_nonneg (u₁.z - u₂.z)]
      · nlinarith [sq_nonneg (u₁.x - u₂.x), sq_nonneg (u₁.y - u₂.y), sq_nonneg (u₁.z - u₂.z)]

/-! ### Examples -/

section FrictionExample
open IsotropyExample RateExample

private theorem hot_loads (T : Tools Unit) : ∃ w : WEq Unit, completeEq T exReal hotEq { cs := .inverse 5 none } = .ok w := by
  obtain ⟨y, hy⟩ : ∃ y, CSDoc.load T.solve T.extrapolate (ReducedMass.mk' (1 : ℝ) 2000).value (.inverse 5 none) = .ok y := by
    simp only [CSDoc.load, mkInverse, setThreshold, loadThreshold, lt_irrefl, if_false]
    exact ⟨_, rfl⟩
  exact ⟨_, completeEq_of T (db := exReal) (e := hotEq) (d := { cs := .inverse 5 none })
    (a := ⟨"e", 1, -1⟩) (b := ⟨"H", 2000, 0⟩) rfl rfl rfl hy rfl⟩

/-- Non-trivial case: electrons that drift with velocity `(4, 0, 0)` through hydrogen at rest, inverse cross section: the
friction along x is `-5 (2000 / 2001) 4`. -/
example (T : Tools Unit) : ∃ w : WEq Unit,
    completeEq T exReal hotEq { cs := .inverse 5 none } = .ok w ∧
    ∫ x, pairRate w x.1 * pushed ⟨1, 0, 0⟩ 1 x.1.1 (w.act T streamRNG true ⟨0, x.1.1, 0, ()⟩ ⟨0, x.1.2, 1, ()⟩ x.2) 0
      ∂((thermal 900 ⟨4, 0, 0⟩ 1).prod (thermal 300 ⟨0, 0, 0⟩ 2000)).prod iidUnif = -(5 * (2000 / 2001)) * 4 := by
  obtain ⟨w, hw⟩ := hot_loads T
  refine ⟨w, hw, ?_⟩
  have h := C113_inverse exReal_pos hw rfl (a := ⟨"e", 1, -1⟩) (b := ⟨"H", 2000, 0⟩) rfl rfl rfl streamRNG_iid true
    ⟨0, ⟨0, 0, 0⟩, 0, ()⟩ ⟨0, ⟨0, 0, 0⟩, 1, ()⟩ ⟨1, 0, 0⟩ (thermal 900 ⟨4, 0, 0⟩ 1) (thermal 300 ⟨0, 0, 0⟩ 2000)
    (thermal_speed _ _ _).1 (thermal_speed _ _ _).1
  refine h.trans ?_
  rw [(thermal_speed _ _ _).2, (thermal_speed _ _ _).2]
  norm_num [Vec.dot]

/-- The hypotheses of `C113_opposes` hold for a constant cross section, so that the friction is strictly against the
drift. -/
example (T : Tools Unit) : ∃ w : WEq Unit,
    completeEq T exReal (scatter "elastic") { cs := .constant 3 none } = .ok w ∧
    ∫ x, pairRate w x.1 * pushed (⟨4, 0, 0⟩ - ⟨0, 1, 0⟩) 1 x.1.1
      (w.act T streamRNG true ⟨0, x.1.1, 0, ()⟩ ⟨0, x.1.2, 1, ()⟩ x.2) 0
      ∂((thermal 900 ⟨4, 0, 0⟩ 1).prod (thermal 300 ⟨0, 1, 0⟩ 2000)).prod iidUnif < 0 := by
  have hw := completeEq_of T (a := ⟨"e", 1, -1⟩) (b := ⟨"H", 2000, 0⟩) (e := scatter "elastic") (db := exReal)
    (d := { cs := .constant 3 none }) rfl rfl rfl (plain_load T) rfl
  refine ⟨_, hw, ?_⟩
  have h3 : ∀ v, 0 ≤ v → okVal (plain.sigma v) = 3 := fun v hv => by simp [plain, okVal, hv]
  have hint := C113_means_exist hw (A := 3) (fun v hv => by
    show |okVal (plain.sigma v)| * v ^ 2 ≤ _
    rw [h3 v hv, abs_of_pos three_pos]
    linarith) ⟨4, 0, 0⟩ ⟨0, 1, 0⟩ 900 300 1 2000
  refine (C113_opposes exReal_pos hw rfl (a := ⟨"e", 1, -1⟩) (b := ⟨"H", 2000, 0⟩) rfl rfl streamRNG_iid true
    ⟨0, ⟨0, 0, 0⟩, 0, ()⟩ ⟨0, ⟨0, 0, 0⟩, 1, ()⟩ ⟨4, 0, 0⟩ ⟨0, 1, 0⟩ (kT₁ := 900) (kT₂ := 300) (by norm_num) (by norm_num)
    (fun v hv => ?_) hint).2 (fun v hv => ?_) (by simp)
  · show 0 ≤ okVal (plain.sigma v)
    rw [h3 v hv]; norm_num
  · show 0 < okVal (plain.sigma v)
    rw [h3 v hv.le]; norm_num

/-- VSS scattering with parameter 2 of an electron of velocity `(0, 6, 0)`: two thirds of `-μ g`. -/
example (T : Tools Unit) (hT : T.pow = fun u k => u ^ k) : ∃ w : WEq Unit,
    completeEq T exReal (scatter "vss_elastic") { cs := .constant 3 none, vssParamInv := 1 / 2 } = .ok w ∧
    ∫ s, pushed ⟨0, 1, 0⟩ 1 ⟨0, 6, 0⟩
      (w.act T streamRNG true ⟨0, ⟨0, 6, 0⟩, 0, ()⟩ ⟨0, ⟨0, 0, 0⟩, 1, ()⟩ s) 0 ∂iidUnif = -(2 / 3 * (2000 / 2001) * 6) := by
  have hw := completeEq_of T (a := ⟨"e", 1, -1⟩) (b := ⟨"H", 2000, 0⟩) (e := scatter "vss_elastic") (db := exReal)
    (d := { cs := .constant 3 none, vssParamInv := 1 / 2 }) rfl rfl rfl (plain_load T) rfl
  refine ⟨_, hw, ?_⟩
  refine (C113_push_vss exReal_pos hw rfl (by norm_num) (by rw [hT]; fun_prop) (fun u _ _ => by rw [hT])
    (a := ⟨"e", 1, -1⟩) (b := ⟨"H", 2000, 0⟩) rfl rfl streamRNG_iid true ⟨0, ⟨0, 6, 0⟩, 0, ()⟩ ⟨0, ⟨0, 0, 0⟩, 1, ()⟩
    off_axis ⟨0, 1, 0⟩).1.trans ?_
  norm_num [Vec.dot, Vec.sub_def]

end FrictionExample

end Chimp
