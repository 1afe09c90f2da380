import Verif.Model.Kinematics
import Verif.Props.Equation
import Verif.Props.Factories
import Mathlib.Tactic.FieldSimp
import Mathlib.Tactic.LinearCombination
import Mathlib.Tactic.Positivity

/-!
# Lemmas on the interaction models
-/

namespace Chimp

namespace Vec

@[simp] theorem add_x (a b : Vec) : (a + b).x = a.x + b.x := rfl
@[simp] theorem add_y (a b : Vec) : (a + b).y = a.y + b.y := rfl
@[simp] theorem add_z (a b : Vec) : (a + b).z = a.z + b.z := rfl
@[simp] theorem sub_x (a b : Vec) : (a - b).x = a.x - b.x := rfl
@[simp] theorem sub_y (a b : Vec) : (a - b).y = a.y - b.y := rfl
@[simp] theorem sub_z (a b : Vec) : (a - b).z = a.z - b.z := rfl
@[simp] theorem smul_x (c : ℝ) (a : Vec) : (c • a).x = c * a.x := rfl
@[simp] theorem smul_y (c : ℝ) (a : Vec) : (c • a).y = c * a.y := rfl
@[simp] theorem smul_z (c : ℝ) (a : Vec) : (c • a).z = c * a.z := rfl

theorem normSq_nonneg (a : Vec) : 0 ≤ a.normSq := by unfold normSq; positivity

theorem abs_sq (a : Vec) : a.abs ^ 2 = a.normSq := Real.sq_sqrt a.normSq_nonneg

theorem abs_nonneg (a : Vec) : 0 ≤ a.abs := Real.sqrt_nonneg _

theorem abs_eq_of_normSq {a b : Vec} (h : a.normSq = b.normSq) : a.abs = b.abs := by
  unfold abs; rw [h]

theorem normSq_smul (c : ℝ) (a : Vec) : (c • a).normSq = c ^ 2 * a.normSq := by
  simp only [normSq, smul_x, smul_y, smul_z]; ring

end Vec

/-- Kinetic energy. -/
noncomputable def ke (m : ℝ) (v : Vec) : ℝ := 1 / 2 * m * v.normSq

/-- The ratios of a reduced mass. -/
theorem reducedMass_eq {m1 m2 : ℝ} (h1 : 0 < m1) (h2 : 0 < m2) :
    (ReducedMass.mk' m1 m2).value = m1 * m2 / (m1 + m2) ∧
    (ReducedMass.mk' m1 m2).over_m1 = m2 / (m1 + m2) ∧
    (ReducedMass.mk' m1 m2).over_m2 = m1 / (m1 + m2) := by
  refine ⟨rfl, ?_, ?_⟩
  · show 1 / (1 + m1 / m2) = _
    field_simp
    ring
  · show 1 / (1 + m2 / m1) = _
    field_simp

theorem reducedMass_pos {m1 m2 : ℝ} (h1 : 0 < m1) (h2 : 0 < m2) :
    0 < (ReducedMass.mk' m1 m2).value := by
  show 0 < m1 * m2 / (m1 + m2)
  positivity

/-- A body of velocity `V` splitting into two with relative velocity `R`: momentum and energy. -/
theorem split_body {m1 m2 : ℝ} (h1 : 0 < m1) (h2 : 0 < m2) (V R : Vec) :
    let r := ReducedMass.mk' m1 m2
    m1 • (V + r.over_m1 • R) + m2 • (V - r.over_m2 • R) = (m1 + m2) • V ∧
    ke m1 (V + r.over_m1 • R) + ke m2 (V - r.over_m2 • R) =
      ke (m1 + m2) V + 1 / 2 * r.value * R.normSq ∧
    (V + r.over_m1 • R) - (V - r.over_m2 • R) = R := by
  obtain ⟨e0, e1, e2⟩ := reducedMass_eq h1 h2
  have hs : m1 + m2 ≠ 0 := by positivity
  intro r
  simp only [r, e0, e1, e2]
  refine ⟨?_, ?_, ?_⟩
  · ext <;> simp only [Vec.add_x, Vec.add_y, Vec.add_z, Vec.sub_x, Vec.sub_y, Vec.sub_z, Vec.smul_x,
      Vec.smul_y, Vec.smul_z] <;> field_simp <;> ring
  · simp only [ke, Vec.normSq, Vec.add_x, Vec.add_y, Vec.add_z, Vec.sub_x, Vec.sub_y, Vec.sub_z,
      Vec.smul_x, Vec.smul_y, Vec.smul_z]
    field_simp
    ring
  · ext <;> simp only [Vec.add_x, Vec.add_y, Vec.add_z, Vec.sub_x, Vec.sub_y, Vec.sub_z, Vec.smul_x,
      Vec.smul_y, Vec.smul_z] <;> field_simp <;> ring

/-- Two bodies seen from their centre of mass. -/
theorem join_bodies {m1 m2 : ℝ} (h1 : 0 < m1) (h2 : 0 < m2) (v1 v2 : Vec) :
    let r := ReducedMass.mk' m1 m2
    (m1 + m2) • velCM r v1 v2 = m1 • v1 + m2 • v2 ∧
    ke (m1 + m2) (velCM r v1 v2) + 1 / 2 * r.value * (v1 - v2).normSq = ke m1 v1 + ke m2 v2 := by
  obtain ⟨e0, e1, e2⟩ := reducedMass_eq h1 h2
  have hs : m1 + m2 ≠ 0 := by positivity
  intro r
  simp only [velCM, r, e0, e1, e2]
  refine ⟨?_, ?_⟩
  · ext <;> simp only [Vec.add_x, Vec.add_y, Vec.add_z, Vec.smul_x,
      Vec.smul_y, Vec.smul_z] <;> field_simp
  · simp only [ke, Vec.normSq, Vec.add_x, Vec.add_y, Vec.add_z, Vec.sub_x, Vec.sub_y, Vec.sub_z,
      Vec.smul_x, Vec.smul_y, Vec.smul_z]
    field_simp
    ring

variable {S W : Type}

/-- A generator whose `rand` gives numbers in the unit interval. -/
def RNG.Unit (rng : RNG S ℝ) : Prop := ∀ s, 0 ≤ (rng.rand s).1 ∧ (rng.rand s).1 ≤ 1

/-- State after two draws. -/
def RNG.draw2 (rng : RNG S ℝ) (s : S) : S := (rng.rand (rng.rand s).2).2

theorem unit_B {u : ℝ} (h0 : 0 ≤ u) (h1 : u ≤ 1) : 0 ≤ 1 - (2 * u - 1) ^ 2 := by nlinarith

theorem isoVec_spec (rng : RNG S ℝ) (hr : rng.Unit) (speed : ℝ) (s : S) :
    (isoVec rng speed s).1.normSq = speed ^ 2 ∧ (isoVec rng speed s).2 = rng.draw2 s := by
  obtain ⟨h0, h1⟩ := hr s
  refine ⟨?_, rfl⟩
  simp only [isoVec, Vec.normSq]
  have hA := Real.sq_sqrt (unit_B h0 h1)
  generalize Real.sqrt (1 - (2 * (rng.rand s).1 - 1) ^ 2) = A at hA ⊢
  generalize 2 * (rng.rand s).1 - 1 = B at hA ⊢
  generalize 2 * Real.pi * (rng.rand (rng.rand s).2).1 = C
  have hc := Real.sin_sq_add_cos_sq C
  have : B ^ 2 + A ^ 2 * (Real.sin C ^ 2 + Real.cos C ^ 2) = 1 := by rw [hc, hA]; ring
  linear_combination speed ^ 2 * this

/-- The VSS rotation: what happens to the length, and the deflection. -/
theorem vssPost_spec (v : Vec) (B C : ℝ) (hB : B ^ 2 ≤ 1) :
    (1 / 1000000 < Real.sqrt (v.y ^ 2 + v.z ^ 2) →
      (vssPost v B C).normSq = v.normSq ∧ (vssPost v B C).dot v = B * v.normSq) ∧
    (Real.sqrt (v.y ^ 2 + v.z ^ 2) ≤ 1 / 1000000 →
      (vssPost v B C).normSq = v.normSq - (v.y ^ 2 + v.z ^ 2)) := by
  have hA := Real.sq_sqrt (show 0 ≤ 1 - B ^ 2 by linarith)
  have hD := Real.sq_sqrt (show 0 ≤ v.y ^ 2 + v.z ^ 2 by positivity)
  have hc := Real.sin_sq_add_cos_sq C
  have hg := v.abs_sq
  refine ⟨fun h => ?_, fun h => ?_⟩
  · have hDpos : 0 < Real.sqrt (v.y ^ 2 + v.z ^ 2) := lt_trans (by norm_num) h
    unfold vssPost
    simp only [gt_iff_lt, h, if_true]
    generalize Real.sqrt (1 - B ^ 2) = A at hA ⊢
    generalize Real.sqrt (v.y ^ 2 + v.z ^ 2) = D at hD hDpos h ⊢
    generalize Real.sin C = s at hc ⊢
    generalize Real.cos C = c at hc ⊢
    simp only [Vec.normSq, Vec.dot] at hg ⊢
    generalize v.abs = g at hg ⊢
    obtain ⟨x, y, z⟩ := v
    simp only at hg hD ⊢
    have hne : D ≠ 0 := hDpos.ne'
    -- the two transverse components with the denominator cleared
    constructor
    · have e : (B * x + A * s * D) ^ 2 + (B * y + A / D * (g * z * c - x * y * s)) ^ 2 +
          (B * z - A / D * (g * y * c + x * z * s)) ^ 2 =
          B ^ 2 * (x ^ 2 + (y ^ 2 + z ^ 2)) + A ^ 2 * s ^ 2 * D ^ 2 + 2 * A * B * s * x * (D - (y ^ 2 + z ^ 2) / D)
          + A ^ 2 * (y ^ 2 + z ^ 2) / D ^ 2 * (g ^ 2 * c ^ 2 + x ^ 2 * s ^ 2) := by
        field_simp; ring
      rw [e, ← hD]
      have e2 : D - D ^ 2 / D = 0 := by field_simp; ring
      have e3 : A ^ 2 * D ^ 2 / D ^ 2 = A ^ 2 := by field_simp
      rw [e2, e3, hg, hA]
      have : x ^ 2 + y ^ 2 + z ^ 2 = x ^ 2 + D ^ 2 := by rw [hD]; ring
      rw [this]
      linear_combination (1 - B ^ 2) * (x ^ 2 + D ^ 2) * hc
    · have e : (B * x + A * s * D) * x + (B * y + A / D * (g * z * c - x * y * s)) * y +
          (B * z - A / D * (g * y * c + x * z * s)) * z =
          B * (x ^ 2 + y ^ 2 + z ^ 2) + A * s * x * (D - (y ^ 2 + z ^ 2) / D) := by
        field_simp; ring
      rw [e, ← hD]
      have e2 : D - D ^ 2 / D = 0 := by field_simp; ring
      rw [e2]; ring
  · unfold vssPost
    simp only [gt_iff_lt, not_lt.2 h, if_false]
    generalize Real.sqrt (1 - B ^ 2) = A at hA ⊢
    simp only [Vec.normSq]
    linear_combination v.x ^ 2 * hA + v.x ^ 2 * A ^ 2 * hc

/-! ### Loading -/

theorem mapM_range_some {α : Type} (f : ℕ → Option α) : ∀ (n : ℕ) (l : List α),
    (List.range n).mapM f = some l → l.length = n ∧ ∀ i, i < n → f i = l[i]? := by
  intro n
  induction n with
  | zero => intro l h; simp at h; subst h; simp
  | succ n ih =>
    intro l h
    rw [List.range_succ, List.mapM_append] at h
    simp only [List.mapM_cons, List.mapM_nil, Option.bind_eq_bind, Option.pure_def] at h
    rw [Option.bind_eq_some_iff] at h
    obtain ⟨l1, h1, h2⟩ := h
    rw [Option.bind_eq_some_iff] at h2
    obtain ⟨l2, h2, h3⟩ := h2
    rw [Option.bind_eq_some_iff] at h2
    obtain ⟨x, hx, h2⟩ := h2
    simp only [Option.bind_some, Option.some.injEq] at h2 h3
    subst h2 h3
    obtain ⟨a, b⟩ := ih l1 h1
    refine ⟨by simp [a], fun i hi => ?_⟩
    by_cases hlt : i < n
    · rw [b i hlt, List.getElem?_append_left (by omega)]
    · have : i = n := by omega
      subst this
      rw [hx, ← a]; simp

/-- The products one by one: the term and the position within its multiplicity. -/
def writtenProducts (ts : List Term) : List (Term × ℕ) :=
  ts.flatMap fun t => (List.range t.n.toNat).map fun i => (t, i)

theorem writtenProducts_fst (ts : List Term) : (writtenProducts ts).map Prod.fst = expandTerms ts := by
  induction ts with
  | nil => rfl
  | cons t ts ih =>
    simp only [writtenProducts, expandTerms, List.flatMap_cons, List.map_append, List.map_map] at ih ⊢
    rw [ih]
    congr 1
    rw [List.eq_replicate_iff]
    simp

/-- The tuples of the products: species, mass, charge and source of the products. -/
theorem productTuples_some {K : Type} (db : Registry K) : ∀ (ts : List Term) (outs : List (MC K)),
    productTuples db ts = some outs →
    List.Forall₂ (fun (w : Term × ℕ) (o : MC K) => o.species = w.1.species ∧ w.1.src[w.2]? = some o.src ∧
      ∃ p, db[w.1.species.toNat]? = some p ∧ o.mass = p.mass ∧ o.charge = p.charge)
      (writtenProducts ts) outs := by
  intro ts
  induction ts with
  | nil => intro outs h; simp [productTuples] at h; subst h; simp [writtenProducts]
  | cons t ts ih =>
    intro outs h
    unfold productTuples at h
    cases ha : termTuples db t with
    | none => simp [ha] at h
    | some a =>
      cases hb : productTuples db ts with
      | none => simp [ha, hb] at h
      | some b =>
        simp only [ha, hb, Option.some.injEq] at h
        subst h
        have e : writtenProducts (t :: ts) =
            (List.range t.n.toNat).map (fun i => (t, i)) ++ writtenProducts ts := by
          simp [writtenProducts]
        rw [e]
        refine List.rel_append ?_ (ih b hb)
        obtain ⟨hl, hi⟩ := mapM_range_some _ _ _ ha
        rw [List.forall₂_iff_get]
        refine ⟨by simp [hl], fun i h1 h2 => ?_⟩
        have hlt : i < t.n.toNat := by simpa using h1
        have := hi i hlt
        rw [List.getElem?_eq_getElem h2, Option.bind_eq_some_iff] at this
        obtain ⟨f, hsrc, hf⟩ := this
        unfold tupleOf at hf
        rw [Option.map_eq_some_iff] at hf
        obtain ⟨p, hp, hf⟩ := hf
        simp only [List.get_eq_getElem, List.getElem_map, List.getElem_range]
        rw [← hf]
        exact ⟨rfl, hsrc, p, hp, rfl, rfl⟩

theorem productOps_length (ts : List Term) : (productOps ts).length = (expandTerms ts).length := by
  induction ts with
  | nil => rfl
  | cons t ts ih =>
    simp only [productOps, expandTerms, List.flatMap_cons, List.length_append, List.length_map,
      List.length_range, List.length_replicate] at ih ⊢
    rw [ih]

/-- The factory belongs to the product: its species, and the source it was written with (0 and 1 are the
reactants, 2 the centre of mass, 3 the centre of charge, anything below 0 leaves the choice). -/
def FactoryFor (w : Term × ℕ) (f : PFactory) : Prop :=
  f.species = w.1.species ∧ f.srcIdx < 2 ∧
  (w.1.src[w.2]? = some 0 → f.srcIdx = 0 ∧ f.op = .noop) ∧
  (w.1.src[w.2]? = some 1 → f.srcIdx = 1 ∧ f.op = .noop) ∧
  (w.1.src[w.2]? = some 2 → f.op = .cm) ∧
  (w.1.src[w.2]? = some 3 → f.op = .cq)

/-- What the members of a loaded model have in common. -/
structure LoadedCommon (db : Registry ℝ) (oc : OpsCompiler W) (e : LEq) (dE : ℝ) (a b : Props ℝ)
    (m : InElastic W) : Prop where
  hA : db[e.A.species.toNat]? = some a
  hB : db[e.B.species.toNat]? = some b
  mu : m.mu = ReducedMass.mk' a.mass b.mass
  muQ : m.muQ = ReducedCharge.mk' a.charge b.charge
  facs : List.Forall₂ FactoryFor (writtenProducts e.products) m.facs
  ops : m.ops = (productOps e.products).map fun o => if o = "" then none else some (oc.compile o)
  cq : m.forceCQ = oc.usesCQ (productOps e.products)
  cm : m.forceCM = oc.usesCM (productOps e.products)
  hasE : m.hasE = decide (dE ≠ 0)
  dV : m.dV2rel = dE / (1 / 2 * m.mu.value)

theorem factories_forall₂ {db : Registry ℝ} {ts : List Term} {ins outs : List (MC ℝ)}
    {s : XF ℝ} {fs : List PFactory} (hl : ins.length = 2) (ho : productTuples db ts = some outs)
    (h : setParticleFactories ins outs = .ok (s, fs)) :
    List.Forall₂ FactoryFor (writtenProducts ts) fs := by
  have h1 := productTuples_some db ts outs ho
  obtain ⟨h2, h3⟩ := C51_complete ins outs s fs (by intro e; simp [e] at hl) h
  have hlen := h1.length_eq
  rw [List.forall₂_iff_get] at h1 ⊢
  refine ⟨by omega, fun i hi1 hi2 => ?_⟩
  have := h1.2 i hi1 (by omega)
  obtain ⟨f, hf, e1, e2, e3, e4, e5, _⟩ := h3 i _ (List.getElem?_eq_getElem (by omega))
  rw [List.getElem?_eq_getElem hi2] at hf
  simp only [List.get_eq_getElem] at this ⊢
  cases hf
  obtain ⟨t1, t2, _⟩ := this
  refine ⟨e1.trans t1, by omega, ?_, ?_, ?_, ?_⟩ <;>
  · intro hs
    rw [hs] at t2
    have t2' := (Option.some.inj t2).symm
    first
      | exact e4 (by omega)
      | exact e5 (by omega)
      | (have := e3 (by omega) (by omega); exact ⟨by omega, this.2⟩)

theorem newLoad_two {db : Registry ℝ} {oc : OpsCompiler W} {e : LEq} {declared : Option ℝ}
    {threshold : ℝ} {m : InElastic W} (hn : ∀ t ∈ e.products, 0 ≤ t.n)
    (h : newLoad db oc e declared threshold = .ok (.two m)) :
    ∃ a b t1 t2 p1 p2, LoadedCommon db oc e (declared.getD (-threshold)) a b m ∧
      expandTerms e.products = [t1, t2] ∧
      db[t1.species.toNat]? = some p1 ∧ db[t2.species.toNat]? = some p2 ∧
      m.mu1 = ReducedMass.mk' p1.mass p2.mass ∧
      m.mu1Scale = Real.sqrt (m.mu.value / m.mu1.value) := by
  unfold newLoad at h
  simp only [C15_product_indexing _ hn, C15_number_of_products _ hn] at h
  by_cases h23 : ((expandTerms e.products).length : ℤ) = 2 ∨ ((expandTerms e.products).length : ℤ) = 3
  swap
  · simp [h23] at h
  simp only [h23, if_true] at h
  cases hA : tupleOf db e.A.species (-1) with
  | none => simp [hA] at h
  | some a =>
  cases hB : tupleOf db e.B.species (-1) with
  | none => simp [hA, hB] at h
  | some b =>
  cases hO : productTuples db e.products with
  | none => simp [hA, hB, hO] at h
  | some outs =>
  simp only [hA, hB, hO] at h
  cases hF : setParticleFactories [a, b] outs with
  | error x => simp [hF] at h
  | ok sf =>
  obtain ⟨sc, fs⟩ := sf
  simp only [hF] at h
  have hfs := factories_forall₂ (by simp) hO hF
  unfold tupleOf at hA hB
  rw [Option.map_eq_some_iff] at hA hB
  obtain ⟨pa, hpa, rfl⟩ := hA
  obtain ⟨pb, hpb, rfl⟩ := hB
  by_cases h2 : ((expandTerms e.products).length : ℤ) = 2
  swap
  · simp only [h2, if_false] at h
    split at h <;> cases h
  simp only [h2, if_true] at h
  have h2' : (expandTerms e.products).length = 2 := by exact_mod_cast h2
  obtain ⟨t1, t2, ht⟩ := List.length_eq_two.1 h2'
  simp only [ht] at h
  simp only [List.getElem?_cons_zero, List.getElem?_cons_succ, Option.bind_some] at h
  cases hp1 : db[t1.species.toNat]? with
  | none => simp [hp1] at h
  | some p1 =>
  cases hp2 : db[t2.species.toNat]? with
  | none => simp [hp1, hp2] at h
  | some p2 =>
  simp only [hp1, hp2, Option.map_some, Except.ok.injEq, InModel.two.injEq] at h
  subst h
  exact ⟨pa, pb, t1, t2, p1, p2,
    ⟨hpa, hpb, rfl, rfl, hfs, rfl, rfl, rfl, rfl, rfl⟩, ht, hp1, hp2, rfl, rfl⟩

theorem newLoad_three {db : Registry ℝ} {oc : OpsCompiler W} {e : LEq} {declared : Option ℝ}
    {threshold : ℝ} {m : InElastic W} (hn : ∀ t ∈ e.products, 0 ≤ t.n)
    (h : newLoad db oc e declared threshold = .ok (.three m)) :
    ∃ a b t1 t2 t3 p1 p2 p3, LoadedCommon db oc e (declared.getD (-threshold)) a b m ∧
      expandTerms e.products = [t1, t2, t3] ∧
      db[t1.species.toNat]? = some p1 ∧ db[t2.species.toNat]? = some p2 ∧
      db[t3.species.toNat]? = some p3 ∧
      m.mu1 = ReducedMass.mk' p1.mass (p2.mass + p3.mass) ∧
      m.mu1Scale = Real.sqrt (m.mu.value / m.mu1.value) ∧
      m.mu2 = ReducedMass.mk' p2.mass p3.mass ∧
      m.mu2Scale = Real.sqrt (m.mu.value / m.mu2.value) := by
  unfold newLoad at h
  simp only [C15_product_indexing _ hn, C15_number_of_products _ hn] at h
  by_cases h23 : ((expandTerms e.products).length : ℤ) = 2 ∨ ((expandTerms e.products).length : ℤ) = 3
  swap
  · simp [h23] at h
  simp only [h23, if_true] at h
  cases hA : tupleOf db e.A.species (-1) with
  | none => simp [hA] at h
  | some a =>
  cases hB : tupleOf db e.B.species (-1) with
  | none => simp [hA, hB] at h
  | some b =>
  cases hO : productTuples db e.products with
  | none => simp [hA, hB, hO] at h
  | some outs =>
  simp only [hA, hB, hO] at h
  cases hF : setParticleFactories [a, b] outs with
  | error x => simp [hF] at h
  | ok sf =>
  obtain ⟨sc, fs⟩ := sf
  simp only [hF] at h
  have hfs := factories_forall₂ (by simp) hO hF
  unfold tupleOf at hA hB
  rw [Option.map_eq_some_iff] at hA hB
  obtain ⟨pa, hpa, rfl⟩ := hA
  obtain ⟨pb, hpb, rfl⟩ := hB
  by_cases h2 : ((expandTerms e.products).length : ℤ) = 2
  · simp only [h2, if_true] at h
    split at h <;> cases h
  simp only [h2, if_false] at h
  have h3' : (expandTerms e.products).length = 3 := by
    rcases h23 with h | h
    · exact absurd h h2
    · exact_mod_cast h
  obtain ⟨t1, t2, t3, ht⟩ := List.length_eq_three.1 h3'
  simp only [ht] at h
  simp only [List.getElem?_cons_zero, List.getElem?_cons_succ, Option.bind_some] at h
  cases hp1 : db[t1.species.toNat]? with
  | none => simp [hp1] at h
  | some p1 =>
  cases hp2 : db[t2.species.toNat]? with
  | none => simp [hp1, hp2] at h
  | some p2 =>
  cases hp3 : db[t3.species.toNat]? with
  | none => simp [hp1, hp2, hp3] at h
  | some p3 =>
  simp only [hp1, hp2, hp3, Option.map_some, Except.ok.injEq, InModel.three.injEq] at h
  subst h
  exact ⟨pa, pb, t1, t2, t3, p1, p2, p3,
    ⟨hpa, hpb, rfl, rfl, hfs, rfl, rfl, rfl, rfl, rfl⟩, ht, hp1, hp2, hp3,
    rfl, rfl, rfl, rfl⟩

/-! ### The interactions of the inelastic models -/

theorem chargeRatio_eq (q1 q2 : ℝ) :
    (q1 + q2 = 0 → chargeRatio q1 q2 = none) ∧
    (q1 + q2 ≠ 0 → chargeRatio q1 q2 = some (q2 / (q1 + q2))) := by
  unfold chargeRatio
  by_cases h2 : q2 = 0
  · subst h2; simp
  · have e : 1 + q1 / q2 = (q1 + q2) / q2 := by field_simp; ring
    simp only [h2, if_false, e]
    refine ⟨fun h => by simp [h], fun h => ?_⟩
    rw [if_neg (div_ne_zero h h2)]
    simp

/-- The mean of two vectors with weights. -/
noncomputable def weightedMean (w1 w2 : ℝ) (x1 x2 : Vec) : Vec := (1 / (w1 + w2)) • (w1 • x1 + w2 • x2)

theorem weighted_eq (w1 w2 : ℝ) (x1 x2 : Vec) :
    (w1 / (w1 + w2)) • x1 + (w2 / (w1 + w2)) • x2 = weightedMean w1 w2 x1 x2 := by
  unfold weightedMean
  ext <;> simp only [Vec.add_x, Vec.add_y, Vec.add_z, Vec.smul_x, Vec.smul_y, Vec.smul_z] <;> ring

theorem velCM_eq {m1 m2 : ℝ} (h1 : 0 < m1) (h2 : 0 < m2) (v1 v2 : Vec) :
    velCM (ReducedMass.mk' m1 m2) v1 v2 = weightedMean m1 m2 v1 v2 := by
  obtain ⟨_, e1, e2⟩ := reducedMass_eq h1 h2
  unfold velCM
  rw [e1, e2, weighted_eq]

/-- The relative speed handed out: its energy is the relative kinetic energy plus the energy change. -/
theorem calcVRel_spec {mu dE : ℝ} (hmu : 0 < mu) (v1 v2 : Vec) :
    (∀ w, calcVRel (decide (dE ≠ 0)) v1 v2 (dE / (1 / 2 * mu)) = some w →
      0 ≤ w ∧ 1 / 2 * mu * w ^ 2 = 1 / 2 * mu * (v1 - v2).normSq + dE) ∧
    (calcVRel (decide (dE ≠ 0)) v1 v2 (dE / (1 / 2 * mu)) ≠ none ↔
      0 ≤ 1 / 2 * mu * (v1 - v2).normSq + dE) := by
  have hkey : 1 / 2 * mu * ((v1 - v2).normSq + dE / (1 / 2 * mu)) = 1 / 2 * mu * (v1 - v2).normSq + dE := by
    field_simp
  have hiff : 0 ≤ (v1 - v2).normSq + dE / (1 / 2 * mu) ↔ 0 ≤ 1 / 2 * mu * (v1 - v2).normSq + dE := by
    rw [← hkey]
    exact (mul_nonneg_iff_of_pos_left (by positivity)).symm
  unfold calcVRel
  by_cases hd : dE = 0
  · subst hd
    simp only [ne_eq, not_true_eq_false, decide_false, Bool.false_eq_true, if_false, Option.some.injEq,
      reduceCtorEq, not_false_eq_true, add_zero, true_iff]
    refine ⟨fun w hw => ?_, ?_⟩
    · subst hw
      exact ⟨Vec.abs_nonneg _, by rw [Vec.abs_sq]⟩
    · have := Vec.normSq_nonneg (v1 - v2); positivity
  · simp only [ne_eq, hd, not_false_eq_true, decide_true, if_true]
    by_cases h : 0 ≤ (v1 - v2).normSq + dE / (1 / 2 * mu)
    · simp only [h, if_true, Option.some.injEq, reduceCtorEq, not_false_eq_true, true_iff]
      refine ⟨fun w hw => ?_, hiff.1 h⟩
      subst hw
      exact ⟨Real.sqrt_nonneg _, by rw [Real.sq_sqrt h, hkey]⟩
    · simp only [h, if_false]
      refine ⟨by simp, ?_⟩
      simp only [not_true_eq_false, false_iff]
      exact fun h' => h (hiff.2 h')

/-- Expressions that leave the velocity alone. -/
def KeepsVel (o : Option (OpsFn W)) : Prop := ∀ f ∈ o, ∀ r p q sc, (f r p q sc).2.1 = r.vel

theorem applyOps_vel {o : Option (OpsFn W)} (h : KeepsVel o) (r p q : Part W) (sc : Scratch) :
    (applyOps o r p q sc).vel = r.vel := by
  cases o with
  | none => rfl
  | some f => exact h f rfl r p q sc

theorem applyOps_species (o : Option (OpsFn W)) (r p q : Part W) (sc : Scratch) :
    (applyOps o r p q sc).species = r.species := by
  cases o <;> rfl

/-- Splitting with a rescaled relative velocity. -/
theorem split_scaled {n1 n2 mu : ℝ} (h1 : 0 < n1) (h2 : 0 < n2) (hmu : 0 < mu) (V R : Vec) :
    let r := ReducedMass.mk' n1 n2
    let sc := Real.sqrt (mu / r.value)
    n1 • (V + (r.over_m1 * sc) • R) + n2 • (V - (r.over_m2 * sc) • R) = (n1 + n2) • V ∧
    ke n1 (V + (r.over_m1 * sc) • R) + ke n2 (V - (r.over_m2 * sc) • R) =
      ke (n1 + n2) V + 1 / 2 * mu * R.normSq := by
  intro r sc
  have hr := reducedMass_pos h1 h2
  have e : ∀ c : ℝ, (c * sc) • R = c • (sc • R) := by
    intro c; ext <;> simp only [Vec.smul_x, Vec.smul_y, Vec.smul_z] <;> ring
  rw [e, e]
  obtain ⟨a, b, _⟩ := split_body h1 h2 V (sc • R)
  refine ⟨a, ?_⟩
  rw [b, Vec.normSq_smul, Real.sq_sqrt (by positivity)]
  congr 1
  have : (ReducedMass.mk' n1 n2).value ≠ 0 := hr.ne'
  show 1 / 2 * r.value * (mu / r.value * R.normSq) = _
  have : r.value ≠ 0 := this
  field_simp

end Chimp
