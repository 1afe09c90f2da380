import Verif.Props.Selection
import Mathlib.Dynamics.Ergodic.MeasurePreserving
import Mathlib.MeasureTheory.Measure.Prod
import Mathlib.MeasureTheory.Integral.Lebesgue.Countable

/-!
# Random programs with a countable outcome

A program is a relation between the generator state before, an outcome and the generator state after.
It is a `Prog` for a distribution `μ` of generator states when it finishes almost surely and the state
it leaves behind has the distribution `μ` again, independently of the outcome.
-/

namespace Chimp

open MeasureTheory
open scoped ENNReal

/-- The generator yields independent uniform numbers when its state is distributed as `μ`: the number
drawn is uniform on `[0,1)` and the state afterwards is distributed as `μ`, independently of the
number. -/
structure RNG.IID {S : Type} [MeasurableSpace S] (rng : RNG S ℝ) (μ : Measure S) : Prop where
  rand_meas : Measurable rng.rand
  exc_meas : Measurable rng.randExc
  rand_law : μ.map rng.rand = unif.prod μ
  exc_law : μ.map rng.randExc = unif.prod μ

variable {S : Type} [MeasurableSpace S] {A B : Type}

/-- Probability of an outcome. -/
noncomputable def law (μ : Measure S) (R : S → A → S → Prop) (a : A) : ℝ≥0∞ := μ {s | ∃ s', R s a s'}

/-- Expectation of a function of the outcome. -/
noncomputable def mean (μ : Measure S) (R : S → A → S → Prop) (f : A → ℝ≥0∞) : ℝ≥0∞ :=
  ∑' a, law μ R a * f a

/-- The state left behind is distributed as `μ` and independent of the outcome; the program need not
finish. -/
structure Prog0 (μ : Measure S) (R : S → A → S → Prop) : Prop where
  func : ∀ s a s' b s'', R s a s' → R s b s'' → a = b ∧ s' = s''
  meas : ∀ a E, MeasurableSet E → MeasurableSet {s | ∃ s', R s a s' ∧ s' ∈ E}
  indep : ∀ a E, MeasurableSet E → μ {s | ∃ s', R s a s' ∧ s' ∈ E} = law μ R a * μ E

/-- See the head of the file. -/
structure Prog (μ : Measure S) (R : S → A → S → Prop) : Prop extends Prog0 μ R where
  total : ∑' a, law μ R a = 1

/-- Sequential composition. -/
def Seq (R : S → A → S → Prop) (Q : A → S → B → S → Prop) : S → B → S → Prop :=
  fun s b s' => ∃ a s1, R s a s1 ∧ Q a s1 b s'

/-- No draw. -/
def Pure (a : A) : S → A → S → Prop := fun s b s' => b = a ∧ s' = s

variable {μ : Measure S}

theorem Prog0.meas_outcome {R : S → A → S → Prop} (h : Prog0 μ R) (a : A) :
    MeasurableSet {s | ∃ s', R s a s'} := by
  have := h.meas a Set.univ MeasurableSet.univ
  simpa using this

theorem Prog.mean_const {R : S → A → S → Prop} (h : Prog μ R) (c : ℝ≥0∞) :
    mean μ R (fun _ => c) = c := by
  unfold mean; rw [ENNReal.tsum_mul_right, h.total, one_mul]

theorem mean_add (R : S → A → S → Prop) (f g : A → ℝ≥0∞) :
    mean μ R (fun a => f a + g a) = mean μ R f + mean μ R g := by
  unfold mean; rw [← ENNReal.tsum_add]; simp only [mul_add]

theorem mean_mul_right (R : S → A → S → Prop) (f : A → ℝ≥0∞) (c : ℝ≥0∞) :
    mean μ R (fun a => f a * c) = mean μ R f * c := by
  unfold mean; rw [← ENNReal.tsum_mul_right]; simp only [mul_assoc]

theorem mean_indicator [DecidableEq A] (R : S → A → S → Prop) (a : A) :
    mean μ R (fun b => if b = a then 1 else 0) = law μ R a := by
  unfold mean
  rw [tsum_eq_single a (fun b hb => by simp [hb])]
  simp

theorem prog_pure [IsProbabilityMeasure μ] (a : A) : Prog μ (Pure a : S → A → S → Prop) := by
  classical
  have hlaw : ∀ b, law μ (Pure a : S → A → S → Prop) b = if b = a then 1 else 0 := by
    intro b
    unfold law Pure
    by_cases h : b = a <;> simp [h]
  refine ⟨⟨?_, ?_, ?_⟩, ?_⟩
  · rintro s b s' c s'' ⟨rfl, rfl⟩ ⟨rfl, rfl⟩; exact ⟨rfl, rfl⟩
  · intro b E hE
    unfold Pure
    by_cases h : b = a
    · simpa [h] using hE
    · simp [h]
  · intro b E hE
    rw [hlaw]
    unfold Pure
    by_cases h : b = a <;> simp [h]
  · simp only [hlaw]; rw [tsum_ite_eq]

theorem mean_pure [IsProbabilityMeasure μ] (a : A) (f : A → ℝ≥0∞) :
    mean μ (Pure a : S → A → S → Prop) f = f a := by
  classical
  have hlaw : ∀ b, law μ (Pure a : S → A → S → Prop) b = if b = a then 1 else 0 := by
    intro b
    unfold law Pure
    by_cases h : b = a <;> simp [h]
  unfold mean
  rw [tsum_eq_single a (fun b hb => by simp [hlaw, hb])]
  simp [hlaw]

/-- Deterministic change of the state that keeps the distribution. -/
theorem prog_state [IsProbabilityMeasure μ] (g : S → S) (hg : MeasurePreserving g μ μ) (a : A) :
    Prog μ (fun s b s' => b = a ∧ s' = g s : S → A → S → Prop) := by
  classical
  have hlaw : ∀ b, law μ (fun s b s' => b = a ∧ s' = g s : S → A → S → Prop) b =
      if b = a then 1 else 0 := by
    intro b
    unfold law
    by_cases h : b = a <;> simp [h]
  refine ⟨⟨?_, ?_, ?_⟩, ?_⟩
  · rintro s b s' c s'' ⟨rfl, rfl⟩ ⟨rfl, rfl⟩; exact ⟨rfl, rfl⟩
  · intro b E hE
    by_cases h : b = a
    · have : {s | ∃ s', (b = a ∧ s' = g s) ∧ s' ∈ E} = g ⁻¹' E := by ext s; simp [h]
      rw [this]; exact hg.measurable hE
    · simp [h]
  · intro b E hE
    rw [hlaw]
    by_cases h : b = a
    · have : {s | ∃ s', (b = a ∧ s' = g s) ∧ s' ∈ E} = g ⁻¹' E := by ext s; simp [h]
      rw [this, hg.measure_preimage hE.nullMeasurableSet, if_pos h, one_mul]
    · simp [h]
  · simp only [hlaw]; rw [tsum_ite_eq]

section seq
variable [Countable A] {R : S → A → S → Prop} {Q : A → S → B → S → Prop}

theorem seq_measure (hR : Prog0 μ R) (hQ : ∀ a, Prog0 μ (Q a)) (b : B) (E : Set S)
    (hE : MeasurableSet E) :
    MeasurableSet {s | ∃ s', Seq R Q s b s' ∧ s' ∈ E} ∧
    μ {s | ∃ s', Seq R Q s b s' ∧ s' ∈ E} = (∑' a, law μ R a * law μ (Q a) b) * μ E := by
  have hset : {s | ∃ s', Seq R Q s b s' ∧ s' ∈ E} =
      ⋃ a, {s | ∃ s1, R s a s1 ∧ s1 ∈ {s1 | ∃ s', Q a s1 b s' ∧ s' ∈ E}} := by
    ext s
    simp only [Set.mem_ofPred_eq, Set.mem_iUnion, Seq]
    constructor
    · rintro ⟨s', ⟨a, s1, h1, h2⟩, h3⟩; exact ⟨a, s1, h1, s', h2, h3⟩
    · rintro ⟨a, s1, h1, s', h2, h3⟩; exact ⟨s', ⟨a, s1, h1, h2⟩, h3⟩
  have hm : ∀ a, MeasurableSet {s | ∃ s1, R s a s1 ∧ s1 ∈ {s1 | ∃ s', Q a s1 b s' ∧ s' ∈ E}} :=
    fun a => hR.meas a _ ((hQ a).meas b E hE)
  refine ⟨by rw [hset]; exact MeasurableSet.iUnion hm, ?_⟩
  rw [hset, measure_iUnion ?_ hm]
  · rw [← ENNReal.tsum_mul_right]
    refine tsum_congr fun a => ?_
    rw [hR.indep a _ ((hQ a).meas b E hE), (hQ a).indep b E hE, mul_assoc]
  · intro a a' haa
    refine Set.disjoint_left.2 ?_
    rintro s ⟨s1, h1, _⟩ ⟨s2, h2, _⟩
    exact haa (hR.func _ _ _ _ _ h1 h2).1

theorem law_seq [IsProbabilityMeasure μ] (hR : Prog0 μ R) (hQ : ∀ a, Prog0 μ (Q a)) (b : B) :
    law μ (Seq R Q) b = ∑' a, law μ R a * law μ (Q a) b := by
  have := (seq_measure hR hQ b Set.univ MeasurableSet.univ).2
  simpa [law] using this

theorem prog0_seq [IsProbabilityMeasure μ] (hR : Prog0 μ R) (hQ : ∀ a, Prog0 μ (Q a)) :
    Prog0 μ (Seq R Q) := by
  refine ⟨?_, ?_, ?_⟩
  · rintro s b s' c s'' ⟨a, s1, h1, h2⟩ ⟨a', s1', h1', h2'⟩
    obtain ⟨rfl, rfl⟩ := hR.func _ _ _ _ _ h1 h1'
    exact (hQ a).func _ _ _ _ _ h2 h2'
  · exact fun b E hE => (seq_measure hR hQ b E hE).1
  · intro b E hE
    rw [law_seq hR hQ, (seq_measure hR hQ b E hE).2]

/-- The second program need only finish after outcomes that occur. -/
theorem prog_seq' [IsProbabilityMeasure μ] (hR : Prog μ R) (hQ : ∀ a, Prog0 μ (Q a))
    (ht : ∀ a, law μ R a = 0 ∨ ∑' b, law μ (Q a) b = 1) : Prog μ (Seq R Q) := by
  refine ⟨prog0_seq hR.toProg0 hQ, ?_⟩
  simp only [law_seq hR.toProg0 hQ]
  rw [ENNReal.tsum_comm]
  simp only [ENNReal.tsum_mul_left]
  rw [← hR.total]
  refine tsum_congr fun a => ?_
  rcases ht a with h | h
  · rw [h, zero_mul]
  · rw [h, mul_one]

theorem prog_seq [IsProbabilityMeasure μ] (hR : Prog μ R) (hQ : ∀ a, Prog μ (Q a)) :
    Prog μ (Seq R Q) :=
  prog_seq' hR (fun a => (hQ a).toProg0) (fun a => .inr (hQ a).total)

theorem mean_seq [IsProbabilityMeasure μ] (hR : Prog0 μ R) (hQ : ∀ a, Prog0 μ (Q a)) (f : B → ℝ≥0∞) :
    mean μ (Seq R Q) f = mean μ R (fun a => mean μ (Q a) f) := by
  unfold mean
  simp only [law_seq hR hQ, ← ENNReal.tsum_mul_right, ← ENNReal.tsum_mul_left]
  rw [ENNReal.tsum_comm]
  simp only [mul_assoc]

end seq

/-! ### Draws -/

theorem prog_of_draw [IsProbabilityMeasure μ] (d : S → ℝ × S) (hd : Measurable d)
    (hlaw : μ.map d = unif.prod μ) [Countable A] (f : ℝ → A)
    (hf : ∀ a, MeasurableSet {u | f u = a}) :
    Prog μ (fun s a s' => f (d s).1 = a ∧ (d s).2 = s') ∧
    ∀ a, law μ (fun s a s' => f (d s).1 = a ∧ (d s).2 = s') a = unif {u | f u = a} := by
  have hset : ∀ a E, {s | ∃ s', (f (d s).1 = a ∧ (d s).2 = s') ∧ s' ∈ E} =
      d ⁻¹' ({u | f u = a} ×ˢ E) := by
    intro a E; ext s; simp
  have hval : ∀ a E, MeasurableSet E → μ (d ⁻¹' ({u | f u = a} ×ˢ E)) = unif {u | f u = a} * μ E := by
    intro a E hE
    rw [← Measure.map_apply hd ((hf a).prod hE), hlaw, Measure.prod_prod]
  have hl : ∀ a, law μ (fun s a s' => f (d s).1 = a ∧ (d s).2 = s') a = unif {u | f u = a} := by
    intro a
    have h1 := hval a Set.univ MeasurableSet.univ
    rw [← hset, measure_univ, mul_one] at h1
    rw [← h1, law]
    simp
  refine ⟨⟨⟨?_, ?_, ?_⟩, ?_⟩, hl⟩
  · rintro s a s' b s'' ⟨rfl, rfl⟩ ⟨rfl, rfl⟩; exact ⟨rfl, rfl⟩
  · intro a E hE
    rw [hset]; exact hd ((hf a).prod hE)
  · intro a E hE
    rw [hset, hl, hval a E hE]
  · simp only [hl]
    rw [← measure_iUnion (fun a b hab => Set.disjoint_left.2 (by
      rintro u rfl h2; exact hab h2)) hf]
    have : (⋃ a, {u : ℝ | f u = a}) = Set.univ := by ext u; simp
    rw [this, measure_univ]

/-! ### Expectation of a random variable computed by a program -/

theorem lintegral_prog [IsProbabilityMeasure μ] [Countable A] {R : S → A → S → Prop} (hR : Prog μ R)
    (f : A → ℝ≥0∞) (X : S → ℝ≥0∞) (hX : ∀ s a s', R s a s' → X s = f a) :
    ∫⁻ s, X s ∂μ = mean μ R f := by
  have hm := hR.meas_outcome
  have hdisj : Pairwise (Function.onFun Disjoint (fun a => {s | ∃ s', R s a s'})) := by
    intro a b hab
    refine Set.disjoint_left.2 ?_
    rintro s ⟨s1, h1⟩ ⟨s2, h2⟩
    exact hab (hR.func _ _ _ _ _ h1 h2).1
  have hfull : μ (⋃ a, {s | ∃ s', R s a s'}) = 1 := by
    rw [measure_iUnion hdisj hm]; exact hR.total
  have hmU : MeasurableSet (⋃ a, {s | ∃ s', R s a s'}) := MeasurableSet.iUnion hm
  have hae : ∀ᵐ s ∂μ, s ∈ ⋃ a, {s | ∃ s', R s a s'} :=
    (prob_compl_eq_zero_iff hmU).2 hfull
  have h1 : ∫⁻ s, X s ∂μ = ∫⁻ s in ⋃ a, {s | ∃ s', R s a s'}, X s ∂μ := by
    rw [Measure.restrict_eq_self_of_ae_mem hae]
  rw [h1, lintegral_iUnion hm hdisj]
  unfold mean
  refine tsum_congr fun a => ?_
  rw [setLIntegral_congr_fun (g := fun _ => f a) (hm a) (by rintro s ⟨s', h⟩; exact hX s a s' h)]
  rw [setLIntegral_const, mul_comm]
  rfl

theorem Prog.ae_finishes [IsProbabilityMeasure μ] [Countable A] {R : S → A → S → Prop} (hR : Prog μ R) :
    ∀ᵐ s ∂μ, ∃ a s', R s a s' := by
  have hm := hR.meas_outcome
  have hfull : μ (⋃ a, {s | ∃ s', R s a s'}) = 1 := by
    rw [measure_iUnion (fun a b hab => Set.disjoint_left.2 (by
      rintro s ⟨s1, h1⟩ ⟨s2, h2⟩; exact hab (hR.func _ _ _ _ _ h1 h2).1)) hm]
    exact hR.total
  have := (prob_compl_eq_zero_iff (MeasurableSet.iUnion hm)).2 hfull
  have h2 : ∀ᵐ s ∂μ, s ∈ ⋃ a, {s | ∃ s', R s a s'} := this
  filter_upwards [h2] with s hs
  simpa using hs

/-! ### The stream of independent uniform numbers -/

instance : IsProbabilityMeasure iidUnif := by unfold iidUnif; infer_instance

/-- A stream with a number put in front. -/
def consStream (x : ℝ × (ℕ → ℝ)) : ℕ → ℝ := fun j => Nat.casesOn j x.1 x.2

theorem measurable_uncons : Measurable (fun s : ℕ → ℝ => (s 0, fun j => s (j + 1))) :=
  (measurable_pi_apply 0).prodMk (measurable_pi_lambda _ fun j => measurable_pi_apply (j + 1))

theorem measurable_consStream : Measurable consStream := by
  refine measurable_pi_lambda _ fun j => ?_
  cases j with
  | zero => exact measurable_fst
  | succ j => exact (measurable_pi_apply j).comp measurable_snd

theorem map_consStream : (unif.prod iidUnif).map consStream = iidUnif := by
  refine Measure.eq_infinitePi (μ := fun _ : ℕ => unif) fun s t ht => ?_
  rw [Measure.map_apply measurable_consStream (MeasurableSet.pi s.countable_toSet fun i _ => ht i)]
  classical
  have hset : consStream ⁻¹' (Set.pi s t) =
      {u | 0 ∈ s → u ∈ t 0} ×ˢ (Set.pi ((s.erase 0).image Nat.pred) (fun j => t (j + 1))) := by
    ext ⟨u, r⟩
    simp only [Set.mem_preimage, Set.mem_pi, Finset.mem_coe, Set.mem_prod, Set.mem_ofPred_eq,
      Finset.mem_image, Finset.mem_erase]
    constructor
    · intro h
      refine ⟨fun h0 => h 0 h0, ?_⟩
      rintro j ⟨i, ⟨hi0, his⟩, rfl⟩
      obtain ⟨k, rfl⟩ := Nat.exists_eq_succ_of_ne_zero hi0
      exact h (k + 1) his
    · rintro ⟨h0, h1⟩ i hi
      cases i with
      | zero => exact h0 hi
      | succ k => exact h1 k ⟨k + 1, ⟨by omega, hi⟩, rfl⟩
  rw [hset, Measure.prod_prod, iidUnif, Measure.infinitePi_pi _ (fun i _ => ht (i + 1)),
    Finset.prod_image (by
      intro a ha b hb hab
      simp only [Finset.coe_erase, Set.mem_diff, Finset.mem_coe, Set.mem_singleton_iff] at ha hb
      have := ha.2; have := hb.2
      simp only [Nat.pred_eq_sub_one] at hab; omega)]
  have hprod : ∏ x ∈ s.erase 0, unif (t (x.pred + 1)) = ∏ x ∈ s.erase 0, unif (t x) := by
    refine Finset.prod_congr rfl fun x hx => ?_
    obtain ⟨k, rfl⟩ := Nat.exists_eq_succ_of_ne_zero (Finset.ne_of_mem_erase hx)
    rfl
  rw [hprod]
  by_cases h0 : 0 ∈ s
  · rw [← Finset.mul_prod_erase s _ h0]
    congr 2
    ext u; simp [h0]
  · rw [Finset.erase_eq_of_notMem h0]
    have : {u : ℝ | 0 ∈ s → u ∈ t 0} = Set.univ := by ext u; simp [h0]
    rw [this, measure_univ, one_mul]

theorem map_uncons : iidUnif.map (fun s : ℕ → ℝ => (s 0, fun j => s (j + 1))) = unif.prod iidUnif := by
  conv_lhs => rw [← map_consStream]
  rw [Measure.map_map measurable_uncons measurable_consStream]
  exact Measure.map_id

/-- The generator that reads a stream is independent and uniform under independent uniform streams. -/
theorem streamRNG_iid : streamRNG.IID iidUnif :=
  ⟨measurable_uncons, measurable_uncons, map_uncons, map_uncons⟩

theorem RNG.IID.rand_preserving [IsProbabilityMeasure μ] {rng : RNG S ℝ} (h : rng.IID μ) :
    MeasurePreserving (fun s => (rng.rand s).2) μ μ := by
  refine ⟨measurable_snd.comp h.rand_meas, ?_⟩
  have : (fun s => (rng.rand s).2) = Prod.snd ∘ rng.rand := rfl
  rw [this, ← Measure.map_map measurable_snd h.rand_meas, h.rand_law]
  simp

theorem RNG.IID.exc_preserving [IsProbabilityMeasure μ] {rng : RNG S ℝ} (h : rng.IID μ) :
    MeasurePreserving (fun s => (rng.randExc s).2) μ μ := by
  refine ⟨measurable_snd.comp h.exc_meas, ?_⟩
  have : (fun s => (rng.randExc s).2) = Prod.snd ∘ rng.randExc := rfl
  rw [this, ← Measure.map_map measurable_snd h.exc_meas, h.exc_law]
  simp

end Chimp
