import Verif.Lemmas.RandomDriver
import Verif.Props.DriverCount
import Verif.Props.DriverRate

/-!
# Property C76: the expected number of interactions in a run
-/

namespace Chimp

open MeasureTheory
open scoped ENNReal

variable {P S : Type}

open Classical in
/-- What the monitor is told in a run that starts with the generator in state `s` (nothing if the run does not
finish). -/
noncomputable def runLog (env : DriverEnv P S ℝ) (st : DState P S ℝ) (s : S) : List (Event P ℝ) :=
  if h : ∃ st' fi fs, driver env fi fs { st with gen := s } = .ok st' then h.choose.log else []

/-- How often the particles at `p` and `q`, as a pair of the species `A`, `B`, performed equation `j`. -/
def timesPerformed (A B p q j : ℕ) (log : List (Event P ℝ)) : ℕ :=
  (log.filter fun e => e.A == A && e.B == B && e.p == p && e.q == q && e.path.first == (j : ℤ)).length

theorem runLog_eq (env : DriverEnv P S ℝ) (st st' : DState P S ℝ) (s : S) (fi fs : ℕ)
    (h : driver env fi fs { st with gen := s } = .ok st') : runLog env st s = st'.log := by
  have hex : ∃ st' fi fs, driver env fi fs { st with gen := s } = .ok st' := ⟨st', fi, fs, h⟩
  rw [runLog, dif_pos hex]
  obtain ⟨fi', fs', h'⟩ := hex.choose_spec
  rw [C38_result_unique env _ _ _ _ _ _ _ h' h]

theorem timesPerformed_eq (A B p q j : ℕ) (log : List (Event P ℝ)) :
    timesPerformed A B p q j log = (log.map evObs).count (A, B, p, q, (j : ℤ)) := by
  induction log with
  | nil => rfl
  | cons e l ih =>
    rw [List.map_cons, List.count_cons, ← ih, timesPerformed, timesPerformed, List.filter_cons]
    by_cases h : evObs e = (A, B, p, q, (j : ℤ))
    · have h' := h
      simp only [evObs, Prod.mk.injEq] at h'
      obtain ⟨h1, h2, h3, h4, h5⟩ := h'
      simp [h1, h2, h3, h4, h5, evObs]
    · have hb : (e.A == A && e.B == B && e.p == p && e.q == q && e.path.first == (j : ℤ)) = false := by
        by_contra hc
        apply h
        simp only [Bool.not_eq_false, Bool.and_eq_true, beq_iff_eq] at hc
        obtain ⟨⟨⟨⟨h1, h2⟩, h3⟩, h4⟩, h5⟩ := hc
        simp [evObs, h1, h2, h3, h4, h5]
      rw [hb]
      simp [h]

variable [MeasurableSpace S] {μ : Measure S} [IsProbabilityMeasure μ]

/-- **C76**  With independent uniform random numbers a run out of place finishes almost surely. -/
theorem C76_finishes (env : DriverEnv P S ℝ) (hout : env.inplace = false) (hrng : env.rng.IID μ)
    (hact : ∀ A B, ActsPreserve (env.rhs A B) μ) (st : DState P S ℝ)
    (hwf : WFRanges env.nSpecies st.range)
    (hpop : ∀ A B, A ≤ B → B < env.nSpecies → env.rhs A B ≠ [] →
      (st.range A).1 < (st.range A).2 ∧ (st.range B).1 < (st.range B).2) :
    ∀ᵐ s ∂μ, ∃ fi fs st', driver env fi fs { st with gen := s } = .ok st' := by
  filter_upwards [(prog_run env hrng st.mem st.range hact).ae_finishes] with s hs
  obtain ⟨l, s', h⟩ := hs
  obtain ⟨fi, fs, st', h1, _⟩ := driver_sim env hout st hwf hpop s s' l h
  exact ⟨fi, fs, st', h1⟩

theorem lintegral_performed (env : DriverEnv P S ℝ) (hout : env.inplace = false) (hrng : env.rng.IID μ)
    (hact : ∀ A B, ActsPreserve (env.rhs A B) μ) (st : DState P S ℝ) (hlog : st.log = [])
    (hwf : WFRanges env.nSpecies st.range)
    (hpop : ∀ A B, A ≤ B → B < env.nSpecies → env.rhs A B ≠ [] →
      (st.range A).1 < (st.range A).2 ∧ (st.range B).1 < (st.range B).2)
    (A B : ℕ) (hAB : A ≤ B) (hB : B < env.nSpecies) (hne : env.rhs A B ≠ [])
    (hp : Pickable (st.range A) (st.range B)) (p q j : ℕ) :
    ∫⁻ s, (timesPerformed A B p q j (runLog env st s) : ℝ≥0∞) ∂μ =
      (∫⁻ u, (loopCount (promote (estimateOf env st.mem st.range A B) u) : ℝ≥0∞) ∂unif) *
        (law μ (Sel env.rng (st.range A) (st.range B)) (p, q) *
          law μ (Inter env (env.rhs A B) (boundOf env A B) (st.mem p) (st.mem q)) j) := by
  rw [lintegral_prog (prog_run env hrng st.mem st.range hact)
    (fun l => (l.count (A, B, p, q, (j : ℤ)) : ℝ≥0∞)),
    mean_run env hrng st.mem st.range hact A B hAB hB hne hp, law_test env hrng _ _ _ _ _ (hact A B) hp]
  intro s l s' h
  obtain ⟨fi, fs, st', h1, h2⟩ := driver_sim env hout st hwf hpop s s' l h
  rw [runLog_eq env st st' s fi fs h1, timesPerformed_eq, h2, hlog]
  simp

private theorem lintegral_count (N : ℝ) (hN : 0 ≤ N) :
    ∫⁻ u, (loopCount (promote N u) : ℝ≥0∞) ∂unif =
      ENNReal.ofReal (if N = ⌊N⌋ then max (N - 1) 0 else N) := by
  have hae : ∀ᵐ u ∂unif, (loopCount (promote N u) : ℝ≥0∞) = (plannedTests N u : ℝ≥0∞) := by
    have : ∀ᵐ u ∂unif, u ∈ Set.Ico (0 : ℝ) 1 := ae_restrict_mem measurableSet_Ico
    filter_upwards [this] with u hu
    rw [loopCount_promote N u hN hu.1]
  rw [lintegral_congr_ae hae]
  by_cases hi : N = ⌊N⌋
  · have hf : 0 ≤ ⌊N⌋ := Int.floor_nonneg.2 hN
    obtain ⟨n, hn⟩ := Int.eq_ofNat_of_zero_le hf
    have hNn : N = (n : ℝ) := by rw [hi, hn]; simp
    have hp : ∀ u : ℝ, plannedTests N u = n - 1 := fun u => by
      rw [hNn]; exact C37_integer_estimate_loses_one n u
    simp only [hp, lintegral_const, measure_univ, mul_one]
    rw [if_pos hi, hNn]
    cases n with
    | zero => simp
    | succ n =>
      have : max (((n + 1 : ℕ) : ℝ) - 1) 0 = (n : ℝ) := by
        push_cast
        rw [add_sub_cancel_right]
        exact max_eq_left (Nat.cast_nonneg n)
      rw [this]
      simp
  · rw [if_neg hi]
    have h1 := C37_mean_noninteger N hN hi
    have hm : Measurable (fun u : ℝ => (plannedTests N u : ℝ)) := by
      have : (fun u : ℝ => (plannedTests N u : ℝ)) =
          fun u => if u < N - ⌊N⌋ then ((⌊N⌋.toNat + 1 : ℕ) : ℝ) else ((⌊N⌋.toNat + 0 : ℕ) : ℝ) := by
        funext u
        unfold plannedTests
        rw [if_neg hi]
        split <;> rfl
      rw [this]
      exact Measurable.ite (measurableSet_lt measurable_id measurable_const) measurable_const measurable_const
    rw [integral_eq_lintegral_of_nonneg_ae (Filter.Eventually.of_forall fun u => Nat.cast_nonneg _)
      hm.aestronglyMeasurable] at h1
    simp only [ENNReal.ofReal_natCast] at h1
    suffices hfin : ∫⁻ u, (plannedTests N u : ℝ≥0∞) ∂unif ≠ ∞ by
      have h2 := ENNReal.ofReal_toReal hfin
      rw [h1] at h2
      exact h2.symm
    refine ne_of_lt (lt_of_le_of_lt (lintegral_mono (g := fun _ => ((⌊N⌋.toNat + 1 : ℕ) : ℝ≥0∞)) ?_) ?_)
    · intro u
      have : plannedTests N u ≤ ⌊N⌋.toNat + 1 := by
        unfold plannedTests
        rw [if_neg hi]
        split <;> omega
      show ((plannedTests N u : ℕ) : ℝ≥0∞) ≤ ((⌊N⌋.toNat + 1 : ℕ) : ℝ≥0∞)
      exact_mod_cast this
    · simp

/-- The mean number of tests for an estimate: an integer estimate loses one test (C37). -/
noncomputable def meanTests (N : ℝ) : ℝ := if N = ⌊N⌋ then max (N - 1) 0 else N

/-- **C76**  Two species, for any estimate `N` of the number of tests: on average a pair of particles performs
equation `j` as often as the mean number of tests, times the probability `1 / (n_A n_B)` of being selected, times
the fraction `σ_j(v) v / bound` of acceptances with that outcome. -/
theorem C76_two_species_tests (env : DriverEnv P S ℝ) (hout : env.inplace = false) (hrng : env.rng.IID μ)
    (hact : ∀ A B, ActsPreserve (env.rhs A B) μ) (st : DState P S ℝ) (hlog : st.log = [])
    (hwf : WFRanges env.nSpecies st.range)
    (hpop : ∀ A B, A ≤ B → B < env.nSpecies → env.rhs A B ≠ [] →
      (st.range A).1 < (st.range A).2 ∧ (st.range B).1 < (st.range B).2)
    (hw : ∀ p, 0 < env.weight p) (A B : ℕ) (hAB : A < B) (hB : B < env.nSpecies)
    (p q : ℕ) (hp : (st.range A).1 ≤ p ∧ p < (st.range A).2) (hq : (st.range B).1 ≤ q ∧ q < (st.range B).2)
    (v : ℝ) (hv : v = env.relSpeed (st.mem p) (st.mem q)) (hv0 : 0 ≤ v)
    (hnn : ∀ e ∈ env.rhs A B, 0 ≤ e.sigma v)
    (M : ℝ) (hM : M = ((env.rhs A B).map fun e => e.maxSigmaV (env.maxRelVel A B)).sum) (hM0 : 0 < M)
    (hb : ((env.rhs A B).map fun e => e.sigma v).sum * v ≤ M)
    (N : ℝ) (hN : N = ntcEstimate (env.weight (st.mem (st.range A).1)) (env.weight (st.mem (st.range B).1))
      ((st.range A).2 - (st.range A).1) ((st.range B).2 - (st.range B).1) env.dt M env.volume false)
    (hN0 : 0 ≤ N) (j : ℕ) (e : Eqn P S ℝ) (he : (env.rhs A B)[j]? = some e) :
    ∫⁻ s, (timesPerformed A B p q j (runLog env st s) : ℝ≥0∞) ∂μ =
      ENNReal.ofReal (meanTests N * (1 / (((st.range A).2 - (st.range A).1 : ℕ) *
        ((st.range B).2 - (st.range B).1 : ℕ))) * (e.sigma v * v / M)) := by
  have hA : A < env.nSpecies := by omega
  have hne : env.rhs A B ≠ [] := by intro h; rw [h] at he; simp at he
  have hbound : boundOf env A B = M := by
    rw [hM, boundOf, findMax_sum, List.map_map]; rfl
  have hd := hwf.disj A hA B hB (by omega)
  have hpick : Pickable (st.range A) (st.range B) := by
    refine ⟨by unfold rsize; omega, by unfold rsize; omega, .inr hd⟩
  have hest : estimateOf env st.mem st.range A B = N := by
    rw [estimateOf, hbound, estimateTests_eq _ _ (hw _) (hw _), hN]
    have : (A == B) = false := by simp; omega
    rw [this]; rfl
  have hI := law_inter env hrng (env.rhs A B) M (st.mem p) (st.mem q) (by rw [← hv]; exact hnn)
    (by rw [← hv]; exact hv0) hM0 (by rw [← hv]; exact hb) j e he
  rw [← hv] at hI
  rw [lintegral_performed env hout hrng hact st hlog hwf hpop A B (by omega) hB hne hpick p q j, hest,
    lintegral_count N hN0, hbound, hI, law_sel_disjoint hrng _ _ hd p q hp hq,
    ← ENNReal.ofReal_mul (by positivity), ← ENNReal.ofReal_mul]
  · unfold meanTests rsize
    rw [mul_assoc]
  · split
    · exact le_max_right _ _
    · exact hN0

/-- **C76**  Two species: on average a pair of particles performs equation `j` exactly
`max(w_A, w_B) σ_j(v) v dt / V` times, whatever bound is used, unless the estimate is an integer. -/
theorem C76_two_species (env : DriverEnv P S ℝ) (hout : env.inplace = false) (hrng : env.rng.IID μ)
    (hact : ∀ A B, ActsPreserve (env.rhs A B) μ) (st : DState P S ℝ) (hlog : st.log = [])
    (hwf : WFRanges env.nSpecies st.range)
    (hpop : ∀ A B, A ≤ B → B < env.nSpecies → env.rhs A B ≠ [] →
      (st.range A).1 < (st.range A).2 ∧ (st.range B).1 < (st.range B).2)
    (hw : ∀ p, 0 < env.weight p) (A B : ℕ) (hAB : A < B) (hB : B < env.nSpecies)
    (p q : ℕ) (hp : (st.range A).1 ≤ p ∧ p < (st.range A).2) (hq : (st.range B).1 ≤ q ∧ q < (st.range B).2)
    (v : ℝ) (hv : v = env.relSpeed (st.mem p) (st.mem q)) (hv0 : 0 ≤ v)
    (hnn : ∀ e ∈ env.rhs A B, 0 ≤ e.sigma v)
    (M : ℝ) (hM : M = ((env.rhs A B).map fun e => e.maxSigmaV (env.maxRelVel A B)).sum) (hM0 : 0 < M)
    (hb : ((env.rhs A B).map fun e => e.sigma v).sum * v ≤ M)
    (N : ℝ) (hN : N = ntcEstimate (env.weight (st.mem (st.range A).1)) (env.weight (st.mem (st.range B).1))
      ((st.range A).2 - (st.range A).1) ((st.range B).2 - (st.range B).1) env.dt M env.volume false)
    (hN0 : 0 ≤ N) (hi : N ≠ ⌊N⌋) (j : ℕ) (e : Eqn P S ℝ) (he : (env.rhs A B)[j]? = some e) :
    ∫⁻ s, (timesPerformed A B p q j (runLog env st s) : ℝ≥0∞) ∂μ =
      ENNReal.ofReal (max (env.weight (st.mem (st.range A).1)) (env.weight (st.mem (st.range B).1)) *
        e.sigma v * v * env.dt / env.volume) := by
  rw [C76_two_species_tests env hout hrng hact st hlog hwf hpop hw A B hAB hB p q hp hq v hv hv0 hnn M hM hM0
    hb N hN hN0 j e he, meanTests, if_neg hi, hN, ntcEstimate]
  congr 1
  have h1 : (((st.range A).2 - (st.range A).1 : ℕ) : ℝ) ≠ 0 := by
    have : (st.range A).2 - (st.range A).1 ≠ 0 := by omega
    exact_mod_cast this
  have h2 : (((st.range B).2 - (st.range B).1 : ℕ) : ℝ) ≠ 0 := by
    have : (st.range B).2 - (st.range B).1 ≠ 0 := by omega
    exact_mod_cast this
  have h3 : M ≠ 0 := hM0.ne'
  by_cases hV : env.volume = 0
  · simp [hV]
  simp only [Bool.false_eq_true, if_false]
  field_simp

/-- **C76**  One species with `n` particles: on average an unordered pair performs equation `j` not `w σ_j(v) v dt / V`
times but `n / (n - 1)` times as often, because the estimate counts `n² / 2` pairs instead of `n (n - 1) / 2`. -/
theorem C76_one_species (env : DriverEnv P S ℝ) (hout : env.inplace = false) (hrng : env.rng.IID μ)
    (hact : ∀ A B, ActsPreserve (env.rhs A B) μ) (st : DState P S ℝ) (hlog : st.log = [])
    (hwf : WFRanges env.nSpecies st.range)
    (hpop : ∀ A B, A ≤ B → B < env.nSpecies → env.rhs A B ≠ [] →
      (st.range A).1 < (st.range A).2 ∧ (st.range B).1 < (st.range B).2)
    (hw : ∀ p, 0 < env.weight p) (A : ℕ) (hA : A < env.nSpecies)
    (p q : ℕ) (hp : (st.range A).1 ≤ p ∧ p < (st.range A).2) (hq : (st.range A).1 ≤ q ∧ q < (st.range A).2)
    (hpq : p ≠ q)
    (v : ℝ) (hv : v = env.relSpeed (st.mem p) (st.mem q)) (hv' : v = env.relSpeed (st.mem q) (st.mem p))
    (hv0 : 0 ≤ v) (hnn : ∀ e ∈ env.rhs A A, 0 ≤ e.sigma v)
    (M : ℝ) (hM : M = ((env.rhs A A).map fun e => e.maxSigmaV (env.maxRelVel A A)).sum) (hM0 : 0 < M)
    (hb : ((env.rhs A A).map fun e => e.sigma v).sum * v ≤ M)
    (n : ℕ) (hn : n = (st.range A).2 - (st.range A).1)
    (N : ℝ) (hN : N = ntcEstimate (env.weight (st.mem (st.range A).1)) (env.weight (st.mem (st.range A).1))
      n n env.dt M env.volume true)
    (hN0 : 0 ≤ N) (hi : N ≠ ⌊N⌋) (j : ℕ) (e : Eqn P S ℝ) (he : (env.rhs A A)[j]? = some e) :
    ∫⁻ s, (timesPerformed A A p q j (runLog env st s) : ℝ≥0∞) ∂μ +
      ∫⁻ s, (timesPerformed A A q p j (runLog env st s) : ℝ≥0∞) ∂μ =
      ENNReal.ofReal (n / (n - 1) *
        (env.weight (st.mem (st.range A).1) * e.sigma v * v * env.dt / env.volume)) := by
  have hne : env.rhs A A ≠ [] := by intro h; rw [h] at he; simp at he
  have hbound : boundOf env A A = M := by
    rw [hM, boundOf, findMax_sum, List.map_map]; rfl
  have hsz : rsize (st.range A) = n := hn.symm
  have h2 : 2 ≤ n := by omega
  have h2' : (2 : ℝ) ≤ n := by exact_mod_cast h2
  have hpick : Pickable (st.range A) (st.range A) := ⟨by omega, by omega, .inl (by omega)⟩
  have hest : estimateOf env st.mem st.range A A = N := by
    rw [estimateOf, hbound, estimateTests_eq _ _ (hw _) (hw _), hN, hsz]
    simp
  have hI1 := law_inter env hrng (env.rhs A A) M (st.mem p) (st.mem q) (by rw [← hv]; exact hnn)
    (by rw [← hv]; exact hv0) hM0 (by rw [← hv]; exact hb) j e he
  have hI2 := law_inter env hrng (env.rhs A A) M (st.mem q) (st.mem p) (by rw [← hv']; exact hnn)
    (by rw [← hv']; exact hv0) hM0 (by rw [← hv']; exact hb) j e he
  rw [← hv] at hI1
  rw [← hv'] at hI2
  rw [lintegral_performed env hout hrng hact st hlog hwf hpop A A le_rfl hA hne hpick p q j,
    lintegral_performed env hout hrng hact st hlog hwf hpop A A le_rfl hA hne hpick q p j, hest,
    lintegral_count N hN0, if_neg hi, hbound, hI1, hI2, law_sel_same hrng _ p q hp hq hpq,
    law_sel_same hrng _ q p hq hp hpq.symm, ← mul_add, ← two_mul, hsz]
  have hx : (0 : ℝ) ≤ 1 / (n * (n - 1)) := by
    have : (0 : ℝ) < n - 1 := by linarith
    positivity
  rw [← ENNReal.ofReal_mul hx, show (2 : ℝ≥0∞) = ENNReal.ofReal 2 by simp, ← ENNReal.ofReal_mul (by norm_num),
    ← ENNReal.ofReal_mul hN0]
  congr 1
  rw [hN, ntcEstimate]
  have h3 : M ≠ 0 := hM0.ne'
  have h4 : (n : ℝ) ≠ 0 := by linarith
  have h5 : (n : ℝ) - 1 ≠ 0 := by linarith
  by_cases hV : env.volume = 0
  · simp [hV]
  simp only [max_self, if_true]
  field_simp

/-- **C76**  When the estimate is a positive integer `k`, one test in `k` is lost: the mean is `(k-1)/k` times
`max(w_A, w_B) σ_j(v) v dt / V`. -/
theorem C76_integer_estimate (env : DriverEnv P S ℝ) (hout : env.inplace = false) (hrng : env.rng.IID μ)
    (hact : ∀ A B, ActsPreserve (env.rhs A B) μ) (st : DState P S ℝ) (hlog : st.log = [])
    (hwf : WFRanges env.nSpecies st.range)
    (hpop : ∀ A B, A ≤ B → B < env.nSpecies → env.rhs A B ≠ [] →
      (st.range A).1 < (st.range A).2 ∧ (st.range B).1 < (st.range B).2)
    (hw : ∀ p, 0 < env.weight p) (A B : ℕ) (hAB : A < B) (hB : B < env.nSpecies)
    (p q : ℕ) (hp : (st.range A).1 ≤ p ∧ p < (st.range A).2) (hq : (st.range B).1 ≤ q ∧ q < (st.range B).2)
    (v : ℝ) (hv : v = env.relSpeed (st.mem p) (st.mem q)) (hv0 : 0 ≤ v)
    (hnn : ∀ e ∈ env.rhs A B, 0 ≤ e.sigma v)
    (M : ℝ) (hM : M = ((env.rhs A B).map fun e => e.maxSigmaV (env.maxRelVel A B)).sum) (hM0 : 0 < M)
    (hb : ((env.rhs A B).map fun e => e.sigma v).sum * v ≤ M) (k : ℕ) (hk : 0 < k)
    (hN : (k : ℝ) = ntcEstimate (env.weight (st.mem (st.range A).1)) (env.weight (st.mem (st.range B).1))
      ((st.range A).2 - (st.range A).1) ((st.range B).2 - (st.range B).1) env.dt M env.volume false)
    (j : ℕ) (e : Eqn P S ℝ) (he : (env.rhs A B)[j]? = some e) :
    ∫⁻ s, (timesPerformed A B p q j (runLog env st s) : ℝ≥0∞) ∂μ =
      ENNReal.ofReal ((k - 1) / k * (max (env.weight (st.mem (st.range A).1))
        (env.weight (st.mem (st.range B).1)) * e.sigma v * v * env.dt / env.volume)) := by
  have hk1 : (1 : ℝ) ≤ k := by exact_mod_cast hk
  rw [C76_two_species_tests env hout hrng hact st hlog hwf hpop hw A B hAB hB p q hp hq v hv hv0 hnn M hM hM0
    hb k hN (by linarith) j e he, meanTests, if_pos (by simp), max_eq_left (by linarith)]
  congr 1
  have h1 : (((st.range A).2 - (st.range A).1 : ℕ) : ℝ) ≠ 0 := by
    have : (st.range A).2 - (st.range A).1 ≠ 0 := by omega
    exact_mod_cast this
  have h2 : (((st.range B).2 - (st.range B).1 : ℕ) : ℝ) ≠ 0 := by
    have : (st.range B).2 - (st.range B).1 ≠ 0 := by omega
    exact_mod_cast this
  have h3 : M ≠ 0 := hM0.ne'
  have h4 : (k : ℝ) ≠ 0 := by linarith
  have hV : env.volume ≠ 0 := by
    intro hc
    rw [ntcEstimate, hc] at hN
    simp at hN
    omega
  have hX : max (env.weight (st.mem (st.range A).1)) (env.weight (st.mem (st.range B).1)) * env.dt /
      env.volume = k / ((((st.range A).2 - (st.range A).1 : ℕ) : ℝ) *
        (((st.range B).2 - (st.range B).1 : ℕ) : ℝ) * M) := by
    rw [hN, ntcEstimate]
    simp only [Bool.false_eq_true, if_false]
    field_simp
  have hY : max (env.weight (st.mem (st.range A).1)) (env.weight (st.mem (st.range B).1)) * e.sigma v * v *
      env.dt / env.volume = (max (env.weight (st.mem (st.range A).1)) (env.weight (st.mem (st.range B).1)) *
        env.dt / env.volume) * (e.sigma v * v) := by
    field_simp
  rw [hY, hX]
  field_simp

/-! ### The library's equations -/

section library
variable {W : Type}

/-- The interaction models of the library draw a fixed number of random numbers for given particles, so they leave
the generator distributed as before. -/
theorem library_acts {T : Tools W} {n : ℕ} {eqs : ℕ → ℕ → List (WEq W)} {c : CellConst S W}
    (hrng : c.rng.IID μ) (A B : ℕ) : ActsPreserve ((wholeEnv T n eqs c).rhs A B) μ := by
  have h1 := hrng.rand_preserving
  have h2 := h1.comp h1
  intro e he a b
  simp only [wholeEnv, List.mem_map] at he
  obtain ⟨w, -, rfl⟩ := he
  simp only [WEq.toEqn, WEq.act]
  cases w.model with
  | elastic =>
    have : (fun s => ((some (elasticAct c.rng w.mu c.inplace a b s)).getD (a, b, [], s)).2.2.2) =
        (fun s => (c.rng.rand s).2) ∘ (fun s => (c.rng.rand s).2) := by
      funext s
      simp only [Option.getD_some, elasticAct, actWith, elasticCollide]
      split <;> rfl
    rw [this]; exact h2
  | vss k =>
    have : (fun s => ((some (vssAct T.pow k c.rng w.mu c.inplace a b s)).getD (a, b, [], s)).2.2.2) =
        (fun s => (c.rng.rand s).2) ∘ (fun s => (c.rng.rand s).2) := by
      funext s
      simp only [Option.getD_some, vssAct, actWith, vssCollide]
      split <;> rfl
    rw [this]; exact h2
  | inelastic m =>
    cases m with
    | two m =>
      have : (fun s => (((m.interact2 c.rng a b s).map fun r => (a, b, r.1, r.2)).getD (a, b, [], s)).2.2.2) =
          (fun s => (c.rng.rand s).2) ∘ (fun s => (c.rng.rand s).2) ∨
        (fun s => (((m.interact2 c.rng a b s).map fun r => (a, b, r.1, r.2)).getD (a, b, [], s)).2.2.2) = id := by
        unfold InElastic.interact2
        split
        · dsimp only
          split
          · left; funext s; rfl
          · right; rfl
        · right; rfl
      simp only
      rcases this with h | h
      · rw [h]; exact h2
      · rw [h]; exact MeasurePreserving.id μ
    | three m =>
      have : (fun s => (((m.interact3 c.rng a b s).map fun r => (a, b, r.1, r.2)).getD (a, b, [], s)).2.2.2) =
          (fun s => (c.rng.rand s).2)^[5] ∨
        (fun s => (((m.interact3 c.rng a b s).map fun r => (a, b, r.1, r.2)).getD (a, b, [], s)).2.2.2) = id := by
        unfold InElastic.interact3
        split
        · dsimp only
          split
          · left; funext s; rfl
          · right; rfl
        · right; rfl
      simp only
      rcases this with h | h
      · rw [h]; exact h1.iterate 5
      · rw [h]; exact MeasurePreserving.id μ
    | unsupported => exact MeasurePreserving.id μ

/-- What the driver computes with the library's equations of a set: the maxima, the cross sections, and that the
bound holds. -/
theorem library_rates (T : Tools W) {l : List (WEq W)} {c : CellConst S W} {m v : ℝ} (hv0 : 0 ≤ v) (hvm : v ≤ m)
    (hev : ∀ x ∈ l, ∃ s, x.cs.sigma v = .ok s ∧ 0 ≤ s) (hb : ∀ x ∈ l, SigmaVBound x.cs m)
    {maxima : List ℝ} (hmax : List.Forall₂ (fun x M => ∃ vm, x.cs.maxSV m = .ok (M, vm)) l maxima) :
    maxima.sum = ((l.map (WEq.toEqn T c.rng c.inplace)).map fun e => e.maxSigmaV m).sum ∧
    ((l.map (WEq.toEqn T c.rng c.inplace)).map fun e => e.sigma v).sum * v ≤ maxima.sum ∧
    (∀ e ∈ l.map (WEq.toEqn T c.rng c.inplace), 0 ≤ e.sigma v) ∧ 0 ≤ maxima.sum ∧
    ∀ x ∈ l, ∀ σ, x.cs.sigma v = .ok σ → (x.toEqn T c.rng c.inplace).sigma v = σ := by
  have hsig : ∀ y ∈ l, ∀ s, y.cs.sigma v = .ok s → (y.toEqn T c.rng c.inplace).sigma v = s := by
    intro y _ s hs
    show (match y.cs.sigma v with | .ok c => c | .error _ => 0) = s
    rw [hs]
  have hM : ∀ y ∈ l, ∀ M vm, y.cs.maxSV m = .ok (M, vm) → (y.toEqn T c.rng c.inplace).maxSigmaV m = M := by
    intro y _ M vm hs
    show (match y.cs.maxSV m with | .ok r => r.1 | .error _ => 0) = M
    rw [hs]
  have hsum : maxima.sum = ((l.map (WEq.toEqn T c.rng c.inplace)).map fun e => e.maxSigmaV m).sum := by
    congr 1
    rw [List.map_map]
    clear hev hb hsig
    induction hmax with
    | nil => rfl
    | cons h1 _ ih =>
      obtain ⟨vm, h1⟩ := h1
      rw [List.map_cons, ← ih fun y hy => hM y (List.mem_cons_of_mem _ hy)]
      congr 1
      exact (hM _ List.mem_cons_self _ vm h1).symm
  have hbsum : ((l.map (WEq.toEqn T c.rng c.inplace)).map fun e => e.sigma v).sum * v ≤ maxima.sum := by
    rw [hsum, List.map_map, List.map_map, ← List.sum_map_mul_right]
    refine List.sum_le_sum fun y hy => ?_
    obtain ⟨s, hs, -⟩ := hev y hy
    obtain ⟨M, vm, h1, h2⟩ := hb y hy
    simp only [Function.comp]
    rw [hsig y hy s hs, hM y hy M vm h1]
    exact h2 v s hv0 hvm hs
  have hnn : ∀ e ∈ l.map (WEq.toEqn T c.rng c.inplace), 0 ≤ e.sigma v := by
    intro e he
    obtain ⟨y, hy, rfl⟩ := List.mem_map.1 he
    obtain ⟨s, hs, h0⟩ := hev y hy
    rw [hsig y hy s hs]; exact h0
  refine ⟨hsum, hbsum, hnn, le_trans (mul_nonneg (List.sum_nonneg ?_) hv0) hbsum, hsig⟩
  intro z hz
  obtain ⟨e, he, rfl⟩ := List.mem_map.1 hz
  exact hnn e he

/-- **C76**  For the library's equations: two species, cross sections that have a value at the relative speed of the
pair and meet their announced bound (C55, C58, C62, C71), an announced speed that is large enough, and an estimate
that is not an integer. On average the pair performs equation `j` exactly `max(w_A, w_B) σ_j(v) v dt / V` times. -/
theorem C76_library {T : Tools W} {n : ℕ} {eqs : ℕ → ℕ → List (WEq W)} {c : CellConst S W} (hout : c.inplace = false)
    (hrng : c.rng.IID μ) (st : DState (Part W) S ℝ) (hlog : st.log = []) (hwf : WFRanges n st.range)
    (hpop : ∀ A B, A ≤ B → B < n → eqs A B ≠ [] →
      (st.range A).1 < (st.range A).2 ∧ (st.range B).1 < (st.range B).2)
    (hw : ∀ p, 0 < c.weight p) (A B : ℕ) (hAB : A < B) (hB : B < n)
    (p q : ℕ) (hp : (st.range A).1 ≤ p ∧ p < (st.range A).2) (hq : (st.range B).1 ≤ q ∧ q < (st.range B).2)
    (v : ℝ) (hv : v = ((st.mem p).vel - (st.mem q).vel).abs) (hvm : v ≤ c.maxRelVel A B)
    (hev : ∀ x ∈ eqs A B, ∃ s, x.cs.sigma v = .ok s ∧ 0 ≤ s)
    (hb : ∀ x ∈ eqs A B, SigmaVBound x.cs (c.maxRelVel A B))
    (maxima : List ℝ) (hmax : List.Forall₂ (fun x M => ∃ vm, x.cs.maxSV (c.maxRelVel A B) = .ok (M, vm))
      (eqs A B) maxima)
    (N : ℝ) (hN : N = ntcEstimate (c.weight (st.mem (st.range A).1)) (c.weight (st.mem (st.range B).1))
      ((st.range A).2 - (st.range A).1) ((st.range B).2 - (st.range B).1) c.dt maxima.sum c.volume false)
    (hN0 : 0 ≤ N) (hi : N ≠ ⌊N⌋) (j : ℕ) (x : WEq W) (hx : (eqs A B)[j]? = some x) (σ : ℝ)
    (hσ : x.cs.sigma v = .ok σ) :
    ∫⁻ s, (timesPerformed A B p q j (runLog (wholeEnv T n eqs c) st s) : ℝ≥0∞) ∂μ =
      ENNReal.ofReal (max (c.weight (st.mem (st.range A).1)) (c.weight (st.mem (st.range B).1)) *
        σ * v * c.dt / c.volume) := by
  have hv0 : 0 ≤ v := by rw [hv]; exact Real.sqrt_nonneg _
  obtain ⟨hsum, hbsum, hnn, h0, hsig⟩ := library_rates T (c := c) hv0 hvm hev hb hmax
  have hM0 : 0 < maxima.sum := by
    refine lt_of_le_of_ne h0 fun hc => hi ?_
    rw [hN, ← hc, ntcEstimate]
    simp
  have key := C76_two_species (wholeEnv T n eqs c) hout hrng (library_acts hrng) st hlog hwf
    (fun A B h1 h2 h3 => hpop A B h1 h2 fun hc => h3 (by simp [wholeEnv, hc])) hw A B hAB hB p q hp hq v hv hv0
    hnn maxima.sum hsum hM0 hbsum N hN hN0 hi j (x.toEqn T c.rng c.inplace)
    (by simp only [wholeEnv, List.getElem?_map, hx]; rfl)
  rw [hsig x (List.mem_of_getElem? hx) σ hσ] at key
  exact key

/-- **C76**  The same for two particles of one species that has `n` particles: `n/(n-1)` times `w σ_j(v) v dt / V`. -/
theorem C76_library_one {T : Tools W} {n : ℕ} {eqs : ℕ → ℕ → List (WEq W)} {c : CellConst S W} (hout : c.inplace = false)
    (hrng : c.rng.IID μ) (st : DState (Part W) S ℝ) (hlog : st.log = []) (hwf : WFRanges n st.range)
    (hpop : ∀ A B, A ≤ B → B < n → eqs A B ≠ [] →
      (st.range A).1 < (st.range A).2 ∧ (st.range B).1 < (st.range B).2)
    (hw : ∀ p, 0 < c.weight p) (A : ℕ) (hA : A < n)
    (p q : ℕ) (hp : (st.range A).1 ≤ p ∧ p < (st.range A).2) (hq : (st.range A).1 ≤ q ∧ q < (st.range A).2)
    (hpq : p ≠ q)
    (v : ℝ) (hv : v = ((st.mem p).vel - (st.mem q).vel).abs) (hvm : v ≤ c.maxRelVel A A)
    (hev : ∀ x ∈ eqs A A, ∃ s, x.cs.sigma v = .ok s ∧ 0 ≤ s)
    (hb : ∀ x ∈ eqs A A, SigmaVBound x.cs (c.maxRelVel A A))
    (maxima : List ℝ) (hmax : List.Forall₂ (fun x M => ∃ vm, x.cs.maxSV (c.maxRelVel A A) = .ok (M, vm))
      (eqs A A) maxima)
    (k : ℕ) (hk : k = (st.range A).2 - (st.range A).1)
    (N : ℝ) (hN : N = ntcEstimate (c.weight (st.mem (st.range A).1)) (c.weight (st.mem (st.range A).1))
      k k c.dt maxima.sum c.volume true)
    (hN0 : 0 ≤ N) (hi : N ≠ ⌊N⌋) (j : ℕ) (x : WEq W) (hx : (eqs A A)[j]? = some x) (σ : ℝ)
    (hσ : x.cs.sigma v = .ok σ) :
    ∫⁻ s, (timesPerformed A A p q j (runLog (wholeEnv T n eqs c) st s) : ℝ≥0∞) ∂μ +
      ∫⁻ s, (timesPerformed A A q p j (runLog (wholeEnv T n eqs c) st s) : ℝ≥0∞) ∂μ =
      ENNReal.ofReal (k / (k - 1) * (c.weight (st.mem (st.range A).1) * σ * v * c.dt / c.volume)) := by
  have hv0 : 0 ≤ v := by rw [hv]; exact Real.sqrt_nonneg _
  obtain ⟨hsum, hbsum, hnn, h0, hsig⟩ := library_rates T (c := c) hv0 hvm hev hb hmax
  have hM0 : 0 < maxima.sum := by
    refine lt_of_le_of_ne h0 fun hc => hi ?_
    rw [hN, ← hc, ntcEstimate]
    simp
  have hv' : v = ((st.mem q).vel - (st.mem p).vel).abs := by
    rw [hv]
    show Real.sqrt (((st.mem p).vel.x - (st.mem q).vel.x) ^ 2 + ((st.mem p).vel.y - (st.mem q).vel.y) ^ 2 +
        ((st.mem p).vel.z - (st.mem q).vel.z) ^ 2) =
      Real.sqrt (((st.mem q).vel.x - (st.mem p).vel.x) ^ 2 + ((st.mem q).vel.y - (st.mem p).vel.y) ^ 2 +
        ((st.mem q).vel.z - (st.mem p).vel.z) ^ 2)
    congr 1
    ring
  have key := C76_one_species (wholeEnv T n eqs c) hout hrng (library_acts hrng) st hlog hwf
    (fun A B h1 h2 h3 => hpop A B h1 h2 fun hc => h3 (by simp [wholeEnv, hc])) hw A hA p q hp hq hpq v hv hv' hv0
    hnn maxima.sum hsum hM0 hbsum k hk N hN hN0 hi j (x.toEqn T c.rng c.inplace)
    (by simp only [wholeEnv, List.getElem?_map, hx]; rfl)
  rw [hsig x (List.mem_of_getElem? hx) σ hσ] at key
  exact key

end library

/-! ### Examples -/

namespace ExpectedExample

/-- Particles are numbers, the relative speed is the distance; one cross section of 1 without effect. -/
def e1 : Eqn ℝ (ℕ → ℝ) ℝ := ⟨fun _ => 1, fun v => v, fun a b s => (a, b, [], s)⟩

noncomputable def env (dt : ℝ) : DriverEnv ℝ (ℕ → ℝ) ℝ where
  nSpecies := 2
  rhs A B := if A = 0 ∧ B ≤ 1 then [e1] else []
  maxRelVel _ _ := 4
  volume := 1
  dt := dt
  weight _ := 1
  species _ := 0
  relSpeed a b := |a - b|
  inplace := false
  rng := streamRNG

/-- Two particles of the first species at positions 0 and 1, one of the second at position 2. -/
def cell : DState ℝ (ℕ → ℝ) ℝ where
  mem k := if k = 0 then 0 else if k = 1 then 1 else 3
  range A := if A = 0 then (0, 2) else if A = 1 then (2, 3) else (3, 3)
  results := []
  erased := []
  log := []
  gen := fun _ => 0

theorem acts (dt : ℝ) (A B : ℕ) : ActsPreserve ((env dt).rhs A B) iidUnif := by
  intro e he a b
  simp only [env] at he
  split at he
  · rw [List.mem_singleton.1 he]; exact MeasurePreserving.id _
  · cases he

theorem cell_wf : WFRanges 2 cell.range := by
  constructor
  · intro A hA
    interval_cases A <;> simp [cell]
  · intro A hA B hB hAB z hz
    interval_cases A <;> interval_cases B <;> simp [cell] at hAB hz <;> omega

theorem cell_pop (dt : ℝ) (A B : ℕ) (hAB : A ≤ B) (hB : B < (env dt).nSpecies) (_ : (env dt).rhs A B ≠ []) :
    (cell.range A).1 < (cell.range A).2 ∧ (cell.range B).1 < (cell.range B).2 := by
  have : B < 2 := hB
  interval_cases B <;> interval_cases A <;> simp [cell]

/-- With `dt = 1/5` the estimate is 8/5; the pair at distance 2 interacts 2/5 times on average. -/
example : ∫⁻ s, (timesPerformed 0 1 1 2 0 (runLog (env (1/5)) cell s) : ℝ≥0∞) ∂iidUnif = ENNReal.ofReal (2/5) := by
  rw [C76_two_species (env (1/5)) rfl streamRNG_iid (acts _) cell rfl cell_wf (cell_pop _) (fun _ => one_pos)
    0 1 (by norm_num) (by decide) 1 2 (by simp [cell]) (by simp [cell]) 2 (by simp [env, cell]; norm_num) (by norm_num)
    (by simp [env, e1]) 4 (by simp [env, e1]) (by norm_num) (by simp [env, e1]; norm_num) (8/5)
    (by simp [env, cell, ntcEstimate]; norm_num) (by norm_num) (by norm_num) 0 e1 (by simp [env])]
  congr 1
  simp only [env, e1, max_self]
  norm_num

/-- With `dt = 3/8` the estimate is 3 and a third of the interactions is lost. -/
example : ∫⁻ s, (timesPerformed 0 1 1 2 0 (runLog (env (3/8)) cell s) : ℝ≥0∞) ∂iidUnif =
    ENNReal.ofReal (2/3 * (3/4)) := by
  rw [C76_integer_estimate (env (3/8)) rfl streamRNG_iid (acts _) cell rfl cell_wf (cell_pop _) (fun _ => one_pos)
    0 1 (by norm_num) (by decide) 1 2 (by simp [cell]) (by simp [cell]) 2 (by simp [env, cell]; norm_num) (by norm_num)
    (by simp [env, e1]) 4 (by simp [env, e1]) (by norm_num) (by simp [env, e1]; norm_num) 3 (by norm_num)
    (by simp [env, cell, ntcEstimate]; norm_num) 0 e1 (by simp [env])]
  congr 1
  simp only [env, e1, max_self]
  norm_num

/-- The two particles of the first species, at distance 1: the pair interacts 2/5 times on average, twice as often as
`w σ v dt / V = 1/5`. -/
example : ∫⁻ s, (timesPerformed 0 0 0 1 0 (runLog (env (1/5)) cell s) : ℝ≥0∞) ∂iidUnif +
    ∫⁻ s, (timesPerformed 0 0 1 0 0 (runLog (env (1/5)) cell s) : ℝ≥0∞) ∂iidUnif = ENNReal.ofReal (2/5) := by
  rw [C76_one_species (env (1/5)) rfl streamRNG_iid (acts _) cell rfl cell_wf (cell_pop _) (fun _ => one_pos)
    0 (by decide) 0 1 (by simp [cell]) (by simp [cell]) (by norm_num) 1 (by simp [env, cell]) (by simp [env, cell])
    (by norm_num) (by simp [env, e1]) 4 (by simp [env, e1]) (by norm_num) (by simp [env, e1]) 2
    (by simp [cell]) (8/5) (by simp [env, ntcEstimate]; norm_num) (by norm_num) (by norm_num) 0 e1
    (by simp [env])]
  congr 1
  simp only [env, e1, max_self]
  norm_num

example (dt : ℝ) : ∀ᵐ s ∂iidUnif, ∃ fi fs st', driver (env dt) fi fs { cell with gen := s } = .ok st' :=
  C76_finishes (env dt) rfl streamRNG_iid (acts dt) cell cell_wf (cell_pop dt)

/-- A cell for `WholeExample.start` with independent uniform random numbers. -/
noncomputable def wcell : CellConst (ℕ → ℝ) Unit := ⟨fun _ _ => 5, 1, 1 / 10, fun _ => 1, false, streamRNG⟩

def wstart : DState (Part Unit) (ℕ → ℝ) ℝ where
  mem := WholeExample.start.mem
  range := WholeExample.start.range
  results := []
  erased := []
  log := []
  gen := fun _ => 0

/-- Elastic scattering of an electron of speed 5 by a hydrogen atom at rest, cross section 3: 3/2 on average. -/
example (T : Tools Unit) : ∃ w : WEq Unit,
    completeEq T exReal (RateExample.scatter "elastic") { cs := .constant 3 none } = .ok w ∧
    ∫⁻ s, (timesPerformed 0 1 0 1 0
      (runLog (wholeEnv T 2 (fun A B => if A = 0 ∧ B = 1 then [w] else []) wcell) wstart s) : ℝ≥0∞) ∂iidUnif =
      ENNReal.ofReal (3/2) := by
  refine ⟨_, RateExample.completeEq_of T (a := ⟨"e", 1, -1⟩) (b := ⟨"H", 2000, 0⟩) rfl rfl rfl
    (RateExample.plain_load T) rfl, ?_⟩
  have hspeed : ∀ v : ℝ, 0 ≤ v → v ≥ Real.sqrt (0 / (1 / 2 * (1 * 2000 / (1 + 2000)))) := by
    intro v hv; rw [zero_div, Real.sqrt_zero]; exact hv
  have hvel : ((wstart.mem 0).vel - (wstart.mem 1).vel).abs = 5 := by
    show Real.sqrt ((5 - 0) ^ 2 + (0 - 0) ^ 2 + (0 - 0) ^ 2) = (5 : ℝ)
    rw [show ((5 - 0) ^ 2 + (0 - 0) ^ 2 + (0 - 0) ^ 2 : ℝ) = 5 ^ 2 by norm_num]
    exact Real.sqrt_sq (by norm_num)
  have hs5 : RateExample.plain.sigma 5 = .ok 3 := by
    show Except.ok (if (5 : ℝ) ≥ _ then (3 : ℝ) else 0) = _
    rw [if_pos (hspeed 5 (by norm_num))]
  have hm5 : RateExample.plain.maxSV 5 = .ok (15, 5) := by
    show Except.ok (if (5 : ℝ) ≥ _ then ((3 : ℝ) * 5, (5 : ℝ)) else (0, 0)) = _
    rw [if_pos (hspeed 5 (by norm_num))]; norm_num
  rw [C76_library (c := wcell) rfl streamRNG_iid wstart rfl (n := 2) ?_ ?_ (fun _ => one_pos) 0 1 (by norm_num) (by norm_num)
    0 1 (by simp [wstart, WholeExample.start]) (by simp [wstart, WholeExample.start]) 5 hvel.symm
    (by simp [wcell]) ?_ ?_ [15] ?_ (3/2) (by simp [wcell, wstart, WholeExample.start, ntcEstimate]; norm_num) (by norm_num)
    (by norm_num) 0 _ (by simp; rfl) 3 hs5]
  · congr 1
    simp only [wcell, max_self]
    norm_num
  · constructor
    · intro A hA
      interval_cases A <;> simp [wstart, WholeExample.start]
    · intro A hA B hB hAB z hz
      interval_cases A <;> interval_cases B <;> simp [wstart, WholeExample.start] at hAB hz <;> omega
  · intro A B _ hB _
    interval_cases B <;> interval_cases A <;> simp [wstart, WholeExample.start]
  · intro x hx
    rw [if_pos ⟨rfl, rfl⟩, List.mem_singleton] at hx
    subst hx
    exact ⟨3, hs5, by norm_num⟩
  · intro x hx
    rw [if_pos ⟨rfl, rfl⟩, List.mem_singleton] at hx
    subst hx
    refine ⟨15, 5, hm5, fun v s h0 hv hs => ?_⟩
    have hs' : (if v ≥ Real.sqrt (0 / (1 / 2 * (1 * 2000 / (1 + 2000)))) then (3 : ℝ) else 0) = s :=
      Except.ok.inj hs
    rw [if_pos (hspeed v h0)] at hs'
    have : v ≤ 5 := hv
    rw [← hs']; linarith
  · rw [if_pos ⟨rfl, rfl⟩]
    exact .cons ⟨5, hm5⟩ .nil

end ExpectedExample

end Chimp
