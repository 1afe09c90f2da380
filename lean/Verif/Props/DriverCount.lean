import Verif.Lemmas.DriverCount
import Verif.Props.Driver
import Verif.Props.Selection
import Mathlib.MeasureTheory.Integral.Bochner.Set

/-!
# Properties C37, C38: number of pair tests, termination
-/

namespace Chimp

section
variable {P S K : Type} [Field K] [LinearOrder K] [FloorRing K] [IsStrictOrderedRing K]

/-! ## Specification -/

/-- The no-time-counter estimate of the number of pair tests:
`F_a F_b N_a N_b dt max / (V min(F_a, F_b))`, halved for equal species; the quotient of weights is
written as the larger weight. -/
def ntcEstimate (wA wB : K) (na nb : ℕ) (dt maxSV volume : K) (same : Bool) : K :=
  max wA wB * na * nb * dt * maxSV / volume / (if same then 2 else 1)

/-- Number of tests for estimate `N` and promotion draw `u`.  A positive integer estimate loses one
test: the promotion adds nothing and the loop stops at 1. -/
def plannedTests (N u : K) : ℕ :=
  if N = ⌊N⌋ then ⌊N⌋.toNat - 1 else ⌊N⌋.toNat + if u < N - ⌊N⌋ then 1 else 0

omit [FloorRing K] [IsStrictOrderedRing K] in
theorem estimateTests_eq (wA wB : K) (hA : 0 < wA) (hB : 0 < wB) (na nb : ℕ) (dt maxSV volume : K)
    (same : Bool) :
    estimateTests wA wB na nb dt maxSV volume same = ntcEstimate wA wB na nb dt maxSV volume same := by
  have key : wA * wB * na * nb * dt * maxSV / (volume * min wA wB) =
      max wA wB * na * nb * dt * maxSV / volume := by
    by_cases hv : volume = 0
    · simp [hv]
    have hm : min wA wB * max wA wB = wA * wB := min_mul_max wA wB
    have h0 : min wA wB ≠ 0 := (lt_min hA hB).ne'
    rw [← hm]
    field_simp
  unfold estimateTests ntcEstimate
  simp only [key]
  cases same <;> simp [div_eq_mul_inv]

theorem loopCount_promote (N u : K) (hN : 0 ≤ N) (hu : 0 ≤ u) :
    loopCount (promote N u) = plannedTests N u := by
  have hf0 : 0 ≤ ⌊N⌋ := Int.floor_nonneg.2 hN
  have hfr := Int.floor_le N
  have hfl := Int.lt_floor_add_one N
  unfold promote plannedTests loopCount
  by_cases hi : N = ⌊N⌋
  · rw [if_pos hi, if_neg (by rw [← hi]; simp; exact hu)]
    have : ⌈N⌉ = ⌊N⌋ := by rw [hi]; simp
    rw [this]; omega
  · rw [if_neg hi]
    have hlt : (⌊N⌋ : K) < N := lt_of_le_of_ne hfr (fun h => hi h.symm)
    have hc : ⌈N⌉ = ⌊N⌋ + 1 := by
      rw [Int.ceil_eq_iff]
      push_cast
      exact ⟨by linarith, hfl.le⟩
    by_cases h : u < N - ⌊N⌋
    · rw [if_pos h, if_pos h]
      have : ⌈N + 1⌉ = ⌈N⌉ + 1 := by
        have := Int.ceil_add_intCast N 1; push_cast at this; exact this
      rw [this, hc]; omega
    · rw [if_neg h, if_neg h, hc]; omega

theorem loopCount_promote_le (N u : K) : (loopCount (promote N u) : ℤ) ≤ max 0 ⌈N⌉ := by
  unfold promote loopCount
  split
  · have : ⌈N + 1⌉ = ⌈N⌉ + 1 := by
      have := Int.ceil_add_intCast N 1; push_cast at this; exact this
    rw [this]; omega
  · omega

theorem tests_le_loopCount (env : DriverEnv P S K) (hv : env.rng.Valid) (fi fs : ℕ)
    (st0 st : DState P S K) (hwf : WFRanges env.nSpecies st0.range) (hlog : st0.log = [])
    (hw : ∀ p, 0 < env.weight p)
    (hrun : driver env fi fs st0 = .ok st) (A B : ℕ) (hAB : A ≤ B) (hB : B < env.nSpecies)
    (hne : env.rhs A B ≠ [])
    (N : K) (hN : N = ntcEstimate (env.weight (st0.mem (st0.range A).1))
      (env.weight (st0.mem (st0.range B).1)) ((st0.range A).2 - (st0.range A).1)
      ((st0.range B).2 - (st0.range B).1) env.dt
      ((env.rhs A B).map (fun e => e.maxSigmaV (env.maxRelVel A B))).sum env.volume (A == B)) :
    ∃ g, let k := (st.log.filter (fun e => e.A == A && e.B == B)).length
      k ≤ loopCount (promote N (env.rng.rand g).1) ∧
      (k = loopCount (promote N (env.rng.rand g).1) ∨
        (A = B ∧ (st.range A).2 - (st.range A).1 < 2) ∨
        (st.range A).2 - (st.range A).1 = 0 ∨ (st.range B).2 - (st.range B).1 = 0) := by
  simp only [driver] at hrun
  cases he : estimateAll env (speciesPairs env.nSpecies) st0 with
  | error e => rw [he] at hrun; cases hrun
  | ok r =>
    obtain ⟨ds, st1⟩ := r
    rw [he] at hrun
    simp only at hrun
    obtain ⟨⟨g1, hg1⟩, hm, hd⟩ := estimateAll_spec env _ _ _ _ he
    have hdata := estimateAll_data env _ _ _ _ he
    have hin : (A, B) ∈ ds.map Prod.fst := by rw [hm]; exact (mem_speciesPairs _ _ _).2 ⟨hAB, hB⟩
    obtain ⟨⟨ab, o⟩, hmem, hab⟩ := List.mem_map.1 hin
    simp only at hab
    subst hab
    cases o with
    | none => exact absurd ((hd _ hmem).1 rfl) hne
    | some td =>
      have hds : ∀ d ∈ ds, d.1.1 ≤ d.1.2 ∧ d.1.2 < env.nSpecies ∧
          (d.2 = none ↔ env.rhs d.1.1 d.1.2 = []) := by
        intro d hdm
        have h1 : d.1 ∈ speciesPairs env.nSpecies := by rw [← hm]; exact List.mem_map.2 ⟨d, hdm, rfl⟩
        have := (mem_speciesPairs _ _ _).1 h1
        exact ⟨this.1, this.2, hd d hdm⟩
      obtain ⟨evs, h1, -, h3⟩ := collideAll_count env hv fi fs ds st1 st (by rw [hg1]; exact hwf) hds
        (by rw [hm]; exact nodup_speciesPairs _) hrun
      obtain ⟨g, hsv, hnt⟩ := hdata A B td hmem
      refine ⟨g, ?_⟩
      have hlog' : st.log = evs := by rw [h1, hg1]; simp [hlog]
      have h4 := h3 A B td hmem
      simp only at h4
      have hsum : td.maxSV = ((env.rhs A B).map (fun e => e.maxSigmaV (env.maxRelVel A B))).sum := by
        rw [hsv, findMaxSigmaVProduct_eq, List.map_map]; rfl
      have hNe : td.numberTests = promote N (env.rng.rand g).1 := by
        rw [hnt, estimateTests_eq _ _ (hw _) (hw _), hN, hsum]; rfl
      rw [hNe, ← hlog'] at h4
      refine ⟨h4.1, h4.2.imp_right ?_⟩
      intro hc
      simp only [notEnough, Bool.or_eq_true, Bool.and_eq_true, beq_iff_eq, decide_eq_true_eq] at hc
      exact hc

/-! ## C37 -/

/-- **C37**  For every species pair with interactions, the number of tests performed in a driver run is
the planned number for the NTC estimate evaluated on the initial cell and one draw of the generator,
unless the driver ran out of particles for this pair (then it is smaller, and at the end of the run
there is still no pair left). -/
theorem C37_number_of_tests (env : DriverEnv P S K) (hv : env.rng.Valid) (fi fs : ℕ)
    (st0 st : DState P S K) (hwf : WFRanges env.nSpecies st0.range) (hlog : st0.log = [])
    (hw : ∀ p, 0 < env.weight p)
    (hrun : driver env fi fs st0 = .ok st) (A B : ℕ) (hAB : A ≤ B) (hB : B < env.nSpecies)
    (hne : env.rhs A B ≠ [])
    (N : K) (hN : N = ntcEstimate (env.weight (st0.mem (st0.range A).1))
      (env.weight (st0.mem (st0.range B).1)) ((st0.range A).2 - (st0.range A).1)
      ((st0.range B).2 - (st0.range B).1) env.dt
      ((env.rhs A B).map (fun e => e.maxSigmaV (env.maxRelVel A B))).sum env.volume (A == B))
    (hN0 : 0 ≤ N) :
    ∃ g, let k := (st.log.filter (fun e => e.A == A && e.B == B)).length
      k ≤ plannedTests N (env.rng.rand g).1 ∧
      (k = plannedTests N (env.rng.rand g).1 ∨
        (A = B ∧ (st.range A).2 - (st.range A).1 < 2) ∨
        (st.range A).2 - (st.range A).1 = 0 ∨ (st.range B).2 - (st.range B).1 = 0) := by
  obtain ⟨g, h⟩ := tests_le_loopCount env hv fi fs st0 st hwf hlog hw hrun A B hAB hB hne N hN
  rw [loopCount_promote N _ hN0 (hv.rand_mem g).1] at h
  exact ⟨g, h⟩

open MeasureTheory in
/-- **C37**  For a nonnegative estimate that is not an integer, the mean of the planned number of tests
over the promotion draw is the estimate. -/
theorem C37_mean_noninteger (N : ℝ) (hN : 0 ≤ N) (hi : N ≠ ⌊N⌋) :
    ∫ u, (plannedTests N u : ℝ) ∂unif = N := by
  have hf0 : 0 ≤ ⌊N⌋ := Int.floor_nonneg.2 hN
  have hfr : 0 ≤ N - ⌊N⌋ := sub_nonneg.2 (Int.floor_le N)
  have hfl : N - ⌊N⌋ < 1 := by linarith [Int.lt_floor_add_one N]
  have hfun : (fun u => (plannedTests N u : ℝ)) =
      fun u => (⌊N⌋ : ℝ) + (Set.Iio (N - ⌊N⌋)).indicator (fun _ => (1:ℝ)) u := by
    funext u
    have hc : ((⌊N⌋.toNat : ℕ) : ℝ) = (⌊N⌋ : ℝ) := by
      have : ((⌊N⌋.toNat : ℕ) : ℤ) = ⌊N⌋ := Int.toNat_of_nonneg hf0
      exact_mod_cast congrArg (Int.cast : ℤ → ℝ) this
    unfold plannedTests
    rw [if_neg hi, Set.indicator_apply]
    simp only [Set.mem_Iio]
    push_cast
    rw [hc]
  rw [hfun, integral_add (integrable_const _) ((integrable_const _).indicator measurableSet_Iio),
    integral_const, integral_indicator measurableSet_Iio, integral_const]
  simp only [probReal_univ, smul_eq_mul, mul_one, measureReal_restrict_apply_univ]
  have : unif.real (Set.Iio (N - ⌊N⌋)) = N - ⌊N⌋ := by
    rw [unif, measureReal_restrict_apply measurableSet_Iio]
    have : Set.Iio (N - ⌊N⌋) ∩ Set.Ico 0 1 = Set.Ico 0 (N - ⌊N⌋ : ℝ) := by
      ext x; simp only [Set.mem_inter_iff, Set.mem_Iio, Set.mem_Ico]
      constructor
      · rintro ⟨h1, h2, _⟩; exact ⟨h2, h1⟩
      · rintro ⟨h1, h2⟩; exact ⟨h2, h1, by linarith⟩
    rw [this, Measure.real, Real.volume_Ico, sub_zero, ENNReal.toReal_ofReal hfr]
  rw [this]; ring

/-- **C37** (finding)  For a positive integer estimate `n` only `n - 1` tests are planned, whatever the
draw: such cells collide too rarely. -/
theorem C37_integer_estimate_loses_one (n : ℕ) (u : K) : plannedTests (n : K) u = n - 1 := by
  simp [plannedTests]

/-- 2.5 expected tests give 2 or 3. -/
example : plannedTests (5/2 : ℚ) (1/4) = 3 ∧ plannedTests (5/2 : ℚ) (3/4) = 2 := by
  have : ⌊(5/2 : ℚ)⌋ = 2 := by norm_num [Int.floor_eq_iff]
  constructor <;> simp only [plannedTests, this] <;> norm_num <;> simp

/-! ## C38 -/

/-- The exclusive draws from any state do not stay forever in one of `n ≥ 2` equal parts of the unit
interval. -/
def RNG.Fair (rng : RNG S K) : Prop :=
  ∀ s, ∀ n : ℕ, 2 ≤ n → ∀ k : ℤ, ∃ j, ⌊(n : K) * rng.excDraw s j⌋ ≠ k

private theorem selectRandomPair_returns (rng : RNG S K) (hv : rng.Valid) (hfair : rng.Fair)
    (range : ℕ → ℕ × ℕ) (n A B : ℕ) (hwf : WFRanges n range) (hA : A < n) (hB : B < n)
    (st : DState P S K) (hst : st.range = range) (hen : notEnough st A B = false) (s : S) :
    ∃ fs r, selectRandomPair rng false fs (range A) (range B) s = some r := by
  subst hst
  simp only [notEnough, Bool.or_eq_false_iff, Bool.and_eq_false_iff, beq_eq_false_iff_ne,
    decide_eq_false_iff_not] at hen
  obtain ⟨h1, h2, h3⟩ := hen
  by_cases hAB : A = B
  · subst hAB
    have hsz : 2 ≤ rsize (st.range A) := by
      rcases h1 with h1 | h1
      · exact absurd rfl h1
      · omega
    obtain ⟨j, hj⟩ := hfair (rng.randExc s).2 (rsize (st.range A)) hsz
      ⌊(rsize (st.range A) : K) * (rng.randExc s).1⌋
    have hne : pickPos (st.range A).1 (rsize (st.range A)) (rng.excDraw (rng.randExc s).2 j) ≠
        pickPos (st.range A).1 (rsize (st.range A)) (rng.randExc s).1 := by
      unfold pickPos
      have hp1 : 0 ≤ ⌊(rsize (st.range A) : K) * rng.excDraw (rng.randExc s).2 j⌋ :=
        Int.floor_nonneg.2 (mul_nonneg (by positivity) (hv.randExc_mem _).1)
      have hp2 : 0 ≤ ⌊(rsize (st.range A) : K) * (rng.randExc s).1⌋ :=
        Int.floor_nonneg.2 (mul_nonneg (by positivity) (hv.randExc_mem _).1)
      omega
    obtain ⟨r, hr⟩ := selectB_some_of_draw rng _ _ _ j _ hne
    refine ⟨j + 1, (pickPos (st.range A).1 (rsize (st.range A)) (rng.randExc s).1, r.1, r.2), ?_⟩
    simp only [selectRandomPair, Bool.false_eq_true, if_false]
    rw [hr]
  · obtain ⟨r, hr⟩ := C35_disjoint_ranges_return rng hv (st.range A) (st.range B)
      (by unfold rsize at h2; omega) (by unfold rsize at h3; omega) (hwf.disj A hA B hB hAB) s
    exact ⟨1, r, hr⟩

private theorem testLoop_returns (env : DriverEnv P S K) (hv : env.rng.Valid) (hfair : env.rng.Fair)
    (A B : ℕ) (m : K) (hAB : A ≤ B) (hB : B < env.nSpecies) (hne : env.rhs A B ≠ []) :
    ∀ (k : ℕ) (nt : K) (st : DState P S K), loopCount nt = k → WFRanges env.nSpecies st.range →
      ∃ fs st', testLoop env fs A B m k nt st = .ok st' := by
  intro k
  induction k with
  | zero =>
    intro nt st hk _
    refine ⟨0, st, ?_⟩
    have : ¬ nt > 1 := by
      intro hc; rw [loopCount_succ hc] at hk; omega
    simp [testLoop, this]
  | succ k ih =>
    intro nt st hk hwf
    have hn : nt > 1 := by
      by_contra hc; rw [loopCount_of_le hc] at hk; omega
    cases hen : notEnough st A B with
    | true => exact ⟨0, st, by simp [testLoop, hn, hen]⟩
    | false =>
      obtain ⟨f1, r, hr⟩ := selectRandomPair_returns env.rng hv hfair st.range env.nSpecies A B hwf
        (by omega) hB st rfl hen st.gen
      have hsz : 0 < rsize (st.range A) ∧ 0 < rsize (st.range B) := by
        simp only [notEnough, Bool.or_eq_false_iff, Bool.and_eq_false_iff, beq_eq_false_iff_ne] at hen
        omega
      have hsp := selectRandomPair_spec env.rng hv f1 _ _ hsz.1 hsz.2 st.gen r.1 r.2.1 r.2.2 hr
      have hstep : TestStep env st (pairTest env A B m r.1 r.2.1 { st with gen := r.2.2 }) :=
        TestStep.mk A B m r.1 r.2.1 r.2.2 st hAB hB hne hsp.1 hsp.2.1 hsp.2.2
      obtain ⟨f2, st', h2⟩ := ih (nt - 1) _ (by rw [loopCount_succ hn] at hk; omega)
        (hstep.range_shrinks hwf).1
      refine ⟨max f1 f2, st', ?_⟩
      simp only [testLoop, if_pos hn, hen, Bool.false_eq_true, if_false]
      rw [selectRandomPair_mono env.rng false f1 (max f1 f2) _ _ _ _ (le_max_left _ _) hr]
      exact testLoop_mono env f2 (max f1 f2) A B m (le_max_right _ _) k k _ _ _ le_rfl h2

private theorem collideAll_returns (env : DriverEnv P S K) (hv : env.rng.Valid)
    (hfair : env.rng.Fair) :
    ∀ (ds : List ((ℕ × ℕ) × Option (TestData K))) (st : DState P S K),
    (∀ d ∈ ds, d.1.1 ≤ d.1.2 ∧ d.1.2 < env.nSpecies ∧
      (d.2 = none ↔ env.rhs d.1.1 d.1.2 = [])) → WFRanges env.nSpecies st.range →
    ∃ fi fs st', collideAll env fi fs ds st = .ok st' := by
  intro ds
  induction ds with
  | nil => intro st _ _; exact ⟨0, 0, st, rfl⟩
  | cons d ds ih =>
    intro st hd hwf
    obtain ⟨⟨A, B⟩, o⟩ := d
    have hd' : ∀ d ∈ ds, d.1.1 ≤ d.1.2 ∧ d.1.2 < env.nSpecies ∧
      (d.2 = none ↔ env.rhs d.1.1 d.1.2 = []) := fun d hm => hd d (List.mem_cons_of_mem _ hm)
    cases o with
    | none => exact ih st hd' hwf
    | some td =>
      have hh := hd _ List.mem_cons_self
      simp only at hh
      have hne : env.rhs A B ≠ [] := by
        intro hc; exact absurd (hh.2.2.2 hc) (by simp)
      obtain ⟨f1, st1, h1⟩ := testLoop_returns env hv hfair A B td.maxSV hh.1 hh.2.1 hne _
        td.numberTests st rfl hwf
      have hwf1 := (reach_range_shrinks
        (testLoop_reach env hv f1 A B td.maxSV hh.1 hh.2.1 hne _ _ _ _ h1) hwf).1
      obtain ⟨f2, f3, st2, h2⟩ := ih st1 hd' hwf1
      refine ⟨max (loopCount td.numberTests) f2, max f1 f3, st2, ?_⟩
      simp only [collideAll]
      rw [testLoop_mono env f1 _ A B _ (le_max_left _ _) _ _ _ _ _ (le_max_left _ _) h1]
      exact collideAll_mono env f2 _ f3 _ (le_max_right _ _) (le_max_right _ _) _ _ _ h2

/-- **C38**  With a fair generator the driver finishes on every cell in which each interacting species has
a particle, for every database and every interaction model: after finitely many draws it returns. -/
theorem C38_driver_finishes (env : DriverEnv P S K) (hv : env.rng.Valid) (hfair : env.rng.Fair)
    (st : DState P S K) (hwf : WFRanges env.nSpecies st.range)
    (hpop : ∀ A B, A ≤ B → B < env.nSpecies → env.rhs A B ≠ [] →
      (st.range A).1 < (st.range A).2 ∧ (st.range B).1 < (st.range B).2) :
    ∃ fi fs st', driver env fi fs st = .ok st' := by
  have hnub : driver env 0 0 st ≠ .error .ub := by
    intro hc
    obtain ⟨A, B, h1, h2, h3, h4⟩ := (C44_empty_species_ub_iff env 0 0 st).1 hc
    have := hpop A B h1 h2 h3
    unfold rsize at h4
    omega
  cases he : estimateAll env (speciesPairs env.nSpecies) st with
  | error e =>
    cases e with
    | ub => exact absurd (by simp [driver, he]) hnub
    | timeout => exact absurd he (estimateAll_not_timeout env _ st)
  | ok r =>
    obtain ⟨ds, st1⟩ := r
    obtain ⟨⟨g1, hg1⟩, hm, hd⟩ := estimateAll_spec env _ _ _ _ he
    have hds : ∀ d ∈ ds, d.1.1 ≤ d.1.2 ∧ d.1.2 < env.nSpecies ∧
        (d.2 = none ↔ env.rhs d.1.1 d.1.2 = []) := by
      intro d hdm
      have h1 : d.1 ∈ speciesPairs env.nSpecies := by rw [← hm]; exact List.mem_map.2 ⟨d, hdm, rfl⟩
      have := (mem_speciesPairs _ _ _).1 h1
      exact ⟨this.1, this.2, hd d hdm⟩
    obtain ⟨fi, fs, st', h⟩ := collideAll_returns env hv hfair ds st1 hds (by rw [hg1]; exact hwf)
    exact ⟨fi, fs, st', by simp [driver, he, h]⟩

/-- **C38**  Whatever the random numbers and whatever the collisions do, the number of tests of a species
pair in a run is at most the ceiling of the estimate for the pair (none if the estimate is not positive). -/
theorem C38_tests_at_most (env : DriverEnv P S K) (hv : env.rng.Valid) (fi fs : ℕ)
    (st0 st : DState P S K) (hwf : WFRanges env.nSpecies st0.range) (hlog : st0.log = [])
    (hw : ∀ p, 0 < env.weight p)
    (hrun : driver env fi fs st0 = .ok st) (A B : ℕ) (hAB : A ≤ B) (hB : B < env.nSpecies)
    (hne : env.rhs A B ≠ []) :
    ((st.log.filter (fun e => e.A == A && e.B == B)).length : ℤ) ≤
      max 0 ⌈ntcEstimate (env.weight (st0.mem (st0.range A).1))
        (env.weight (st0.mem (st0.range B).1)) ((st0.range A).2 - (st0.range A).1)
        ((st0.range B).2 - (st0.range B).1) env.dt
        ((env.rhs A B).map (fun e => e.maxSigmaV (env.maxRelVel A B))).sum env.volume (A == B)⌉ := by
  obtain ⟨g, h⟩ := tests_le_loopCount env hv fi fs st0 st hwf hlog hw hrun A B hAB hB hne _ rfl
  have h1 := loopCount_promote_le (ntcEstimate (env.weight (st0.mem (st0.range A).1))
        (env.weight (st0.mem (st0.range B).1)) ((st0.range A).2 - (st0.range A).1)
        ((st0.range B).2 - (st0.range B).1) env.dt
        ((env.rhs A B).map (fun e => e.maxSigmaV (env.maxRelVel A B))).sum env.volume (A == B))
        (env.rng.rand g).1
  have h2 : ((st.log.filter (fun e => e.A == A && e.B == B)).length : ℤ) ≤
      (loopCount (promote (ntcEstimate (env.weight (st0.mem (st0.range A).1))
        (env.weight (st0.mem (st0.range B).1)) ((st0.range A).2 - (st0.range A).1)
        ((st0.range B).2 - (st0.range B).1) env.dt
        ((env.rhs A B).map (fun e => e.maxSigmaV (env.maxRelVel A B))).sum env.volume (A == B))
        (env.rng.rand g).1) : ℕ) := by exact_mod_cast h.1
  exact h2.trans h1

omit [IsStrictOrderedRing K] in
/-- **C38**  The result of a finished run does not depend on the bounds used to cut loops off. -/
theorem C38_result_unique (env : DriverEnv P S K) (st st1 st2 : DState P S K) (fi fs fi' fs' : ℕ)
    (h1 : driver env fi fs st = .ok st1) (h2 : driver env fi' fs' st = .ok st2) : st1 = st2 := by
  have a := driver_mono env fi (max fi fi') fs (max fs fs') (le_max_left _ _) (le_max_left _ _) _ _ h1
  have b := driver_mono env fi' (max fi fi') fs' (max fs fs') (le_max_right _ _) (le_max_right _ _) _ _ h2
  rw [a] at b
  exact Except.ok.inj b

end

end Chimp
