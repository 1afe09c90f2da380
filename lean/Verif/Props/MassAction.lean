import Verif.Lemmas.CrossMeasurable
import Verif.Props.ExpectedRate
import Verif.Props.ThermalRate

/-!
# C111: the law of mass action

C76 gives the mean number of interactions of two given particles.  Here the interactions of a whole cell are counted,
and the velocities of its particles are random as well.
-/

namespace Chimp
open MeasureTheory ProbabilityTheory
open scoped ENNReal

variable {S W : Type}

/-- How often equation `j` of the species `A`, `B` was performed. -/
def timesDone {P : Type} (A B j : ℕ) (log : List (Event P ℝ)) : ℕ :=
  (log.filter fun e => e.A == A && e.B == B && e.path.first == (j : ℤ)).length

/-- The positions of a range. -/
def positions (r : ℕ × ℕ) : Finset ℕ := Finset.Ico r.1 r.2

/-- What a step needs for the species `A`, `B`: the announced relative speed is not exceeded, the cross sections have
values, `findMaxSigmaV` is a bound, and the estimate of the number of tests is not an integer. -/
structure FairStep (eqs : ℕ → ℕ → List (WEq W)) (c : CellConst S W) (st : DState (Part W) S ℝ) (A B : ℕ) : Prop where
  speeds : ∀ p ∈ positions (st.range A), ∀ q ∈ positions (st.range B), p ≠ q →
    ((st.mem p).vel - (st.mem q).vel).abs ≤ c.maxRelVel A B
  values : ∀ p ∈ positions (st.range A), ∀ q ∈ positions (st.range B), p ≠ q →
    ∀ x ∈ eqs A B, ∃ s, x.cs.sigma ((st.mem p).vel - (st.mem q).vel).abs = .ok s ∧ 0 ≤ s
  bounds : ∀ x ∈ eqs A B, SigmaVBound x.cs (c.maxRelVel A B)
  estimate : ∃ maxima : List ℝ, List.Forall₂ (fun x M => ∃ vm, x.cs.maxSV (c.maxRelVel A B) = .ok (M, vm)) (eqs A B) maxima ∧
    ∃ N, N = ntcEstimate (c.weight (st.mem (st.range A).1)) (c.weight (st.mem (st.range B).1))
      (positions (st.range A)).card (positions (st.range B)).card c.dt maxima.sum c.volume (A == B) ∧
      0 ≤ N ∧ N ≠ ⌊N⌋

/-- `σ(v) v` for the particles at `p` and `q`. -/
noncomputable def rateAt (x : WEq W) (mem : ℕ → Part W) (p q : ℕ) : ℝ :=
  okVal (x.cs.sigma ((mem p).vel - (mem q).vel).abs) * ((mem p).vel - (mem q).vel).abs

/-! ### Counting -/

section counting
variable {P : Type} [MeasurableSpace S] {μ : Measure S} [IsProbabilityMeasure μ]

private theorem done_tsum (A B j : ℕ) (log : List (Event P ℝ)) :
    (timesDone A B j log : ℝ≥0∞) = ∑' x : ℕ × ℕ, (timesPerformed A B x.1 x.2 j log : ℝ≥0∞) := by
  induction log with
  | nil => simp [timesDone, timesPerformed]
  | cons e l ih =>
    by_cases hc : e.A = A ∧ e.B = B ∧ e.path.first = (j : ℤ)
    · obtain ⟨h1, h2, h3⟩ := hc
      have hstep : ∀ x : ℕ × ℕ, (timesPerformed A B x.1 x.2 j (e :: l) : ℝ≥0∞) =
          timesPerformed A B x.1 x.2 j l + if x = (e.p, e.q) then 1 else 0 := by
        rintro ⟨p, q⟩
        simp only [timesPerformed, List.filter_cons, Prod.mk.injEq]
        simp only [eq_comm (a := p), eq_comm (a := q)]
        by_cases h4 : e.p = p <;> by_cases h5 : e.q = q <;> simp [h1, h2, h3, h4, h5]
      have hdone : timesDone A B j (e :: l) = timesDone A B j l + 1 := by
        simp [timesDone, h1, h2, h3]
      rw [hdone]
      push_cast
      simp only [hstep]
      rw [ENNReal.tsum_add, ← ih, tsum_ite_eq]
    · have hstep : ∀ p q, timesPerformed A B p q j (e :: l) = timesPerformed A B p q j l := by
        intro p q
        simp only [timesPerformed, List.filter_cons]
        rw [if_neg]
        intro hb
        simp only [Bool.and_eq_true, beq_iff_eq] at hb
        exact hc ⟨hb.1.1.1.1, hb.1.1.1.2, hb.2⟩
      have hdone : timesDone A B j (e :: l) = timesDone A B j l := by
        simp only [timesDone, List.filter_cons]
        rw [if_neg]
        intro hb
        simp only [Bool.and_eq_true, beq_iff_eq] at hb
        exact hc ⟨hb.1.1, hb.1.2, hb.2⟩
      rw [hdone, ih]
      simp only [hstep]

/-- The mean number of performances is the sum of the means over the pairs. -/
private theorem lintegral_pairs (env : DriverEnv P S ℝ) (hout : env.inplace = false) (hrng : env.rng.IID μ)
    (hact : ∀ A B, ActsPreserve (env.rhs A B) μ) (st : DState P S ℝ) (hlog : st.log = [])
    (hwf : WFRanges env.nSpecies st.range)
    (hpop : ∀ A B, A ≤ B → B < env.nSpecies → env.rhs A B ≠ [] →
      (st.range A).1 < (st.range A).2 ∧ (st.range B).1 < (st.range B).2)
    (A B : ℕ) (hAB : A ≤ B) (hB : B < env.nSpecies) (hne : env.rhs A B ≠ [])
    (hp : Pickable (st.range A) (st.range B)) (j : ℕ) :
    ∫⁻ s, (timesDone A B j (runLog env st s) : ℝ≥0∞) ∂μ =
      ∑ p ∈ positions (st.range A), ∑ q ∈ (positions (st.range B)).erase p,
        ∫⁻ s, (timesPerformed A B p q j (runLog env st s) : ℝ≥0∞) ∂μ := by
  have hprog := prog_run env hrng st.mem st.range hact
  have hone : ∀ x : ℕ × ℕ, ∫⁻ s, (timesPerformed A B x.1 x.2 j (runLog env st s) : ℝ≥0∞) ∂μ =
      mean μ (Run env st.mem st.range) (fun l => (l.count (A, B, x.1, x.2, (j : ℤ)) : ℝ≥0∞)) := by
    intro x
    refine lintegral_prog hprog _ _ fun s l s' h => ?_
    obtain ⟨fi, fs, st', h1, h2⟩ := driver_sim env hout st hwf hpop s s' l h
    rw [runLog_eq env st st' s fi fs h1, timesPerformed_eq, h2, hlog]
    simp
  have hall : ∫⁻ s, (timesDone A B j (runLog env st s) : ℝ≥0∞) ∂μ =
      ∑' x : ℕ × ℕ, ∫⁻ s, (timesPerformed A B x.1 x.2 j (runLog env st s) : ℝ≥0∞) ∂μ := by
    simp only [hone, mean]
    rw [ENNReal.tsum_comm]
    simp only [ENNReal.tsum_mul_left]
    refine lintegral_prog hprog _ _ fun s l s' h => ?_
    obtain ⟨fi, fs, st', h1, h2⟩ := driver_sim env hout st hwf hpop s s' l h
    rw [runLog_eq env st st' s fi fs h1, done_tsum]
    simp only [timesPerformed_eq, h2, hlog, List.map_nil, List.nil_append]
  have hzero : ∀ p q, ¬ (p ∈ positions (st.range A) ∧ q ∈ positions (st.range B) ∧ q ≠ p) →
      ∫⁻ s, (timesPerformed A B p q j (runLog env st s) : ℝ≥0∞) ∂μ = 0 := by
    intro p q hn
    have hsel : law μ (Sel env.rng (st.range A) (st.range B)) (p, q) = 0 := by
      rw [law_sel hrng]
      by_cases hpq : q = p
      · simp [hpq]
      by_cases hpA : p ∈ positions (st.range A)
      · have hq : q ∉ positions (st.range B) := fun hq => hn ⟨hpA, hq, hpq⟩
        rw [unif_pick_out _ _ q hp.2.1 fun hc => hq (Finset.mem_Ico.2 ⟨hc.1, by unfold rsize at hc; omega⟩)]
        simp
      · rw [unif_pick_out _ _ p hp.1 fun hc => hpA (Finset.mem_Ico.2 ⟨hc.1, by unfold rsize at hc; omega⟩)]
        simp
    rw [lintegral_performed env hout hrng hact st hlog hwf hpop A B hAB hB hne hp p q j, hsel]
    simp
  rw [hall, ENNReal.tsum_prod (f := fun p q => ∫⁻ s, (timesPerformed A B p q j (runLog env st s) : ℝ≥0∞) ∂μ),
    tsum_eq_sum (s := positions (st.range A)) fun p hpn => by
      refine ENNReal.tsum_eq_zero.2 fun q => hzero p q fun h => hpn h.1]
  refine Finset.sum_congr rfl fun p _ => ?_
  exact tsum_eq_sum fun q hq => hzero p q fun h => hq (Finset.mem_erase.2 ⟨h.2.2, h.2.1⟩)

end counting

/-! ### A cell with given velocities -/

variable [MeasurableSpace S] {μ : Measure S} [IsProbabilityMeasure μ]

/-- **C111**  Two species in a cell with given velocities: the mean number of times that equation `j` is performed in
a step is `max(w_A, w_B) dt / V` times the sum of `σ_j(v) v` over all pairs. -/
theorem C111_pairs {T : Tools W} {n : ℕ} {eqs : ℕ → ℕ → List (WEq W)} {c : CellConst S W} (hout : c.inplace = false)
    (hrng : c.rng.IID μ) (st : DState (Part W) S ℝ) (hlog : st.log = []) (hwf : WFRanges n st.range)
    (hpop : ∀ A B, A ≤ B → B < n → eqs A B ≠ [] →
      (st.range A).1 < (st.range A).2 ∧ (st.range B).1 < (st.range B).2)
    (hw : ∀ p, 0 < c.weight p) (A B : ℕ) (hAB : A < B) (hB : B < n) (hf : FairStep eqs c st A B)
    (hdt : 0 ≤ c.dt / c.volume) (j : ℕ) (x : WEq W) (hx : (eqs A B)[j]? = some x) :
    ∫⁻ s, (timesDone A B j (runLog (wholeEnv T n eqs c) st s) : ℝ≥0∞) ∂μ =
      ENNReal.ofReal (max (c.weight (st.mem (st.range A).1)) (c.weight (st.mem (st.range B).1)) * (c.dt / c.volume) *
        ∑ p ∈ positions (st.range A), ∑ q ∈ positions (st.range B), rateAt x st.mem p q) := by
  have hxm := List.mem_of_getElem? hx
  have hne : eqs A B ≠ [] := by intro h; rw [h] at hx; simp at hx
  have hA : A < n := by omega
  have hd := hwf.disj A hA B hB (by omega)
  obtain ⟨hpA, hpB⟩ := hpop A B hAB.le hB hne
  have herase : ∀ p ∈ positions (st.range A), (positions (st.range B)).erase p = positions (st.range B) := by
    intro p hp
    refine Finset.erase_eq_of_notMem fun hq => hd p ⟨Finset.mem_Ico.1 hp, Finset.mem_Ico.1 hq⟩
  have hneq : ∀ p ∈ positions (st.range A), ∀ q ∈ positions (st.range B), p ≠ q := by
    rintro p hp q hq rfl
    exact hd p ⟨Finset.mem_Ico.1 hp, Finset.mem_Ico.1 hq⟩
  have hrate : ∀ p ∈ positions (st.range A), ∀ q ∈ positions (st.range B), 0 ≤ rateAt x st.mem p q := by
    intro p hp q hq
    obtain ⟨s, hs, h0⟩ := hf.values p hp q hq (hneq p hp q hq) x hxm
    unfold rateAt
    rw [hs]
    exact mul_nonneg h0 (Real.sqrt_nonneg _)
  have hC : 0 ≤ max (c.weight (st.mem (st.range A).1)) (c.weight (st.mem (st.range B).1)) * (c.dt / c.volume) :=
    mul_nonneg (le_max_of_le_left (hw _).le) hdt
  obtain ⟨maxima, hmax, N, hN, hN0, hi⟩ := hf.estimate
  have hone : ∀ p ∈ positions (st.range A), ∀ q ∈ positions (st.range B),
      ∫⁻ s, (timesPerformed A B p q j (runLog (wholeEnv T n eqs c) st s) : ℝ≥0∞) ∂μ =
        ENNReal.ofReal (max (c.weight (st.mem (st.range A).1)) (c.weight (st.mem (st.range B).1)) *
          (c.dt / c.volume) * rateAt x st.mem p q) := by
    intro p hp q hq
    obtain ⟨s, hs, -⟩ := hf.values p hp q hq (hneq p hp q hq) x hxm
    rw [C76_library hout hrng st hlog hwf hpop hw A B hAB hB p q (Finset.mem_Ico.1 hp) (Finset.mem_Ico.1 hq) _ rfl
      (hf.speeds p hp q hq (hneq p hp q hq)) (hf.values p hp q hq (hneq p hp q hq)) hf.bounds maxima hmax N
      (by rw [hN, show (A == B) = false by simp; omega]; simp [positions]) hN0 hi j x hx s hs]
    congr 1
    unfold rateAt
    rw [hs]
    simp only [okVal]
    ring
  rw [lintegral_pairs (wholeEnv T n eqs c) hout hrng (library_acts hrng) st hlog hwf
    (fun A B h1 h2 h3 => hpop A B h1 h2 fun hc => h3 (by simp [wholeEnv, hc])) A B hAB.le hB
    (by simp [wholeEnv, hne]) ⟨by unfold rsize; omega, by unfold rsize; omega, .inr hd⟩ j,
    Finset.mul_sum, ENNReal.ofReal_sum_of_nonneg fun p hp => mul_nonneg hC (Finset.sum_nonneg (hrate p hp))]
  refine Finset.sum_congr rfl fun p hp => ?_
  rw [herase p hp, Finset.mul_sum, ENNReal.ofReal_sum_of_nonneg fun q hq => mul_nonneg hC (hrate p hp q hq)]
  exact Finset.sum_congr rfl fun q hq => hone p hp q hq

private theorem rateAt_comm (x : WEq W) (mem : ℕ → Part W) (p q : ℕ) : rateAt x mem p q = rateAt x mem q p := by
  have : ((mem p).vel - (mem q).vel).abs = ((mem q).vel - (mem p).vel).abs := by
    show Real.sqrt (((mem p).vel.x - (mem q).vel.x) ^ 2 + ((mem p).vel.y - (mem q).vel.y) ^ 2 +
        ((mem p).vel.z - (mem q).vel.z) ^ 2) =
      Real.sqrt (((mem q).vel.x - (mem p).vel.x) ^ 2 + ((mem q).vel.y - (mem p).vel.y) ^ 2 +
        ((mem q).vel.z - (mem p).vel.z) ^ 2)
    congr 1
    ring
  unfold rateAt
  rw [this]

/-- **C111**  One species with `k ≥ 2` particles: the mean number of times that equation `j` is performed in a step is
`k / (k - 1) w dt / V` times the sum of `σ_j(v) v` over all unordered pairs, which is half the sum over the ordered
ones. -/
theorem C111_pairs_one {T : Tools W} {n : ℕ} {eqs : ℕ → ℕ → List (WEq W)} {c : CellConst S W} (hout : c.inplace = false)
    (hrng : c.rng.IID μ) (st : DState (Part W) S ℝ) (hlog : st.log = []) (hwf : WFRanges n st.range)
    (hpop : ∀ A B, A ≤ B → B < n → eqs A B ≠ [] →
      (st.range A).1 < (st.range A).2 ∧ (st.range B).1 < (st.range B).2)
    (hw : ∀ p, 0 < c.weight p) (A : ℕ) (hA : A < n) (hf : FairStep eqs c st A A)
    (hdt : 0 ≤ c.dt / c.volume) (k : ℕ) (hk : k = (positions (st.range A)).card) (hk2 : 2 ≤ k)
    (j : ℕ) (x : WEq W) (hx : (eqs A A)[j]? = some x) :
    ∫⁻ s, (timesDone A A j (runLog (wholeEnv T n eqs c) st s) : ℝ≥0∞) ∂μ =
      ENNReal.ofReal (k / (k - 1) * (c.weight (st.mem (st.range A).1) * (c.dt / c.volume) *
        (1 / 2 * ∑ p ∈ positions (st.range A), ∑ q ∈ (positions (st.range A)).erase p, rateAt x st.mem p q))) := by
  have hxm := List.mem_of_getElem? hx
  have hne : eqs A A ≠ [] := by intro h; rw [h] at hx; simp at hx
  have hks : k = (st.range A).2 - (st.range A).1 := by rw [hk]; simp [positions]
  set U := positions (st.range A) with hU
  have hk' : (0 : ℝ) < k - 1 := by
    have : (2 : ℝ) ≤ k := by exact_mod_cast hk2
    linarith
  have hrate : ∀ p ∈ U, ∀ q ∈ U.erase p, 0 ≤ rateAt x st.mem p q := by
    intro p hp q hq
    obtain ⟨h1, h2⟩ := Finset.mem_erase.1 hq
    obtain ⟨s, hs, h0⟩ := hf.values p hp q h2 h1.symm x hxm
    unfold rateAt
    rw [hs]
    exact mul_nonneg h0 (Real.sqrt_nonneg _)
  set C := k / (k - 1) * (c.weight (st.mem (st.range A).1) * (c.dt / c.volume)) with hCdef
  have hC : 0 ≤ C := mul_nonneg (by positivity) (mul_nonneg (hw _).le hdt)
  obtain ⟨maxima, hmax, N, hN, hN0, hi⟩ := hf.estimate
  set I : ℕ → ℕ → ℝ≥0∞ := fun p q => ∫⁻ s, (timesPerformed A A p q j (runLog (wholeEnv T n eqs c) st s) : ℝ≥0∞) ∂μ with hI
  have hone : ∀ p ∈ U, ∀ q ∈ U.erase p, I p q + I q p = ENNReal.ofReal (C * rateAt x st.mem p q) := by
    intro p hp q hq
    obtain ⟨h1, h2⟩ := Finset.mem_erase.1 hq
    obtain ⟨s, hs, -⟩ := hf.values p hp q h2 h1.symm x hxm
    rw [hI]
    beta_reduce
    rw [C76_library_one hout hrng st hlog hwf hpop hw A hA p q (Finset.mem_Ico.1 hp) (Finset.mem_Ico.1 h2) h1.symm _ rfl
      (hf.speeds p hp q h2 h1.symm) (hf.values p hp q h2 h1.symm) hf.bounds maxima hmax k hks N
      (by rw [hN, ← hU, ← hk]; simp) hN0 hi j x hx s hs]
    congr 1
    unfold rateAt
    rw [hs, hCdef]
    simp only [okVal]
    ring
  rw [lintegral_pairs (wholeEnv T n eqs c) hout hrng (library_acts hrng) st hlog hwf
    (fun A B h1 h2 h3 => hpop A B h1 h2 fun hc => h3 (by simp [wholeEnv, hc])) A A le_rfl hA
    (by simp [wholeEnv, hne]) ⟨by unfold rsize; omega, by unfold rsize; omega, .inl (by unfold rsize; omega)⟩ j]
  show ∑ p ∈ U, ∑ q ∈ U.erase p, I p q = _
  have hswap : ∑ p ∈ U, ∑ q ∈ U.erase p, I p q = ∑ p ∈ U, ∑ q ∈ U.erase p, I q p := by
    refine Finset.sum_comm' fun p q => ?_
    simp only [Finset.mem_erase]
    tauto
  have hdouble : ∑ p ∈ U, ∑ q ∈ U.erase p, I p q + ∑ p ∈ U, ∑ q ∈ U.erase p, I p q =
      ENNReal.ofReal (C * ∑ p ∈ U, ∑ q ∈ U.erase p, rateAt x st.mem p q) := by
    conv_lhs => rhs; rw [hswap]
    rw [← Finset.sum_add_distrib, Finset.mul_sum,
      ENNReal.ofReal_sum_of_nonneg fun p hp => mul_nonneg hC (Finset.sum_nonneg (hrate p hp))]
    refine Finset.sum_congr rfl fun p hp => ?_
    rw [← Finset.sum_add_distrib, Finset.mul_sum,
      ENNReal.ofReal_sum_of_nonneg fun q hq => mul_nonneg hC (hrate p hp q hq)]
    exact Finset.sum_congr rfl fun q hq => hone p hp q hq
  rw [← two_mul] at hdouble
  have h2 : (2 : ℝ≥0∞) = ENNReal.ofReal 2 := by simp
  refine (ENNReal.mul_right_inj (a := 2) (by norm_num) (by norm_num)).1 ?_
  rw [hdouble, h2, ← ENNReal.ofReal_mul (by norm_num)]
  congr 1
  rw [hCdef]
  ring

/-! ### A cell with random velocities -/

/-- The cell with the velocities `V` of the particles. -/
def movingAt (st : DState (Part W) S ℝ) (V : ℕ → Vec) : DState (Part W) S ℝ :=
  { st with mem := fun p => { st.mem p with vel := V p } }

section gas
variable {Ω : Type*} [MeasurableSpace Ω] {P : Measure Ω}

omit [MeasurableSpace S] in
private theorem sum_rates {x : WEq W} {st : DState (Part W) S ℝ} {V : Ω → ℕ → Vec} {k C : ℝ} (hC : 0 ≤ C)
    (U : Finset ℕ) (U' : ℕ → Finset ℕ)
    (hnn : ∀ᵐ ω ∂P, ∀ p ∈ U, ∀ q ∈ U' p, 0 ≤ rateAt x (movingAt st (V ω)).mem p q)
    (hrate : ∀ p ∈ U, ∀ q ∈ U' p, Integrable (fun ω => rateAt x (movingAt st (V ω)).mem p q) P ∧
      ∫ ω, rateAt x (movingAt st (V ω)).mem p q ∂P = k) :
    ∫⁻ ω, ENNReal.ofReal (C * ∑ p ∈ U, ∑ q ∈ U' p, rateAt x (movingAt st (V ω)).mem p q) ∂P =
      ENNReal.ofReal (C * (∑ p ∈ U, (U' p).card : ℕ) * k) := by
  have hint : Integrable (fun ω => ∑ p ∈ U, ∑ q ∈ U' p, rateAt x (movingAt st (V ω)).mem p q) P :=
    integrable_finsetSum _ fun p hp => integrable_finsetSum _ fun q hq => (hrate p hp q hq).1
  rw [← ofReal_integral_eq_lintegral_ofReal (hint.const_mul C)]
  · congr 1
    rw [integral_const_mul, integral_finsetSum _ fun p hp => integrable_finsetSum _ fun q hq => (hrate p hp q hq).1,
      mul_assoc]
    congr 1
    push_cast
    rw [Finset.sum_mul]
    refine Finset.sum_congr rfl fun p hp => ?_
    rw [integral_finsetSum _ fun q hq => (hrate p hp q hq).1, Finset.sum_congr rfl fun q hq => (hrate p hp q hq).2]
    simp
  · filter_upwards [hnn] with ω hω
    exact mul_nonneg hC (Finset.sum_nonneg fun p hp => Finset.sum_nonneg fun q hq => hω p hp q hq)

/-- **C111**  The law of mass action, for two species: if `σ_j(v) v` has the mean `k` for every pair, then equation `j`
is performed `max(w_A, w_B) n_A n_B k dt / V` times on average, whatever relative speeds are announced, as long as they
are not exceeded. -/
theorem C111_mass_action {T : Tools W} {n : ℕ} {eqs : ℕ → ℕ → List (WEq W)} {c : CellConst S W}
    (hout : c.inplace = false) (hrng : c.rng.IID μ) (st : DState (Part W) S ℝ) (hlog : st.log = [])
    (hwf : WFRanges n st.range)
    (hpop : ∀ A B, A ≤ B → B < n → eqs A B ≠ [] →
      (st.range A).1 < (st.range A).2 ∧ (st.range B).1 < (st.range B).2)
    (hw : ∀ p, 0 < c.weight p) (hwv : ∀ (p : Part W) v, c.weight { p with vel := v } = c.weight p)
    (A B : ℕ) (hAB : A < B) (hB : B < n) (hdt : 0 ≤ c.dt / c.volume)
    (V : Ω → ℕ → Vec) (fastest : Ω → ℕ → ℕ → ℝ)
    (hf : ∀ᵐ ω ∂P, FairStep eqs { c with maxRelVel := fastest ω } (movingAt st (V ω)) A B)
    (j : ℕ) (x : WEq W) (hx : (eqs A B)[j]? = some x) (k : ℝ)
    (hrate : ∀ p ∈ positions (st.range A), ∀ q ∈ positions (st.range B),
      Integrable (fun ω => rateAt x (movingAt st (V ω)).mem p q) P ∧
      ∫ ω, rateAt x (movingAt st (V ω)).mem p q ∂P = k) :
    ∫⁻ ω, ∫⁻ s, (timesDone A B j
        (runLog (wholeEnv T n eqs { c with maxRelVel := fastest ω }) (movingAt st (V ω)) s) : ℝ≥0∞) ∂μ ∂P =
      ENNReal.ofReal (max (c.weight (st.mem (st.range A).1)) (c.weight (st.mem (st.range B).1)) *
        (positions (st.range A)).card * (positions (st.range B)).card * k * c.dt / c.volume) := by
  have hd := hwf.disj A (by omega) B hB (by omega)
  have hin : ∀ᵐ ω ∂P, ∫⁻ s, (timesDone A B j
        (runLog (wholeEnv T n eqs { c with maxRelVel := fastest ω }) (movingAt st (V ω)) s) : ℝ≥0∞) ∂μ =
      ENNReal.ofReal (max (c.weight (st.mem (st.range A).1)) (c.weight (st.mem (st.range B).1)) * (c.dt / c.volume) *
        ∑ p ∈ positions (st.range A), ∑ q ∈ positions (st.range B), rateAt x (movingAt st (V ω)).mem p q) := by
    filter_upwards [hf] with ω hω
    rw [C111_pairs (c := { c with maxRelVel := fastest ω }) hout hrng (movingAt st (V ω)) hlog hwf hpop hw A B hAB hB hω
      hdt j x hx]
    simp only [movingAt, hwv]
  rw [lintegral_congr_ae hin, sum_rates (k := k) (mul_nonneg (le_max_of_le_left (hw _).le) hdt) _ _ ?_ hrate]
  · congr 1
    simp only [Finset.sum_const, smul_eq_mul, Nat.cast_mul]
    ring
  · filter_upwards [hf] with ω hω p hp q hq
    obtain ⟨s, hs, h0⟩ := hω.values p hp q hq
      (by rintro rfl; exact hd p ⟨Finset.mem_Ico.1 hp, Finset.mem_Ico.1 hq⟩) x (List.mem_of_getElem? hx)
    unfold rateAt
    rw [hs]
    exact mul_nonneg h0 (Real.sqrt_nonneg _)

/-- **C111**  The law of mass action within one species of `N ≥ 2` particles: equation `j` is performed
`w N² k dt / (2 V)` times on average.  The `N²` of the estimate, which is too much by `N / (N - 1)` for each pair (C76),
is what the densities give. -/
theorem C111_mass_action_one {T : Tools W} {n : ℕ} {eqs : ℕ → ℕ → List (WEq W)} {c : CellConst S W}
    (hout : c.inplace = false) (hrng : c.rng.IID μ) (st : DState (Part W) S ℝ) (hlog : st.log = [])
    (hwf : WFRanges n st.range)
    (hpop : ∀ A B, A ≤ B → B < n → eqs A B ≠ [] →
      (st.range A).1 < (st.range A).2 ∧ (st.range B).1 < (st.range B).2)
    (hw : ∀ p, 0 < c.weight p) (hwv : ∀ (p : Part W) v, c.weight { p with vel := v } = c.weight p)
    (A : ℕ) (hA : A < n) (hdt : 0 ≤ c.dt / c.volume) (V : Ω → ℕ → Vec) (fastest : Ω → ℕ → ℕ → ℝ)
    (hf : ∀ᵐ ω ∂P, FairStep eqs { c with maxRelVel := fastest ω } (movingAt st (V ω)) A A)
    (hN : 2 ≤ (positions (st.range A)).card) (j : ℕ) (x : WEq W) (hx : (eqs A A)[j]? = some x) (k : ℝ)
    (hrate : ∀ p ∈ positions (st.range A), ∀ q ∈ positions (st.range A), p ≠ q →
      Integrable (fun ω => rateAt x (movingAt st (V ω)).mem p q) P ∧
      ∫ ω, rateAt x (movingAt st (V ω)).mem p q ∂P = k) :
    ∫⁻ ω, ∫⁻ s, (timesDone A A j
        (runLog (wholeEnv T n eqs { c with maxRelVel := fastest ω }) (movingAt st (V ω)) s) : ℝ≥0∞) ∂μ ∂P =
      ENNReal.ofReal (c.weight (st.mem (st.range A).1) * (positions (st.range A)).card ^ 2 * k * c.dt /
        (2 * c.volume)) := by
  set N := (positions (st.range A)).card with hNdef
  have hN' : (0 : ℝ) < N - 1 := by
    have : (2 : ℝ) ≤ N := by exact_mod_cast hN
    linarith
  have hin : ∀ᵐ ω ∂P, ∫⁻ s, (timesDone A A j
        (runLog (wholeEnv T n eqs { c with maxRelVel := fastest ω }) (movingAt st (V ω)) s) : ℝ≥0∞) ∂μ =
      ENNReal.ofReal (N / (N - 1) * (c.weight (st.mem (st.range A).1) * (c.dt / c.volume)) * (1 / 2) *
        ∑ p ∈ positions (st.range A), ∑ q ∈ (positions (st.range A)).erase p,
          rateAt x (movingAt st (V ω)).mem p q) := by
    filter_upwards [hf] with ω hω
    rw [C111_pairs_one (c := { c with maxRelVel := fastest ω }) hout hrng (movingAt st (V ω)) hlog hwf hpop hw A hA hω
      hdt N hNdef hN j x hx]
    congr 1
    simp only [movingAt, hwv]
    ring
  rw [lintegral_congr_ae hin, sum_rates (k := k) ?_ _ _ ?_ ?_]
  · congr 1
    rw [Finset.sum_congr rfl fun p hp => Finset.card_erase_of_mem hp, Finset.sum_const, ← hNdef, smul_eq_mul,
      Nat.cast_mul, Nat.cast_sub (by omega)]
    push_cast
    by_cases hV : c.volume = 0
    · simp [hV]
    field_simp
  · exact mul_nonneg (mul_nonneg (by positivity) (mul_nonneg (hw _).le hdt)) (by norm_num)
  · filter_upwards [hf] with ω hω p hp q hq
    obtain ⟨h1, h2⟩ := Finset.mem_erase.1 hq
    obtain ⟨s, hs, h0⟩ := hω.values p hp q h2 h1.symm x (List.mem_of_getElem? hx)
    unfold rateAt
    rw [hs]
    exact mul_nonneg h0 (Real.sqrt_nonneg _)
  · intro p hp q hq
    obtain ⟨h1, h2⟩ := Finset.mem_erase.1 hq
    exact hrate p hp q h2 h1.symm

/-! ### A gas in thermal equilibrium -/

/-- The components of a velocity. -/
def axes (v : Vec) : Fin 3 → ℝ := ![v.x, v.y, v.z]

omit [MeasurableSpace S] in
private theorem thermal_rates {kB T m₁ m₂ : ℝ} (hk : 0 < kB) (hT : 0 < T) (h₁ : 0 < m₁) (h₂ : 0 < m₂)
    {x : WEq W} (hm : Measurable fun v => okVal (x.cs.sigma v)) {st : DState (Part W) S ℝ} {V : Ω → ℕ → Vec} {p q : ℕ}
    (h : ThermalPair P kB T m₁ m₂ (fun i ω => axes (V ω p) i) (fun i ω => axes (V ω q) i))
    {Ω' : Type*} [MeasurableSpace Ω'] {P' : Measure Ω'} {X Y : Fin 3 → Ω' → ℝ} (h' : ThermalPair P' kB T m₁ m₂ X Y)
    (hpos : 0 < meanRate P' X Y x.cs) :
    Integrable (fun ω => rateAt x (movingAt st (V ω)).mem p q) P ∧
      ∫ ω, rateAt x (movingAt st (V ω)).mem p q ∂P = meanRate P' X Y x.cs := by
  have hg : Measurable fun v : ℝ => okVal (x.cs.sigma v) * v := hm.mul measurable_id
  have e1 := h.mean hk hT h₁ h₂ hg
  have e2 := h'.mean hk hT h₁ h₂ hg
  have hsp : ∀ ω, relSpeed (fun i ω => axes (V ω p) i) (fun i ω => axes (V ω q) i) ω = (V ω p - V ω q).abs := by
    intro ω
    unfold relSpeed
    rw [Fin.sum_univ_three]
    rfl
  simp only [hsp] at e1
  have e3 : ∫ ω, rateAt x (movingAt st (V ω)).mem p q ∂P = meanRate P' X Y x.cs := e1.trans e2.symm
  refine ⟨?_, e3⟩
  refine not_imp_comm.1 integral_undef ?_
  rw [e3]
  exact hpos.ne'

/-- **C111**  Two species in thermal equilibrium: the reactions happen `max(w_A, w_B) n_A n_B k dt / V` times, with the
rate coefficient `k` of C107. -/
theorem C111_thermal {T : Tools W} {n : ℕ} {eqs : ℕ → ℕ → List (WEq W)} {c : CellConst S W}
    (hout : c.inplace = false) (hrng : c.rng.IID μ) (st : DState (Part W) S ℝ) (hlog : st.log = [])
    (hwf : WFRanges n st.range)
    (hpop : ∀ A B, A ≤ B → B < n → eqs A B ≠ [] →
      (st.range A).1 < (st.range A).2 ∧ (st.range B).1 < (st.range B).2)
    (hw : ∀ p, 0 < c.weight p) (hwv : ∀ (p : Part W) v, c.weight { p with vel := v } = c.weight p)
    (A B : ℕ) (hAB : A < B) (hB : B < n) (hdt : 0 ≤ c.dt / c.volume)
    (V : Ω → ℕ → Vec) (fastest : Ω → ℕ → ℕ → ℝ)
    (hf : ∀ᵐ ω ∂P, FairStep eqs { c with maxRelVel := fastest ω } (movingAt st (V ω)) A B)
    {kB temp m₁ m₂ : ℝ} (hk : 0 < kB) (hT : 0 < temp) (h₁ : 0 < m₁) (h₂ : 0 < m₂)
    (hgas : ∀ p ∈ positions (st.range A), ∀ q ∈ positions (st.range B),
      ThermalPair P kB temp m₁ m₂ (fun i ω => axes (V ω p) i) (fun i ω => axes (V ω q) i))
    (j : ℕ) (x : WEq W) (hx : (eqs A B)[j]? = some x) {solve : RootFinder} {ex : Bool} {d : CSDoc}
    (hload : d.load solve ex (pairMass m₁ m₂) = .ok x.cs)
    {Ω' : Type*} [MeasurableSpace Ω'] {P' : Measure Ω'} {X Y : Fin 3 → Ω' → ℝ} (h' : ThermalPair P' kB temp m₁ m₂ X Y)
    (hpos : 0 < meanRate P' X Y x.cs) :
    ∫⁻ ω, ∫⁻ s, (timesDone A B j
        (runLog (wholeEnv T n eqs { c with maxRelVel := fastest ω }) (movingAt st (V ω)) s) : ℝ≥0∞) ∂μ ∂P =
      ENNReal.ofReal (max (c.weight (st.mem (st.range A).1)) (c.weight (st.mem (st.range B).1)) *
        (positions (st.range A)).card * (positions (st.range B)).card * meanRate P' X Y x.cs * c.dt / c.volume) :=
  C111_mass_action hout hrng st hlog hwf hpop hw hwv A B hAB hB hdt V fastest hf j x hx _ fun p hp q hq =>
    thermal_rates hk hT h₁ h₂ (measurable_load hload) (hgas p hp q hq) h' hpos

/-- **C111**  One species in thermal equilibrium. -/
theorem C111_thermal_one {T : Tools W} {n : ℕ} {eqs : ℕ → ℕ → List (WEq W)} {c : CellConst S W}
    (hout : c.inplace = false) (hrng : c.rng.IID μ) (st : DState (Part W) S ℝ) (hlog : st.log = [])
    (hwf : WFRanges n st.range)
    (hpop : ∀ A B, A ≤ B → B < n → eqs A B ≠ [] →
      (st.range A).1 < (st.range A).2 ∧ (st.range B).1 < (st.range B).2)
    (hw : ∀ p, 0 < c.weight p) (hwv : ∀ (p : Part W) v, c.weight { p with vel := v } = c.weight p)
    (A : ℕ) (hA : A < n) (hdt : 0 ≤ c.dt / c.volume) (V : Ω → ℕ → Vec) (fastest : Ω → ℕ → ℕ → ℝ)
    (hf : ∀ᵐ ω ∂P, FairStep eqs { c with maxRelVel := fastest ω } (movingAt st (V ω)) A A)
    (hN : 2 ≤ (positions (st.range A)).card) {kB temp m : ℝ} (hk : 0 < kB) (hT : 0 < temp) (hm : 0 < m)
    (hgas : ∀ p ∈ positions (st.range A), ∀ q ∈ positions (st.range A), p ≠ q →
      ThermalPair P kB temp m m (fun i ω => axes (V ω p) i) (fun i ω => axes (V ω q) i))
    (j : ℕ) (x : WEq W) (hx : (eqs A A)[j]? = some x) {solve : RootFinder} {ex : Bool} {d : CSDoc}
    (hload : d.load solve ex (pairMass m m) = .ok x.cs)
    {Ω' : Type*} [MeasurableSpace Ω'] {P' : Measure Ω'} {X Y : Fin 3 → Ω' → ℝ} (h' : ThermalPair P' kB temp m m X Y)
    (hpos : 0 < meanRate P' X Y x.cs) :
    ∫⁻ ω, ∫⁻ s, (timesDone A A j
        (runLog (wholeEnv T n eqs { c with maxRelVel := fastest ω }) (movingAt st (V ω)) s) : ℝ≥0∞) ∂μ ∂P =
      ENNReal.ofReal (c.weight (st.mem (st.range A).1) * (positions (st.range A)).card ^ 2 * meanRate P' X Y x.cs * c.dt /
        (2 * c.volume)) :=
  C111_mass_action_one hout hrng st hlog hwf hpop hw hwv A hA hdt V fastest hf hN j x hx _ fun p hp q hq hpq =>
    thermal_rates hk hT hm hm (measurable_load hload) (hgas p hp q hq hpq) h' hpos

/-- **C111**  Arrhenius' law in a simulation: with a constant cross section and the threshold energy `E` the reaction of
two species happens `max(w_A, w_B) n_A n_B σ ⟨v⟩ (1 + E / kT) exp(-E / kT) dt / V` times on average. -/
theorem C111_arrhenius {T : Tools W} {n : ℕ} {eqs : ℕ → ℕ → List (WEq W)} {c : CellConst S W}
    (hout : c.inplace = false) (hrng : c.rng.IID μ) (st : DState (Part W) S ℝ) (hlog : st.log = [])
    (hwf : WFRanges n st.range)
    (hpop : ∀ A B, A ≤ B → B < n → eqs A B ≠ [] →
      (st.range A).1 < (st.range A).2 ∧ (st.range B).1 < (st.range B).2)
    (hw : ∀ p, 0 < c.weight p) (hwv : ∀ (p : Part W) v, c.weight { p with vel := v } = c.weight p)
    (A B : ℕ) (hAB : A < B) (hB : B < n) (hdt : 0 ≤ c.dt / c.volume)
    (V : Ω → ℕ → Vec) (fastest : Ω → ℕ → ℕ → ℝ)
    (hf : ∀ᵐ ω ∂P, FairStep eqs { c with maxRelVel := fastest ω } (movingAt st (V ω)) A B)
    {kB temp m₁ m₂ : ℝ} (hk : 0 < kB) (hT : 0 < temp) (h₁ : 0 < m₁) (h₂ : 0 < m₂)
    (hgas : ∀ p ∈ positions (st.range A), ∀ q ∈ positions (st.range B),
      ThermalPair P kB temp m₁ m₂ (fun i ω => axes (V ω p) i) (fun i ω => axes (V ω q) i))
    (j : ℕ) (x : WEq W) (hx : (eqs A B)[j]? = some x) {solve : RootFinder} {ex : Bool} {value : ℝ} (hval : 0 < value)
    {thr : Option ThrDoc} (hload : CSDoc.load solve ex (pairMass m₁ m₂) (.constant value thr) = .ok x.cs) :
    ∫⁻ ω, ∫⁻ s, (timesDone A B j
        (runLog (wholeEnv T n eqs { c with maxRelVel := fastest ω }) (movingAt st (V ω)) s) : ℝ≥0∞) ∂μ ∂P =
      ENNReal.ofReal (max (c.weight (st.mem (st.range A).1)) (c.weight (st.mem (st.range B).1)) *
        (positions (st.range A)).card * (positions (st.range B)).card *
        (value * (√2 * avgVRel kB temp (pairMass m₁ m₂)) *
          ((1 + x.cs.thrE / (kB * temp)) * Real.exp (-x.cs.thrE / (kB * temp)))) * c.dt / c.volume) := by
  have h' := thermalPair_exists kB temp m₁ m₂
  have hr := C107_constant h' hk hT h₁ h₂ solve ex hload
  rw [C86_average h' hk hT h₁ h₂] at hr
  have hm := pairMass_pos h₁ h₂
  have hE : 0 ≤ x.cs.thrE := by
    rw [CSDoc.load, mkConstant, setThreshold] at hload
    split at hload
    · simp at hload
    · rename_i tE tv hE
      split_ifs at hE with hneg
      simp only [Except.ok.injEq, Prod.mk.injEq] at hE hload
      rw [← hload, ← hE.1]
      exact not_lt.1 hneg
  rw [C111_thermal hout hrng st hlog hwf hpop hw hwv A B hAB hB hdt V fastest hf hk hT h₁ h₂ hgas j x hx hload h'
    (by rw [hr]; unfold avgVRel; positivity), hr]

end gas

/-! ### Examples -/

namespace MassExample
open ExpectedExample

/-- The cell of the examples with the velocities `ω` of its two particles. -/
def vel (ω : Fin 3 → ℝ × ℝ) (p : ℕ) : Vec :=
  if p = 0 then ⟨(ω 0).1, (ω 1).1, (ω 2).1⟩ else ⟨(ω 0).2, (ω 1).2, (ω 2).2⟩

theorem pair (kB T m₁ m₂ : ℝ) : ThermalPair
    (Measure.pi fun _ : Fin 3 => (gaussianReal 0 (kB * T / m₁).toNNReal).prod (gaussianReal 0 (kB * T / m₂).toNNReal))
    kB T m₁ m₂ (fun i ω => axes (vel ω 0) i) (fun i ω => axes (vel ω 1) i) := by
  have h := thermalPair_exists kB T m₁ m₂
  have e1 : (fun (i : Fin 3) (ω : Fin 3 → ℝ × ℝ) => axes (vel ω 0) i) = fun i ω => (ω i).1 := by
    funext i ω
    fin_cases i <;> rfl
  have e2 : (fun (i : Fin 3) (ω : Fin 3 → ℝ × ℝ) => axes (vel ω 1) i) = fun i ω => (ω i).2 := by
    funext i ω
    fin_cases i <;> rfl
  rw [e1, e2]
  exact h

theorem moving (kB T m₁ m₂ : ℝ) (hk : 0 < kB) (hT : 0 < T) (h₁ : 0 < m₁) (h₂ : 0 < m₂) : ∀ᵐ ω
    ∂(Measure.pi fun _ : Fin 3 => (gaussianReal 0 (kB * T / m₁).toNNReal).prod (gaussianReal 0 (kB * T / m₂).toNNReal)),
    0 < (vel ω 0 - vel ω 1).abs := by
  filter_upwards [never_equal (pair kB T m₁ m₂) hk hT h₁ h₂] with ω hω
  unfold relSpeed at hω
  rw [Fin.sum_univ_three] at hω
  exact hω

/-- The announced speed: the true one and a bit. -/
noncomputable def announced (ω : Fin 3 → ℝ × ℝ) (_ _ : ℕ) : ℝ := (vel ω 0 - vel ω 1).abs + 1

/-- An inverse cross section. -/
theorem inverse_loads (T : Tools Unit) (m₁ m₂ : ℝ) : ∃ y, CSDoc.load T.solve T.extrapolate (pairMass m₁ m₂) (.inverse 5 none) = .ok y ∧
    mkInverse 5 (pairMass m₁ m₂) 0 = .ok y := by
  simp only [CSDoc.load, mkInverse, setThreshold, loadThreshold, lt_irrefl, if_false]
  exact ⟨_, rfl, rfl⟩

theorem start_wf : WFRanges 2 wstart.range := by
  constructor
  · intro A hA
    interval_cases A <;> simp [wstart, WholeExample.start]
  · intro A hA B hB hAB z hz
    interval_cases A <;> interval_cases B <;> simp [wstart, WholeExample.start] at hAB hz <;> omega

/-- One electron and one hydrogen atom at the temperature 600, rate coefficient 5: one reaction in two steps. -/
example (T : Tools Unit) (w : WEq Unit) (hw : CSDoc.load T.solve T.extrapolate (pairMass 1 2000) (.inverse 5 none) = .ok w.cs) :
    ∫⁻ ω, ∫⁻ s, (timesDone 0 1 0 (runLog (wholeEnv T 2 (fun A B => if A = 0 ∧ B = 1 then [w] else [])
        { wcell with maxRelVel := announced ω }) (movingAt wstart (vel ω)) s) : ℝ≥0∞) ∂iidUnif
      ∂(Measure.pi fun _ : Fin 3 => (gaussianReal 0 (1 * 600 / 1 : ℝ).toNNReal).prod
        (gaussianReal 0 (1 * 600 / 2000 : ℝ).toNNReal)) = ENNReal.ofReal (1 / 2) := by
  have hr := (C107_inverse (pair 1 600 1 2000) one_pos (by norm_num) one_pos (by norm_num) _ _ hw).2 rfl
  obtain ⟨y, hy, hmk⟩ := inverse_loads T 1 2000
  have hyw : y = w.cs := by rw [hw] at hy; cases hy; rfl
  rw [hyw] at hmk
  have hm : 0 < pairMass 1 2000 := pairMass_pos one_pos (by norm_num)
  rw [C111_thermal (c := wcell) rfl streamRNG_iid wstart rfl start_wf ?_ (fun _ => one_pos) (fun _ _ => rfl) 0 1
    (by norm_num) (by norm_num) (by norm_num [wcell]) vel announced ?_ (kB := 1) (temp := 600) (m₁ := 1) (m₂ := 2000)
    one_pos (by norm_num) one_pos (by norm_num) ?_ 0 w (by simp) hw (pair 1 600 1 2000) (by rw [hr]; norm_num), hr]
  · congr 1
    simp only [wcell, max_self, positions, wstart, WholeExample.start]
    norm_num
  · intro A B _ hB _
    interval_cases B <;> interval_cases A <;> simp [wstart, WholeExample.start]
  · filter_upwards [moving 1 600 1 2000 one_pos (by norm_num) one_pos (by norm_num)] with ω hω
    have hpos : 0 < announced ω 0 1 := by
      have : 0 ≤ (vel ω 0 - vel ω 1).abs := Real.sqrt_nonneg _
      unfold announced
      linarith
    obtain ⟨hb, -, h0⟩ := C55_inverse hm (by norm_num : (0 : ℝ) ≤ 5) hpos hmk
    obtain ⟨vm, hmax, hval⟩ := h0 rfl
    refine ⟨?_, ?_, ?_, [5], ?_, 1 / 2, ?_, by norm_num, by norm_num⟩
    · intro p hp q hq _
      simp [positions, movingAt, wstart, WholeExample.start] at hp hq
      subst hp hq
      show (vel ω 0 - vel ω 1).abs ≤ (vel ω 0 - vel ω 1).abs + 1
      linarith
    · intro p hp q hq _ z hz
      rw [if_pos ⟨rfl, rfl⟩, List.mem_singleton] at hz
      subst hz
      simp [positions, movingAt, wstart, WholeExample.start] at hp hq
      subst hp hq
      obtain ⟨s, hs, h5⟩ := hval _ hω
      exact ⟨s, hs, nonneg_of_mul_nonneg_left (by rw [h5]; norm_num) hω⟩
    · intro z hz
      rw [if_pos ⟨rfl, rfl⟩, List.mem_singleton] at hz
      subst hz
      exact hb
    · rw [if_pos ⟨rfl, rfl⟩]
      exact .cons ⟨vm, hmax⟩ .nil
    · simp [wcell, positions, movingAt, wstart, WholeExample.start, ntcEstimate]
      norm_num
  · intro p hp q hq
    simp [positions, wstart, WholeExample.start] at hp hq
    subst hp hq
    exact pair 1 600 1 2000

/-- An announced speed for which the estimate of the next example is never an integer. -/
noncomputable def rounded (ω : Fin 3 → ℝ × ℝ) (_ _ : ℕ) : ℝ := (⌈(vel ω 0 - vel ω 1).abs⌉ + 100 : ℤ) + 1 / 2

/-- Constant cross section of one with the threshold energy `kT`: the mean relative speed times `2 / e`. -/
example (T : Tools Unit) (w : WEq Unit)
    (hw : CSDoc.load T.solve T.extrapolate (pairMass 1 2000) (.constant 1 (some (.energy 600))) = .ok w.cs) :
    ∫⁻ ω, ∫⁻ s, (timesDone 0 1 0 (runLog (wholeEnv T 2 (fun A B => if A = 0 ∧ B = 1 then [w] else [])
        { { wcell with dt := 1 } with maxRelVel := rounded ω }) (movingAt wstart (vel ω)) s) : ℝ≥0∞) ∂iidUnif
      ∂(Measure.pi fun _ : Fin 3 => (gaussianReal 0 (1 * 600 / 1 : ℝ).toNNReal).prod
        (gaussianReal 0 (1 * 600 / 2000 : ℝ).toNNReal)) =
      ENNReal.ofReal (√2 * avgVRel 1 600 (pairMass 1 2000) * (2 * Real.exp (-1))) := by
  have hm : 0 < pairMass 1 2000 := pairMass_pos one_pos (by norm_num)
  obtain ⟨tv, htv, htv0, hcs⟩ : ∃ tv : ℝ, tv ≤ 100 ∧ 0 ≤ tv ∧ w.cs = ⟨fun v => .ok (if v ≥ tv then 1 else 0), 600,
      fun vmax => .ok (if vmax ≥ tv then (1 * vmax, vmax) else (0, 0))⟩ := by
    rw [CSDoc.load, mkConstant, setThreshold, loadThreshold, if_neg (by norm_num)] at hw
    refine ⟨√(600 / (1 / 2 * pairMass 1 2000)), ?_, Real.sqrt_nonneg _, (Except.ok.inj hw).symm⟩
    rw [Real.sqrt_le_left (by norm_num), pairMass]
    norm_num
  rw [C111_arrhenius (c := { wcell with dt := 1 }) rfl streamRNG_iid wstart rfl start_wf ?_ (fun _ => one_pos)
    (fun _ _ => rfl) 0 1 (by norm_num) (by norm_num) (by norm_num [wcell]) vel rounded ?_ (kB := 1) (temp := 600)
    (m₁ := 1) (m₂ := 2000) one_pos (by norm_num) one_pos (by norm_num) ?_ 0 w (by simp) one_pos hw]
  · congr 1
    rw [hcs]
    simp only [wcell, max_self, positions, wstart, WholeExample.start]
    norm_num
  · intro A B _ hB _
    interval_cases B <;> interval_cases A <;> simp [wstart, WholeExample.start]
  · refine Filter.Eventually.of_forall fun ω => ?_
    have hsp : 0 ≤ (vel ω 0 - vel ω 1).abs := Real.sqrt_nonneg _
    have hce := Int.le_ceil (vel ω 0 - vel ω 1).abs
    have hr : rounded ω 0 1 = (⌈(vel ω 0 - vel ω 1).abs⌉ : ℝ) + 100 + 1 / 2 := by unfold rounded; push_cast; ring
    have hmax : w.cs.maxSV (rounded ω 0 1) = .ok (rounded ω 0 1, rounded ω 0 1) := by
      rw [hcs]
      dsimp only
      rw [if_pos (by rw [hr]; linarith), one_mul]
    have hval : ∀ v, ∃ s, w.cs.sigma v = .ok s ∧ 0 ≤ s ∧ s ≤ 1 := fun v => by
      rw [hcs]
      refine ⟨_, rfl, ?_⟩
      split <;> norm_num
    refine ⟨?_, ?_, ?_, [rounded ω 0 1], ?_, rounded ω 0 1, ?_, by rw [hr]; linarith, ?_⟩
    · intro p hp q hq _
      simp [positions, movingAt, wstart, WholeExample.start] at hp hq
      subst hp hq
      show (vel ω 0 - vel ω 1).abs ≤ rounded ω 0 1
      rw [hr]
      linarith
    · intro p _ q _ _ z hz
      rw [if_pos ⟨rfl, rfl⟩, List.mem_singleton] at hz
      subst hz
      obtain ⟨s, h1, h2, -⟩ := hval (((movingAt wstart (vel ω)).mem p).vel - ((movingAt wstart (vel ω)).mem q).vel).abs
      exact ⟨s, h1, h2⟩
    · intro z hz
      rw [if_pos ⟨rfl, rfl⟩, List.mem_singleton] at hz
      subst hz
      refine ⟨_, _, hmax, fun v s h0 hv hs => ?_⟩
      obtain ⟨s', h1, -, h3⟩ := hval v
      rw [h1] at hs
      cases hs
      have hv' : v ≤ rounded ω 0 1 := hv
      nlinarith
    · rw [if_pos ⟨rfl, rfl⟩]
      exact .cons ⟨_, hmax⟩ .nil
    · simp [wcell, positions, movingAt, wstart, WholeExample.start, ntcEstimate]
    · unfold rounded
      rw [Int.floor_intCast_add, show ⌊(1 / 2 : ℝ)⌋ = 0 by norm_num]
      push_cast
      intro h
      linarith
  · intro p hp q hq
    simp [positions, wstart, WholeExample.start] at hp hq
    subst hp hq
    exact pair 1 600 1 2000

theorem swapped (kB T m : ℝ) : ThermalPair
    (Measure.pi fun _ : Fin 3 => (gaussianReal 0 (kB * T / m).toNNReal).prod (gaussianReal 0 (kB * T / m).toNNReal))
    kB T m m (fun i ω => axes (vel ω 1) i) (fun i ω => axes (vel ω 0) i) := by
  obtain ⟨h1, h2, h3, h4⟩ := pair kB T m m
  exact ⟨h2, h1, fun i => (h3 i).symm, h4.comp (fun _ x => (x.2, x.1)) fun _ => measurable_swap⟩

/-- Two particles of one species. -/
def twins : DState (Part Unit) (ℕ → ℝ) ℝ := { wstart with range := fun A => if A = 0 then (0, 2) else (2, 2) }

theorem speed_comm (u v : Vec) : (u - v).abs = (v - u).abs := by
  show Real.sqrt ((u.x - v.x) ^ 2 + (u.y - v.y) ^ 2 + (u.z - v.z) ^ 2) =
    Real.sqrt ((v.x - u.x) ^ 2 + (v.y - u.y) ^ 2 + (v.z - u.z) ^ 2)
  congr 1
  ring

/-- Two particles of mass 2 at the temperature 600, rate coefficient 5, `dt = 1/10`, volume and weight one: the estimate
and the mean number of reactions are `2² / 2 * 5 / 10 = 1`, but an estimate that is an integer loses a test, so the time
step of this example is `1/20` and a reaction happens in every other step. -/
example (T : Tools Unit) (w : WEq Unit) (hw : CSDoc.load T.solve T.extrapolate (pairMass 2 2) (.inverse 5 none) = .ok w.cs) :
    ∫⁻ ω, ∫⁻ s, (timesDone 0 0 0 (runLog (wholeEnv T 1 (fun _ _ => [w])
        { { wcell with dt := 1 / 20 } with maxRelVel := announced ω }) (movingAt twins (vel ω)) s) : ℝ≥0∞) ∂iidUnif
      ∂(Measure.pi fun _ : Fin 3 => (gaussianReal 0 (1 * 600 / 2 : ℝ).toNNReal).prod
        (gaussianReal 0 (1 * 600 / 2 : ℝ).toNNReal)) = ENNReal.ofReal (1 / 2) := by
  have hr := (C107_inverse (pair 1 600 2 2) one_pos (by norm_num) (by norm_num) (by norm_num) _ _ hw).2 rfl
  obtain ⟨y, hy, hmk⟩ := inverse_loads T 2 2
  have hyw : y = w.cs := by rw [hw] at hy; cases hy; rfl
  rw [hyw] at hmk
  have hm : 0 < pairMass 2 2 := pairMass_pos (by norm_num) (by norm_num)
  have hmem : ∀ p, p ∈ positions (twins.range 0) ↔ p = 0 ∨ p = 1 := by
    intro p
    simp [positions, twins]
    omega
  rw [C111_thermal_one (c := { wcell with dt := 1 / 20 }) rfl streamRNG_iid twins rfl ?_ ?_ (fun _ => one_pos)
    (fun _ _ => rfl) 0 (by norm_num) (by norm_num [wcell]) vel announced ?_ (by simp [positions, twins]) (kB := 1)
    (temp := 600) (m := 2) one_pos (by norm_num) (by norm_num) ?_ 0 w (by simp) hw (pair 1 600 2 2)
    (by rw [hr]; norm_num), hr]
  · congr 1
    simp only [wcell, positions, twins]
    norm_num
  · constructor
    · intro A hA
      interval_cases A
      simp [twins]
    · intro A hA B hB hAB z hz
      omega
  · intro A B _ hB _
    interval_cases B
    interval_cases A
    simp [twins]
  · filter_upwards [moving 1 600 2 2 one_pos (by norm_num) (by norm_num) (by norm_num)] with ω hω
    have hpos : 0 < announced ω 0 0 := by
      unfold announced
      linarith
    obtain ⟨hb, -, h0⟩ := C55_inverse hm (by norm_num : (0 : ℝ) ≤ 5) hpos hmk
    obtain ⟨vm, hmax, hval⟩ := h0 rfl
    have hsp : ∀ p q, (p = 0 ∨ p = 1) → (q = 0 ∨ q = 1) → p ≠ q →
        (vel ω p - vel ω q).abs = (vel ω 0 - vel ω 1).abs := by
      rintro p q (rfl | rfl) (rfl | rfl) hne
      · exact absurd rfl hne
      · rfl
      · exact speed_comm _ _
      · exact absurd rfl hne
    refine ⟨?_, ?_, ?_, [5], ?_, 1 / 2, ?_, by norm_num, by norm_num⟩
    · intro p hp q hq hpq
      show (vel ω p - vel ω q).abs ≤ (vel ω 0 - vel ω 1).abs + 1
      rw [hsp p q ((hmem p).1 hp) ((hmem q).1 hq) hpq]
      linarith
    · intro p hp q hq hpq z hz
      rw [List.mem_singleton.1 hz]
      show ∃ s, w.cs.sigma (vel ω p - vel ω q).abs = .ok s ∧ 0 ≤ s
      rw [hsp p q ((hmem p).1 hp) ((hmem q).1 hq) hpq]
      obtain ⟨s, hs, h5⟩ := hval _ hω
      exact ⟨s, hs, nonneg_of_mul_nonneg_left (by rw [h5]; norm_num) hω⟩
    · intro z hz
      rw [List.mem_singleton.1 hz]
      exact hb
    · exact .cons ⟨vm, hmax⟩ .nil
    · simp [wcell, positions, movingAt, twins, ntcEstimate]
      norm_num
  · intro p hp q hq hpq
    rcases (hmem p).1 hp with rfl | rfl <;> rcases (hmem q).1 hq with rfl | rfl
    · exact absurd rfl hpq
    · exact pair 1 600 2 2
    · exact swapped 1 600 2
    · exact absurd rfl hpq

end MassExample

end Chimp
