import Verif.Lemmas.Monitor
import Verif.Props.ExpectedRate
import Verif.Props.DriverRun

/-!
# Property C103: the driver with classes of the user's own

`SameButBound` (a database that differs only in the maxima it announces) and `LeftBy` (the particles of a pair after
their interaction) are in `Lemmas/Monitor`.
-/

namespace Chimp

section

variable {P S K : Type} [Field K] [LinearOrder K] [IsStrictOrderedRing K] [FloorRing K]

/-- What the driver tells a monitor in a run from `st0` to `st`: first the numbers `nums`, one for each species pair in
`ps`, then one report for every test. -/
structure Told (get : MaxSVPolicy P S K) (env : DriverEnv P S K) (st0 st : DState P S K) (ps : List (ℕ × ℕ))
    (nums : List K) (reports : List (Report P K)) : Prop where
  /-- the species pairs with interactions, each once, in lexicographic order -/
  order : ps.Pairwise fun x y => x.1 < y.1 ∨ (x.1 = y.1 ∧ x.2 < y.2)
  pairs : ∀ A B, (A, B) ∈ ps ↔ A ≤ B ∧ B < env.nSpecies ∧ env.rhs A B ≠ []
  /-- the number told is the estimate on the initial cell, or one more if a random number is below its fraction -/
  numbers : List.Forall₂ (fun x n => ∃ (N : K) (g : S), n = (if (env.rng.rand g).1 < N - ⌊N⌋ then N + 1 else N) ∧
    N = ntcEstimate (env.weight (st0.mem (st0.range x.1).1)) (env.weight (st0.mem (st0.range x.2).1))
      ((st0.range x.1).2 - (st0.range x.1).1) ((st0.range x.2).2 - (st0.range x.2).1) env.dt
      (get (env.rhs x.1 x.2) st0.mem st0.range x.1 x.2) env.volume (x.1 == x.2)) ps nums
  /-- the number of tests of the pair is one less than the number told rounded up, unless particles ran out -/
  tests : List.Forall₂ (fun x n => let k : ℕ := (st.log.filter fun e => e.A == x.1 && e.B == x.2).length
    k ≤ (⌈n⌉ - 1).toNat ∧ (k = (⌈n⌉ - 1).toNat ∨ (x.1 = x.2 ∧ (st.range x.1).2 - (st.range x.1).1 < 2) ∨
      (st.range x.1).2 - (st.range x.1).1 = 0 ∨ (st.range x.2).2 - (st.range x.2).1 = 0)) ps nums
  /-- one report for every test -/
  length : reports.length = st.log.length
  /-- the report of test `k`: its pair, the path taken, all results so far, and the particles as the test left them -/
  reports : ∀ k ev r, st.log[k]? = some ev → reports[k]? = some r →
    r.p = ev.p ∧ r.q = ev.q ∧ r.path = (ev.path.first, ev.path.second) ∧
    r.results = st0.results ++ (st.log.take (k + 1)).flatMap Event.prods ∧ LeftBy env ev r.a r.b

omit [LinearOrder K] [IsStrictOrderedRing K] [FloorRing K] in
/-- The given database announces what the default class uses. -/
theorem sameButBound_default (env : DriverEnv P S K) (mem : ℕ → P) (range : ℕ → ℕ × ℕ) :
    SameButBound (defaultMaxSV env) mem range env env :=
  ⟨rfl, fun _ _ => rfl, fun A B _ => by rw [defaultMaxSV, findMaxSigmaVProduct_eq, List.map_map]; rfl⟩

/-- The equations with `m` as their announced maximum: the first one announces it, the others nothing. -/
def announce (m : K) : List (Eqn P S K) → List (Eqn P S K)
  | [] => []
  | e :: es => { e with maxSigmaV := fun _ => m } :: es.map fun e => { e with maxSigmaV := fun _ => 0 }

omit [LinearOrder K] [IsStrictOrderedRing K] [FloorRing K] in
/-- **C103**  Whatever class provides the maxima, there is a database with the same cross sections and models whose
announced maxima add up to what the class provides. -/
theorem C103_policy_as_database (get : MaxSVPolicy P S K) (env : DriverEnv P S K) (mem : ℕ → P) (range : ℕ → ℕ × ℕ) :
    ∃ env', SameButBound get mem range env env' := by
  refine ⟨{ env with rhs := fun A B => announce (get (env.rhs A B) mem range A B) (env.rhs A B) }, rfl, ?_, ?_⟩
  · intro A B
    simp only
    cases h : env.rhs A B with
    | nil => rfl
    | cons e es => simp [announce, List.map_map, Function.comp_def]
  · intro A B hne
    simp only
    cases h : env.rhs A B with
    | nil => exact absurd h hne
    | cons e es => simp [announce, List.map_map, Function.comp_def]

/-- **C103**  A monitor changes nothing: whatever the monitor and whatever class provides the maxima, the run does what
the driver with the default classes does on a database that announces these maxima, with the same particles, ranges,
results and erasure queue at the end, and the same undefined behaviour. -/
theorem C103_same_run {M : Type} (mon : Monitor P K M) (get : MaxSVPolicy P S K) (env env' : DriverEnv P S K)
    (st : DState P S K) (mn : M) (hb : SameButBound get st.mem st.range env env') (fi fs : ℕ) :
    (driverM mon get env fi fs (st, mn)).map Prod.fst =
      (driver env' fi fs st).map fun st' => { st' with log := st.log } := by
  rcases driverM_sim get env env' st hb fi fs with ⟨e, h1, h2⟩ | ⟨_, st', _, _, _, h1, _, _, _, _, h2⟩
  · rw [h1, h2 M mon mn st.log]; rfl
  · rw [h1, h2 M mon mn st.log]; rfl

/-- **C103**  With the default class for the maxima the run is that of the driver on the database itself. -/
theorem C103_default {M : Type} (mon : Monitor P K M) (env : DriverEnv P S K) (st : DState P S K) (mn : M) (fi fs : ℕ) :
    (driverM mon (defaultMaxSV env) env fi fs (st, mn)).map Prod.fst =
      (driver env fi fs st).map fun st' => { st' with log := st.log } :=
  C103_same_run mon _ env env st mn (sameButBound_default env _ _) fi fs

theorem speciesPairs_lex (n : ℕ) : (speciesPairs n).Pairwise fun x y => x.1 < y.1 ∨ (x.1 = y.1 ∧ x.2 < y.2) := by
  unfold speciesPairs
  rw [List.pairwise_flatMap]
  constructor
  · intro A _
    rw [List.pairwise_map]
    refine List.Pairwise.imp ?_ (List.pairwise_lt_range' (s := A) (n := n - A))
    intro a b h; exact .inr ⟨rfl, h⟩
  · refine List.Pairwise.imp ?_ (List.pairwise_lt_range (n := n))
    intro a b h x hx y hy
    simp only [List.mem_map] at hx hy
    obtain ⟨_, _, rfl⟩ := hx
    obtain ⟨_, _, rfl⟩ := hy
    exact .inl h

/-- The pairs that have test data. -/
private def pairsOf (ds : List ((ℕ × ℕ) × Option (TestData K))) : List (ℕ × ℕ) :=
  ds.filterMap fun d => d.2.map fun _ => d.1

omit [Field K] [LinearOrder K] [IsStrictOrderedRing K] [FloorRing K] in
private theorem forall₂_numbers {R : ℕ × ℕ → K → Prop} :
    ∀ (ds : List ((ℕ × ℕ) × Option (TestData K))), (∀ x td, (x, some td) ∈ ds → R x td.numberTests) →
      List.Forall₂ R (pairsOf ds) (numbers ds)
  | [], _ => .nil
  | (x, none) :: ds, h => by
    simpa [pairsOf, numbers] using forall₂_numbers ds fun y td hm => h y td (List.mem_cons_of_mem _ hm)
  | (x, some td) :: ds, h => by
    simpa [pairsOf, numbers] using And.intro (h x td (by simp))
      (forall₂_numbers ds fun y td hm => h y td (List.mem_cons_of_mem _ hm))

/-- **C103**  What a monitor is told, for every monitor: its state at the end is its state at the start, changed by the
numbers of tests and then by the reports, in order. -/
theorem C103_told (get : MaxSVPolicy P S K) (env env' : DriverEnv P S K) (hv : env.rng.Valid)
    (hw : ∀ p, 0 < env.weight p) (st0 st : DState P S K) (hb : SameButBound get st0.mem st0.range env env')
    (hwf : WFRanges env.nSpecies st0.range) (hlog : st0.log = []) (fi fs : ℕ) (hrun : driver env' fi fs st0 = .ok st) :
    ∃ (ps : List (ℕ × ℕ)) (nums : List K) (reports : List (Report P K)), Told get env st0 st ps nums reports ∧
      ∀ (M : Type) (mon : Monitor P K M) (mn : M),
        driverM mon get env fi fs (st0, mn) = .ok ({ st with log := [] },
          reports.foldl (fun m r => mon.interactions r m) (nums.foldl (fun m n => mon.pairtests n m) mn)) := by
  rcases driverM_sim get env env' st0 hb fi fs with ⟨e, h1, -⟩ | ⟨st1, st', ds, evs, rs, h1, h2, h3, h4, h5, h6⟩
  · rw [h1] at hrun; cases hrun
  rw [h1, Except.ok.injEq] at hrun
  subst hrun
  have hn : env'.nSpecies = env.nSpecies := by rw [hb.const]
  have hrng : env'.rng = env.rng := by rw [hb.const]
  have hempty : ∀ A B, env'.rhs A B = [] ↔ env.rhs A B = [] := by
    intro A B
    have := congrArg List.length (hb.eqs A B)
    simp only [List.length_map] at this
    rw [← List.length_eq_zero_iff, this, List.length_eq_zero_iff]
  obtain ⟨⟨g1, hg1⟩, hm, hd⟩ := estimateAll_spec env' _ _ _ _ h2
  have hdata := estimateAll_data env' _ _ _ _ h2
  have hds : ∀ d ∈ ds, d.1.1 ≤ d.1.2 ∧ d.1.2 < env'.nSpecies ∧ (d.2 = none ↔ env'.rhs d.1.1 d.1.2 = []) := by
    intro d hdm
    have h1 : d.1 ∈ speciesPairs env'.nSpecies := by rw [← hm]; exact List.mem_map.2 ⟨d, hdm, rfl⟩
    have := (mem_speciesPairs _ _ _).1 h1
    exact ⟨this.1, this.2, hd d hdm⟩
  obtain ⟨evs', i1, -, i3⟩ := collideAll_count env' (hrng ▸ hv) fi fs ds st1 st' (by rw [hg1, hn]; exact hwf) hds
    (by rw [hm]; exact nodup_speciesPairs _) h3
  have hevs : st'.log = evs := by rw [h4, hlog]; simp
  have hevs' : evs' = st'.log := by rw [i1, hg1, hlog]; simp
  obtain ⟨hl, hrep⟩ := h5.get
  refine ⟨pairsOf ds, numbers ds, rs, ⟨?_, ?_, ?_, ?_, ?_, ?_⟩, fun M mon mn => ?_⟩
  · have hsub : (pairsOf ds).Sublist (ds.map Prod.fst) := by
      unfold pairsOf
      clear * -
      induction ds with
      | nil => exact .slnil
      | cons d ds ih =>
        obtain ⟨x, o⟩ := d
        cases o with
        | none => simpa using ih.cons x
        | some td => simpa using ih
    rw [hm] at hsub
    exact List.Pairwise.sublist hsub (speciesPairs_lex _)
  · intro A B
    unfold pairsOf
    rw [List.mem_filterMap]
    constructor
    · rintro ⟨⟨x, o⟩, hmem, hx⟩
      cases o with
      | none => simp at hx
      | some td =>
        simp only [Option.map_some, Option.some.injEq] at hx
        subst hx
        obtain ⟨a1, a2, a3⟩ := hds _ hmem
        exact ⟨a1, hn ▸ a2, fun hc => absurd (a3.2 ((hempty A B).2 hc)) (by simp)⟩
    · rintro ⟨a1, a2, a3⟩
      have : (A, B) ∈ ds.map Prod.fst := by rw [hm, mem_speciesPairs, hn]; exact ⟨a1, a2⟩
      obtain ⟨⟨x, o⟩, hmem, rfl⟩ := List.mem_map.1 this
      cases o with
      | none => exact absurd ((hempty A B).1 ((hd _ hmem).1 rfl)) a3
      | some td => exact ⟨_, hmem, rfl⟩
  · refine forall₂_numbers ds ?_
    rintro ⟨A, B⟩ td hmem
    obtain ⟨g, hsv, hnt⟩ := hdata A B td hmem
    have hne : env.rhs A B ≠ [] := fun hc => absurd ((hd _ hmem).2 ((hempty A B).2 hc)) (by simp)
    have hmax : td.maxSV = get (env.rhs A B) st0.mem st0.range A B := by
      rw [hsv, ← hb.bound A B hne, findMaxSigmaVProduct_eq, List.map_map, hb.const]; rfl
    refine ⟨_, g, ?_, rfl⟩
    rw [hnt, hmax, promote, hb.const, estimateTests_eq _ _ (hw _) (hw _)]
    rfl
  · refine forall₂_numbers ds ?_
    rintro ⟨A, B⟩ td hmem
    have h4 := i3 A B td hmem
    simp only [hevs'] at h4
    refine ⟨h4.1, h4.2.imp_right ?_⟩
    intro hc
    simp only [notEnough, Bool.or_eq_true, Bool.and_eq_true, beq_iff_eq, decide_eq_true_eq] at hc
    exact hc
  · rw [hl, hevs]
  · intro k ev r hk hr
    rw [hevs] at hk ⊢
    exact hrep k ev r hk hr
  · have := h6 M mon mn []
    rw [show ({ st0 with log := [] } : DState P S K) = st0 by rw [← hlog]] at this
    exact this

end

/-! ### The numbers told and the tests performed -/

open MeasureTheory in
/-- **C103**  The mean of the number told is not the estimate `N`: it exceeds it by its fractional part. -/
theorem C103_mean_told (N : ℝ) : ∫ u, (if u < N - ⌊N⌋ then N + 1 else N) ∂unif = N + (N - ⌊N⌋) := by
  have hfr : 0 ≤ N - ⌊N⌋ := sub_nonneg.2 (Int.floor_le N)
  have hfl : N - ⌊N⌋ < 1 := by linarith [Int.lt_floor_add_one N]
  have hfun : (fun u : ℝ => if u < N - ⌊N⌋ then N + 1 else N) =
      fun u => N + (Set.Iio (N - ⌊N⌋)).indicator (fun _ => (1:ℝ)) u := by
    funext u
    rw [Set.indicator_apply]
    simp only [Set.mem_Iio]
    split <;> simp
  rw [hfun, integral_add (integrable_const _) ((integrable_const _).indicator measurableSet_Iio),
    integral_const, integral_indicator measurableSet_Iio, integral_const]
  simp only [probReal_univ, smul_eq_mul, one_mul, mul_one, measureReal_restrict_apply_univ]
  congr 1
  rw [unif, measureReal_restrict_apply measurableSet_Iio]
  have : Set.Iio (N - ⌊N⌋) ∩ Set.Ico 0 1 = Set.Ico 0 (N - ⌊N⌋ : ℝ) := by
    ext x; simp only [Set.mem_inter_iff, Set.mem_Iio, Set.mem_Ico]
    constructor
    · rintro ⟨h1, h2, _⟩; exact ⟨h2, h1⟩
    · rintro ⟨h1, h2⟩; exact ⟨h2, h1, by linarith⟩
  rw [this, Measure.real, Real.volume_Ico, sub_zero, ENNReal.toReal_ofReal hfr]

/-! ### A monitor that counts -/

section

variable {P S : Type}

/-- Counts the reports about the particles at `p` and `q` with path `j`. -/
def counter {K : Type} (p q : ℕ) (j : ℤ) : Monitor P K ℕ :=
  ⟨fun r m => if r.p = p ∧ r.q = q ∧ r.path.1 = j then m + 1 else m, fun _ m => m⟩

open Classical in
/-- What the counter has counted in a run that starts with the generator in state `s` (0 if the run does not finish). -/
noncomputable def counted (get : MaxSVPolicy P S ℝ) (env : DriverEnv P S ℝ) (st : DState P S ℝ) (p q : ℕ) (j : ℤ)
    (s : S) : ℕ :=
  if h : ∃ x fi fs, driverM (counter p q j) get env fi fs ({ st with gen := s }, 0) = .ok x then h.choose.2 else 0

private theorem tell_counter (env : DriverEnv P S ℝ) (p q : ℕ) (j : ℤ) :
    ∀ (evs : List (Event P ℝ)) (rs : List (Report P ℝ)) (res : List P) (n : ℕ), Follow env res evs rs →
      tell (counter p q j) rs n = n + (evs.filter fun e => e.p == p && e.q == q && e.path.first == j).length := by
  intro evs rs res n h
  have hmap : rs.map (fun r => (r.p, r.q, r.path.1)) = evs.map fun e => (e.p, e.q, e.path.first) := by
    obtain ⟨hl, hg⟩ := h.get
    refine List.ext_getElem? fun k => ?_
    rw [List.getElem?_map, List.getElem?_map]
    rcases hk : evs[k]? with _ | ev
    · rw [List.getElem?_eq_none_iff] at hk
      rw [List.getElem?_eq_none_iff.2 (by omega)]; rfl
    · obtain ⟨hlt, -⟩ := List.getElem?_eq_some_iff.1 hk
      have hr := List.getElem?_eq_getElem (l := rs) (i := k) (by omega)
      obtain ⟨h1, h2, h3, -⟩ := hg k ev _ hk hr
      rw [hr]; simp [h1, h2, h3]
  clear h
  induction rs generalizing evs n with
  | nil => cases evs with
    | nil => rfl
    | cons e evs => simp at hmap
  | cons r rs ih => cases evs with
    | nil => simp at hmap
    | cons e evs =>
      simp only [List.map_cons, List.cons.injEq, Prod.mk.injEq] at hmap
      obtain ⟨⟨h1, h2, h3⟩, h4⟩ := hmap
      simp only [tell, List.foldl_cons] at ih ⊢
      rw [ih _ _ h4, List.filter_cons]
      simp only [counter, h1, h2, h3, Bool.and_eq_true, beq_iff_eq, and_assoc]
      split
      · simp; omega
      · simp

open MeasureTheory
open scoped ENNReal

variable [MeasurableSpace S] {μ : Measure S} [IsProbabilityMeasure μ]

/-- **C103**  The counter and the rate, for any class that provides the maxima: on average the monitor is told
`max(w_A, w_B) σ_j(v) v dt / V` times that the particles at `p` and `q` performed equation `j`, whatever value
`M > 0` the class returns, as long as no `σ_T v` of the pair exceeds it and the estimate is not an integer. -/
theorem C103_rate (get : MaxSVPolicy P S ℝ) (env : DriverEnv P S ℝ) (hout : env.inplace = false)
    (hrng : env.rng.IID μ) (hval : env.rng.Valid) (hact : ∀ A B, ActsPreserve (env.rhs A B) μ)
    (st : DState P S ℝ) (hlog : st.log = []) (hwf : WFRanges env.nSpecies st.range)
    (hpop : ∀ A B, A ≤ B → B < env.nSpecies → env.rhs A B ≠ [] →
      (st.range A).1 < (st.range A).2 ∧ (st.range B).1 < (st.range B).2)
    (hw : ∀ p, 0 < env.weight p) (A B : ℕ) (hAB : A < B) (hB : B < env.nSpecies)
    (p q : ℕ) (hp : (st.range A).1 ≤ p ∧ p < (st.range A).2) (hq : (st.range B).1 ≤ q ∧ q < (st.range B).2)
    (v : ℝ) (hv : v = env.relSpeed (st.mem p) (st.mem q)) (hv0 : 0 ≤ v)
    (hnn : ∀ e ∈ env.rhs A B, 0 ≤ e.sigma v)
    (M : ℝ) (hM : M = get (env.rhs A B) st.mem st.range A B) (hM0 : 0 < M)
    (hb : ((env.rhs A B).map fun e => e.sigma v).sum * v ≤ M)
    (N : ℝ) (hN : N = ntcEstimate (env.weight (st.mem (st.range A).1)) (env.weight (st.mem (st.range B).1))
      ((st.range A).2 - (st.range A).1) ((st.range B).2 - (st.range B).1) env.dt M env.volume false)
    (hN0 : 0 ≤ N) (hi : N ≠ ⌊N⌋) (j : ℕ) (e : Eqn P S ℝ) (he : (env.rhs A B)[j]? = some e) :
    ∫⁻ s, (counted get env st p q j s : ℝ≥0∞) ∂μ =
      ENNReal.ofReal (max (env.weight (st.mem (st.range A).1)) (env.weight (st.mem (st.range B).1)) *
        e.sigma v * v * env.dt / env.volume) := by
  obtain ⟨env', hsb⟩ := C103_policy_as_database get env st.mem st.range
  have hc := hsb.const
  have hn : env'.nSpecies = env.nSpecies := by rw [hc]
  have hne : env.rhs A B ≠ [] := by intro h; rw [h] at he; simp at he
  have hA : A < env.nSpecies := by omega
  have key : ∀ s, counted get env st p q j s = timesPerformed A B p q j (runLog env' st s) := by
    intro s
    by_cases hex : ∃ x fi fs, driverM (counter p q (j : ℤ)) get env fi fs ({ st with gen := s }, 0) = .ok x
    · rw [counted, dif_pos hex]
      obtain ⟨fi, fs, hx⟩ := hex.choose_spec
      rcases driverM_sim get env env' { st with gen := s } hsb fi fs with
        ⟨err, -, h2⟩ | ⟨st1, st', ds, evs, rs, h1, -, -, h4, h5, h6⟩
      · have := h2 ℕ (counter p q (j : ℤ)) 0 st.log
        rw [hx] at this; cases this
      · have h7 := h6 ℕ (counter p q (j : ℤ)) 0 st.log
        rw [hx, Except.ok.injEq] at h7
        rw [runLog_eq env' st st' s fi fs h1, h7, h4]
        have hnum : ∀ l : List ℝ,
            l.foldl (fun m x => (counter (P := P) p q (j : ℤ)).pairtests x m) 0 = 0 := by
          intro l; induction l with
          | nil => rfl
          | cons x l ih => simp [counter]
        simp only [hlog, List.nil_append]
        rw [hnum, tell_counter env p q j evs rs _ 0 h5, Nat.zero_add, timesPerformed]
        congr 1
        apply List.filter_congr
        intro ev hev
        have := C42_pairs env' (by rw [hc]; exact hout) (by rw [hc]; exact hval) fi fs { st with gen := s } st' hlog h1 ev
          (by rw [h4]; exact List.mem_append_right _ hev)
        obtain ⟨g1, g2, -, -, -, g3, g4, -, g5, g6⟩ := this
        rw [hn] at g2
        by_cases hpq : ev.p = p ∧ ev.q = q
        · have eA : ev.A = A := by
            by_contra hcon
            exact hwf.disj ev.A (by omega) A hA hcon p ⟨⟨hpq.1 ▸ g3, hpq.1 ▸ g4⟩, hp⟩
          have eB : ev.B = B := by
            by_contra hcon
            exact hwf.disj ev.B g2 B hB hcon q ⟨⟨hpq.2 ▸ g5, hpq.2 ▸ g6⟩, hq⟩
          simp [eA, eB]
        · have : (ev.p == p && ev.q == q) = false := by
            simpa [Bool.and_eq_false_iff, not_and_or] using hpq
          rw [Bool.and_assoc (ev.A == A && ev.B == B), this]; simp
    · rw [counted, dif_neg hex]
      have hno : ¬ ∃ st' fi fs, driver env' fi fs { st with gen := s } = .ok st' := by
        rintro ⟨st', fi, fs, hd⟩
        have := C103_same_run (counter p q (j : ℤ)) get env env' { st with gen := s } 0 hsb fi fs
        rw [hd] at this
        rcases hx : driverM (counter p q (j : ℤ)) get env fi fs ({ st with gen := s }, 0) with err | x
        · rw [hx] at this; cases this
        · exact hex ⟨x, fi, fs, hx⟩
      rw [runLog, dif_neg hno]; rfl
  simp only [key]
  have hlen : (env'.rhs A B).length = (env.rhs A B).length := by simpa using congrArg List.length (hsb.eqs A B)
  have hj : j < (env.rhs A B).length := (List.getElem?_eq_some_iff.1 he).1
  have hsig : ∀ C D : ℕ, (env'.rhs C D).map (fun e => e.sigma) = (env.rhs C D).map fun e => e.sigma := by
    intro C D
    have := congrArg (List.map Prod.fst) (hsb.eqs C D)
    simpa [List.map_map, Function.comp_def] using this
  have hact' : ∀ C D : ℕ, (env'.rhs C D).map (fun e => e.act) = (env.rhs C D).map fun e => e.act := by
    intro C D
    have := congrArg (List.map Prod.snd) (hsb.eqs C D)
    simpa [List.map_map, Function.comp_def] using this
  have hnil : ∀ C D, env'.rhs C D ≠ [] → env.rhs C D ≠ [] := by
    intro C D h1 h2
    have := hsig C D
    rw [h2] at this
    exact h1 (by simpa using this)
  obtain ⟨e', he'⟩ : ∃ e', (env'.rhs A B)[j]? = some e' := ⟨_, List.getElem?_eq_getElem (by omega)⟩
  have hes : e'.sigma = e.sigma := by
    have := congrArg (fun l => l[j]?) (hsig A B)
    simpa [he, he'] using this
  have hsum : ((env'.rhs A B).map fun e => e.sigma v) = (env.rhs A B).map fun e => e.sigma v := by
    have := congrArg (List.map fun f => f v) (hsig A B)
    simpa [List.map_map, Function.comp_def] using this
  have hconst : env'.weight = env.weight ∧ env'.dt = env.dt ∧ env'.volume = env.volume ∧ env'.relSpeed = env.relSpeed ∧
      env'.maxRelVel = env.maxRelVel := by rw [hc]; exact ⟨rfl, rfl, rfl, rfl, rfl⟩
  obtain ⟨c1, c2, c3, c4, c5⟩ := hconst
  have := C76_two_species env' (by rw [hc]; exact hout) (by rw [hc]; exact hrng)
    (fun C D e1 h1 a b => by
      have : e1.act ∈ (env.rhs C D).map fun e => e.act := by rw [← hact']; exact List.mem_map.2 ⟨e1, h1, rfl⟩
      obtain ⟨e2, h2, h3⟩ := List.mem_map.1 this
      rw [← h3]; exact hact C D e2 h2 a b) st hlog (by rw [hn]; exact hwf)
    (fun C D h1 h2 h3 => hpop C D h1 (hn ▸ h2) (hnil C D h3)) (by rw [c1]; exact hw) A B hAB (hn ▸ hB) p q hp hq v
    (by rw [c4]; exact hv) hv0
    (fun e1 h1 => by
      have : e1.sigma ∈ (env.rhs A B).map fun e => e.sigma := by rw [← hsig]; exact List.mem_map.2 ⟨e1, h1, rfl⟩
      obtain ⟨e2, h2, h3⟩ := List.mem_map.1 this
      rw [← h3]; exact hnn e2 h2)
    M (by rw [hM, c5, ← hsb.bound A B hne]) hM0 (by rw [hsum]; exact hb) N (by rw [c1, c2, c3]; exact hN) hN0 hi j e' he'
  rw [this, c1, c2, c3, hes]

end

/-! ### Examples -/

namespace MonitorExample

open DriverExample in
/-- Keeps everything it is told: the numbers, and of each report the positions, the path, the charges of the pair and
the identities of the results. -/
def recorder : Monitor Pt ℚ (List ℚ × List (List ℤ)) :=
  ⟨fun r m => (m.1, m.2 ++ [[(r.p : ℤ), (r.q : ℤ), r.path.1, r.a.q, r.b.q] ++ r.results.map (fun x => (x.id : ℤ))]), fun x m => (m.1 ++ [x], m.2)⟩

/-- What the recorder has at the end. -/
def recorded {A B : Type} (r : Except DErr (A × B)) : Option B :=
  match r with
  | .ok x => some x.2
  | .error _ => none

/-- The default class: two estimates, 2 and 3, and one test less of each. The first test exchanged charge, the other two
made a product each, and the pair is reported as the test left it. -/
example : recorded (driverM recorder (defaultMaxSV (DriverExample.env true)) (DriverExample.env true) 10 10
    (DriverExample.cell, ([], []))) =
    some ([2, 3], [[2, 3, 1, 1, -1], [2, 6, 0, 1, 6, 162], [1, 5, 0, 0, 5, 162, 151]]) := by
  decide +kernel

/-- A class that always returns 3/4: estimates 3/2 and 9/4, the first promoted to 5/2. -/
example : recorded (driverM recorder (fun _ _ _ _ _ => 3/4) (DriverExample.env true) 10 10
    ({ DriverExample.cell with gen := 1 }, ([], []))) =
    some ([5/2, 9/4],
      [[3, 0, 1, 1, -1], [3, 0, 1, 2, -2], [3, 4, 0, 2, 4, 143], [2, 4, 0, 0, 6, 143, 162]]) := by
  decide +kernel

/-- The hypotheses of `C103_told` for a class that always returns 3/4. -/
example : ∃ env' fi fs st, SameButBound (fun _ _ _ _ _ => 3/4) DriverExample.cell.mem DriverExample.cell.range
      (DriverExample.env true) env' ∧ driver env' fi fs DriverExample.cell = .ok st ∧
    WFRanges (DriverExample.env true).nSpecies DriverExample.cell.range ∧ (DriverExample.env true).rng.Valid ∧
    (∀ p, 0 < (DriverExample.env true).weight p) ∧ DriverExample.cell.log = [] := by
  obtain ⟨env', h⟩ := C103_policy_as_database (fun _ _ _ _ _ => 3/4) (DriverExample.env true) DriverExample.cell.mem
    DriverExample.cell.range
  have hc := h.const
  obtain ⟨fi, fs, st, hd⟩ := C38_driver_finishes env' (by rw [hc]; exact DriverExample.rng_valid)
    (by rw [hc]; exact DriverExample.rng_fair) DriverExample.cell (by rw [hc]; exact DriverExample.cell_wf)
    (by
      intro A B hAB hB _
      have hB' : B < 2 := by rw [hc] at hB; exact hB
      have : (A = 0 ∨ A = 1) ∧ (B = 0 ∨ B = 1) := by omega
      obtain ⟨rfl | rfl, rfl | rfl⟩ := this <;> decide)
  exact ⟨env', fi, fs, st, h, hd, DriverExample.cell_wf, DriverExample.rng_valid,
    fun _ => by simp [DriverExample.env], rfl⟩

open MeasureTheory
open scoped ENNReal

/-- Independent uniform numbers, all of them in `[0, 1)`. -/
noncomputable def unitRNG : RNG (ℕ → ℝ) ℝ where
  rand s := (Int.fract (s 0), fun j => s (j + 1))
  randExc s := (Int.fract (s 0), fun j => s (j + 1))

theorem unitRNG_valid : unitRNG.Valid :=
  ⟨fun _ => ⟨Int.fract_nonneg _, (Int.fract_lt_one _).le⟩, fun _ => ⟨Int.fract_nonneg _, Int.fract_lt_one _⟩⟩

theorem unitRNG_iid : unitRNG.IID iidUnif := by
  have hm : Measurable unitRNG.rand := by
    refine Measurable.prodMk (measurable_fract.comp (measurable_pi_apply 0)) ?_
    exact measurable_pi_lambda _ fun j => measurable_pi_apply (j + 1)
  have hlaw : iidUnif.map unitRNG.rand = unif.prod iidUnif := by
    rw [← streamRNG_iid.rand_law]
    refine Measure.map_congr ?_
    have hmp : MeasurePreserving (fun s : ℕ → ℝ => s 0) iidUnif unif := by
      refine ⟨measurable_pi_apply 0, ?_⟩
      have : (fun s : ℕ → ℝ => s 0) = Prod.fst ∘ streamRNG.rand := rfl
      rw [this, ← Measure.map_map measurable_fst streamRNG_iid.rand_meas, streamRNG_iid.rand_law]
      simp
    have hae : ∀ᵐ u ∂unif, u ∈ Set.Ico (0 : ℝ) 1 := ae_restrict_mem measurableSet_Ico
    filter_upwards [hmp.quasiMeasurePreserving.ae hae] with s hs
    simp only [unitRNG, streamRNG, Int.fract_eq_self.2 hs]
  exact ⟨hm, hm, hlaw, hlaw⟩

/-- The cell of C76 with these numbers. -/
noncomputable def env (dt : ℝ) : DriverEnv ℝ (ℕ → ℝ) ℝ := { ExpectedExample.env dt with rng := unitRNG }

/-- A class that always returns 5: the estimate is 2, an integer, for `dt = 1/5` and 5/2 for `dt = 1/4`, in which case the
monitor counts 1/2 for the pair at distance 2. -/
example : ∫⁻ s, (counted (fun _ _ _ _ _ => 5) (env (1/4)) ExpectedExample.cell 1 2 0 s : ℝ≥0∞) ∂iidUnif =
    ENNReal.ofReal (1/2) := by
  have := C103_rate (fun _ _ _ _ _ => 5) (env (1/4)) rfl unitRNG_iid unitRNG_valid (ExpectedExample.acts (1/4))
    ExpectedExample.cell rfl ExpectedExample.cell_wf (ExpectedExample.cell_pop (1/4)) (fun _ => one_pos)
    0 1 (by norm_num) (by decide) 1 2 (by simp [ExpectedExample.cell]) (by simp [ExpectedExample.cell]) 2
    (by simp [env, ExpectedExample.env, ExpectedExample.cell]; norm_num) (by norm_num)
    (by simp [env, ExpectedExample.env, ExpectedExample.e1]) 5 rfl (by norm_num)
    (by simp [env, ExpectedExample.env, ExpectedExample.e1]; norm_num) (5/2)
    (by simp [env, ExpectedExample.env, ExpectedExample.cell, ntcEstimate]; norm_num) (by norm_num) (by norm_num) 0
    ExpectedExample.e1 (by simp [env, ExpectedExample.env])
  rw [show ((0 : ℕ) : ℤ) = 0 from rfl] at this
  rw [this]
  congr 1
  simp only [env, ExpectedExample.env, ExpectedExample.e1, max_self]
  norm_num

end MonitorExample

end Chimp
