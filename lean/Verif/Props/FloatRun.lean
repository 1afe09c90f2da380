import Verif.Props.FloatSelect
import Verif.Props.DriverCount

/-!
# Property C96: driver runs in floating-point arithmetic
-/

namespace Chimp

variable {P S : Type} {p : ℕ} (R : Rounding p)

/-! ## Bookkeeping -/

section
variable (hp : 0 < p) (env : DriverEnv P S ℝ) (hv : env.rng.ValidFP p) (fi fs : ℕ) (st0 st : DState P S ℝ)
  (hwf : WFRanges env.nSpecies st0.range)
  (hfit : ∀ C < env.nSpecies, (st0.range C).2 - (st0.range C).1 ≤ 2 ^ p)
include hp hv hwf hfit

/-- **C96**  The bookkeeping of an in-place run (C39) does not depend on exact arithmetic: survivors and consumed particles
are the particles initially there. -/
theorem C96_survivors_plus_consumed {ι : Type} (hin : env.inplace = true) (ident : P → ι) (hk : InPlaceKeeps env ident)
    (hf : Fresh st0) (hrun : driverR R.rd env fi fs st0 = .ok st) :
    ∀ C < env.nSpecies, (liveM st.mem (st.range C)).map ident + (consumedM C st.log).map ident =
      (liveM st0.mem (st0.range C)).map ident :=
  (bookInv_run env hin ident hk st0 st hwf hf (driverR_tests R hp hv hwf hfit hrun)).live

/-- **C96**  The erasure queue (C39). -/
theorem C96_erasure_queue (hin : env.inplace = true) (hf : Fresh st0) (hrun : driverR R.rd env fi fs st0 = .ok st) :
    st.erased.Nodup ∧
    (∀ z, z ∈ st.erased ↔ ∃ C < env.nSpecies, (st.range C).2 ≤ z ∧ z < (st0.range C).2) ∧
    st.erased.length = 2 * consumingCount st.log ∧
    (∀ C, (st.range C).1 = (st0.range C).1 ∧ (st.range C).2 ≤ (st0.range C).2) ∧
    WFRanges env.nSpecies st.range := by
  have h := bookInv_run env hin (fun _ => ()) (fun _ _ _ _ _ _ _ => ⟨rfl, rfl⟩) st0 st
    hwf hf (driverR_tests R hp hv hwf hfit hrun)
  exact ⟨h.nodup, h.erased, h.count, fun C => ⟨h.lo C, h.hi C⟩, h.wf⟩

/-- **C96**  Tested pairs are two particles of the cell, and consumed ones are never tested again (C40). -/
theorem C96_pairs_are_live {ι : Type} (hin : env.inplace = true) (ident : P → ι) (hk : InPlaceKeeps env ident)
    (hf : Fresh st0) (hrun : driverR R.rd env fi fs st0 = .ok st) :
    (∀ e ∈ st.log, e.A ≤ e.B ∧ e.B < env.nSpecies ∧ e.p ≠ e.q ∧
      ident e.a ∈ (liveM st0.mem (st0.range e.A)).map ident ∧
      ident e.b ∈ (liveM st0.mem (st0.range e.B)).map ident) ∧
    ((∀ C < env.nSpecies, ∀ D < env.nSpecies,
      ((liveM st0.mem (st0.range C)).map ident).Nodup ∧
      (C ≠ D → Disjoint ((liveM st0.mem (st0.range C)).map ident)
        ((liveM st0.mem (st0.range D)).map ident))) →
      st.log.Pairwise (fun e e' => e.prods ≠ [] →
        (ident e'.a ≠ ident e.a ∧ ident e'.a ≠ ident e.b ∧
         ident e'.b ≠ ident e.a ∧ ident e'.b ≠ ident e.b))) :=
  have h := logInv_run env hin ident hk st0 st hwf hf (driverR_tests R hp hv hwf hfit hrun)
  ⟨h.valid, h.pw⟩

/-- **C96**  Species ranges stay homogeneous (C41). -/
theorem C96_homogeneous (hin : env.inplace = true) (hk : InPlaceKeeps env env.species) (hf : Fresh st0)
    (hom : Homogeneous env st0) (hrun : driverR R.rd env fi fs st0 = .ok st) :
    Homogeneous env st ∧ ∀ e ∈ st.log, env.species e.a = e.A ∧ env.species e.b = e.B :=
  (driverR_tests R hp hv hwf hfit hrun).homogeneous hin hk hwf hf hom

/-- **C96**  An out-of-place run leaves the cell alone and tests pairs of different particles (C42). -/
theorem C96_out_of_place (hout : env.inplace = false) (hlog : st0.log = [])
    (hrun : driverR R.rd env fi fs st0 = .ok st) :
    (st.mem = st0.mem ∧ st.range = st0.range ∧ st.erased = st0.erased) ∧
    ∀ e ∈ st.log, e.A ≤ e.B ∧ e.B < env.nSpecies ∧ env.rhs e.A e.B ≠ [] ∧ e.p ≠ e.q ∧
      e.a = st0.mem e.p ∧ (st0.range e.A).1 ≤ e.p ∧ e.p < (st0.range e.A).2 ∧
      e.b = st0.mem e.q ∧ (st0.range e.B).1 ≤ e.q ∧ e.q < (st0.range e.B).2 :=
  have h := driverR_tests R hp hv hwf hfit hrun
  ⟨h.outOfPlace hout, h.pairs hout hlog⟩

/-- **C96**  The result list grows by the reported products (C43). -/
theorem C96_results_grow (hlog : st0.log = []) (hrun : driverR R.rd env fi fs st0 = .ok st) :
    st.results = st0.results ++ st.log.flatMap Event.prods :=
  (driverR_tests R hp hv hwf hfit hrun).results hlog

end

/-! ## Outcomes -/

private theorem testLoopR_paths (rd : ℝ → ℝ) (env : DriverEnv P S ℝ) (fs A B : ℕ) (m : ℝ) :
    ∀ (fi : ℕ) (nt : ℝ) (st st' : DState P S ℝ), testLoopR rd env fs A B m fi nt st = .ok st' →
      ∃ evs, st'.log = st.log ++ evs ∧ ∀ e ∈ evs, e.A = A ∧ e.B = B ∧ ∃ s,
        e.path = calculateOutPathR rd ((env.rhs A B).map (fun q => q.sigma (env.relSpeed e.a e.b))) m
          (env.relSpeed e.a e.b) (env.rng.rand s).1 (env.rng.randExc (env.rng.rand s).2).1 ∧
        (e.path.first < 0 → e.prods = []) := by
  intro fi
  induction fi with
  | zero =>
    intro nt st st' h
    simp only [testLoopR] at h
    split at h
    · cases h
    · cases h; exact ⟨[], by simp, by simp⟩
  | succ f ih =>
    intro nt st st' h
    simp only [testLoopR] at h
    split at h
    · split at h
      · cases h; exact ⟨[], by simp, by simp⟩
      · split at h
        · cases h
        · rename_i i j s' heq
          obtain ⟨evs, h1, h2⟩ := ih _ _ _ h
          have hl := (applyPair_fields env.inplace A B i j
            (setInteractR rd env (env.rhs A B) m (st.mem i) (st.mem j) s') { st with gen := s' }).2.1
          simp only at hl
          simp only [pairTestR] at h1
          rw [hl, List.append_assoc] at h1
          refine ⟨_, h1, ?_⟩
          intro e he
          rcases List.mem_append.1 he with he | he
          · rw [List.mem_singleton] at he
            subst he
            refine ⟨rfl, rfl, s', ?_, ?_⟩
            · simp only [setInteractR]; rw [performPath_fst]
            · intro hneg
              simp only [setInteractR] at hneg ⊢
              rw [performPath_fst] at hneg
              unfold performPath
              rw [if_neg (not_le.2 hneg)]
          · exact h2 e he
    · cases h; exact ⟨[], by simp, by simp⟩

private theorem collideAllR_paths (rd : ℝ → ℝ) (env : DriverEnv P S ℝ) (fi fs : ℕ) :
    ∀ (ds : List ((ℕ × ℕ) × Option (TestData ℝ))) (st st' : DState P S ℝ),
    collideAllR rd env fi fs ds st = .ok st' →
      ∃ evs, st'.log = st.log ++ evs ∧ ∀ e ∈ evs, ∃ m s,
        e.path = calculateOutPathR rd ((env.rhs e.A e.B).map (fun q => q.sigma (env.relSpeed e.a e.b))) m
          (env.relSpeed e.a e.b) (env.rng.rand s).1 (env.rng.randExc (env.rng.rand s).2).1 ∧
        (e.path.first < 0 → e.prods = []) := by
  intro ds
  induction ds with
  | nil =>
    intro st st' h
    simp only [collideAllR, Except.ok.injEq] at h
    subst h
    exact ⟨[], by simp, by simp⟩
  | cons d ds ih =>
    intro st st' h
    obtain ⟨⟨A, B⟩, o⟩ := d
    cases o with
    | none => exact ih st st' h
    | some td =>
      simp only [collideAllR] at h
      split at h
      · cases h
      · rename_i st1 h1
        obtain ⟨ev1, a1, a2⟩ := testLoopR_paths rd env fs A B td.maxSV fi _ _ _ h1
        obtain ⟨ev2, b1, b2⟩ := ih _ _ h
        refine ⟨ev1 ++ ev2, by rw [b1, a1, List.append_assoc], ?_⟩
        intro e he
        rcases List.mem_append.1 he with he | he
        · obtain ⟨rfl, rfl, s, hs⟩ := a2 e he
          exact ⟨_, s, hs⟩
        · exact b2 e he

/-- **C96**  Every test of a run reports nothing and creates nothing, or reports an equation of its species pair whose cross
section is positive at the relative speed of the two particles tested (C30 in floating-point arithmetic). -/
theorem C96_open_channels (env : DriverEnv P S ℝ) (hv : env.rng.ValidFP p) (fi fs : ℕ) (st0 st : DState P S ℝ)
    (hlog : st0.log = []) (hnn : ∀ A B, ∀ q ∈ env.rhs A B, ∀ v, 0 ≤ q.sigma v)
    (hrun : driverR R.rd env fi fs st0 = .ok st) :
    ∀ e ∈ st.log, (e.path.first = -1 ∧ e.prods = []) ∨
      ∃ j : ℕ, e.path.first = j ∧ ∃ q, (env.rhs e.A e.B)[j]? = some q ∧ 0 < q.sigma (env.relSpeed e.a e.b) ∧
        e.path.second = q.sigma (env.relSpeed e.a e.b) := by
  obtain ⟨ds, st1, -, hrun', ⟨g1, hg1⟩, -, -⟩ := driverR_split env R.rd fi fs st0 st hrun
  obtain ⟨evs, h1, h2⟩ := collideAllR_paths R.rd env fi fs ds st1 st hrun'
  have hlog' : st.log = evs := by rw [h1, hg1]; simp [hlog]
  rw [hlog']
  intro e he
  obtain ⟨m, s, hs, hs'⟩ := h2 e he
  have hcs : ∀ c ∈ (env.rhs e.A e.B).map (fun q => q.sigma (env.relSpeed e.a e.b)), 0 ≤ c := by
    intro c hc
    obtain ⟨q, hq, rfl⟩ := List.mem_map.1 hc
    exact hnn _ _ q hq _
  have h3 := C95_open_channel R _ hcs m (env.relSpeed e.a e.b) (env.rng.rand s).1
    (env.rng.randExc (env.rng.rand s).2).1 (hv.randExc_mem _).1
  simp only [← hs] at h3
  rcases h3 with h3 | ⟨j, hj, hlen, h4, h5, -⟩
  · exact .inl ⟨h3.1, hs' (by rw [h3.1]; norm_num)⟩
  · right
    rw [List.length_map] at hlen
    rw [List.getElem_map] at h4 h5
    exact ⟨j, hj, _, List.getElem?_eq_getElem hlen, h5, h4⟩

/-! ## The number of tests -/

/-- `y` is `x` after at most `k` roundings. -/
private def Near (p k : ℕ) (x y : ℝ) : Prop :=
  0 ≤ x ∧ (1 - unitError p) ^ k * x ≤ y ∧ y ≤ (1 + unitError p) ^ k * x

private theorem Near.nonneg (hp : 0 < p) {k : ℕ} {x y : ℝ} (h : Near p k x y) : 0 ≤ y := by
  have := unitError_le_half hp
  exact le_trans (mul_nonneg (pow_nonneg (by linarith) _) h.1) h.2.1

private theorem Near.rd (hp : 0 < p) {k : ℕ} {x y : ℝ} (h : Near p k x y) : Near p (k + 1) x (R.rd y) := by
  have hb := R.bounds (h.nonneg hp)
  have he := unitError_pos (p := p)
  have he2 := unitError_le_half hp
  refine ⟨h.1, ?_, ?_⟩
  · refine le_trans ?_ hb.1
    have := mul_le_mul_of_nonneg_left h.2.1 (by linarith : 0 ≤ 1 - unitError p)
    rw [pow_succ]; linarith
  · refine le_trans hb.2 ?_
    have := mul_le_mul_of_nonneg_left h.2.2 (by linarith : 0 ≤ 1 + unitError p)
    rw [pow_succ]; linarith

private theorem Near.mul {k : ℕ} {x y c : ℝ} (h : Near p k x y) (hc : 0 ≤ c) : Near p k (x * c) (y * c) := by
  refine ⟨mul_nonneg h.1 hc, ?_, ?_⟩
  · have := mul_le_mul_of_nonneg_right h.2.1 hc; linarith
  · have := mul_le_mul_of_nonneg_right h.2.2 hc; linarith

private theorem Near.mul' (hp : 0 < p) {k l : ℕ} {x y c d : ℝ} (h : Near p k x y) (h' : Near p l c d) :
    Near p (k + l) (x * c) (y * d) := by
  have he := unitError_pos (p := p)
  have he2 := unitError_le_half hp
  refine ⟨mul_nonneg h.1 h'.1, ?_, ?_⟩
  · have := mul_le_mul h.2.1 h'.2.1 (mul_nonneg (pow_nonneg (by linarith) _) h'.1) (h.nonneg hp)
    rw [pow_add]; linarith
  · have := mul_le_mul h.2.2 h'.2.2 (h'.nonneg hp) (mul_nonneg (pow_nonneg (by linarith) _) h.1)
    rw [pow_add]; linarith

private theorem near_refl {x : ℝ} (hx : 0 ≤ x) : Near p 0 x x := ⟨hx, by simp, by simp⟩

theorem findMaxSigmaVProductR_eq (rd : ℝ → ℝ) (ms : List (ℝ → ℝ)) (v : ℝ) :
    findMaxSigmaVProductR rd ms v = csTotalR rd (ms.map (fun m => m v)) := by
  simp [findMaxSigmaVProductR, csTotalR, List.foldl_map]

/-- The rounded estimate has `p` digits and differs from the exact one by a few roundings. -/
private theorem estimateTestsR_near (hp : 0 < p) (wA wB : ℝ) (hA : 0 < wA) (hB : 0 < wB) (na nb : ℕ) (dt m m' vol : ℝ)
    (hdt : 0 ≤ dt) (hvol : 0 < vol) (same : Bool) (L : ℕ) (hm : Near p L m m') :
    estimateTestsR R.rd wA wB na nb dt m' vol same ∈ FP p ∧
    (1 - unitError p) ^ (L + 6) / (1 + unitError p) * ntcEstimate wA wB na nb dt m vol same ≤
      estimateTestsR R.rd wA wB na nb dt m' vol same ∧
    estimateTestsR R.rd wA wB na nb dt m' vol same ≤
      (1 + unitError p) ^ (L + 6) / (1 - unitError p) * ntcEstimate wA wB na nb dt m vol same := by
  have he := unitError_pos (p := p)
  have he2 := unitError_le_half hp
  rw [← estimateTests_eq wA wB hA hB]
  have h1 := (near_refl (p := p) (mul_pos hA hB).le).rd R hp
  have h2 := (h1.mul (Nat.cast_nonneg (α := ℝ) na)).rd R hp
  have h3 := (h2.mul (Nat.cast_nonneg (α := ℝ) nb)).rd R hp
  have h4 := (h3.mul hdt).rd R hp
  have h5 := (h4.mul' hp hm).rd R hp
  have hd0 : 0 < vol * min wA wB := mul_pos hvol (lt_min hA hB)
  have hd := R.bounds hd0.le
  have hdpos : 0 < R.rd (vol * min wA wB) := R.pos hp hd0
  set num := wA * wB * na * nb * dt * m with hnum
  set num' := R.rd (R.rd (R.rd (R.rd (R.rd (wA * wB) * na) * nb) * dt) * m') with hnum'
  set den := vol * min wA wB with hden
  have h5' : Near p (L + 5) num num' := by
    have : 0 + 1 + 1 + 1 + 1 + L + 1 = L + 5 := by omega
    rw [this] at h5
    exact h5
  have hq0 : 0 ≤ num' / R.rd den := div_nonneg (h5'.nonneg hp) hdpos.le
  have hlo : (1 - unitError p) ^ (L + 5) / (1 + unitError p) * (num / den) ≤ num' / R.rd den := by
    rw [div_mul_div_comm, div_le_div_iff₀ (by positivity) hdpos]
    have := mul_le_mul h5'.2.1 hd.2 hdpos.le (h5'.nonneg hp)
    exact this
  have hhi : num' / R.rd den ≤ (1 + unitError p) ^ (L + 5) / (1 - unitError p) * (num / den) := by
    have h1e : 0 < 1 - unitError p := by linarith
    rw [div_mul_div_comm, div_le_div_iff₀ hdpos (by positivity)]
    have hh : 0 ≤ (1 + unitError p) ^ (L + 5) * num := mul_nonneg (pow_nonneg (by linarith) _) h5'.1
    exact mul_le_mul h5'.2.2 hd.1 (by positivity) hh
  have hq := R.bounds hq0
  have hqlo : (1 - unitError p) ^ (L + 6) / (1 + unitError p) * (num / den) ≤ R.rd (num' / R.rd den) := by
    refine le_trans ?_ hq.1
    have := mul_le_mul_of_nonneg_left hlo (by linarith : 0 ≤ 1 - unitError p)
    refine le_trans (le_of_eq ?_) this
    rw [pow_succ]; ring
  have hqhi : R.rd (num' / R.rd den) ≤ (1 + unitError p) ^ (L + 6) / (1 - unitError p) * (num / den) := by
    refine le_trans hq.2 ?_
    have := mul_le_mul_of_nonneg_left hhi (by linarith : 0 ≤ 1 + unitError p)
    refine le_trans this (le_of_eq ?_)
    rw [pow_succ]; ring
  unfold estimateTestsR estimateTests
  cases same with
  | false => exact ⟨R.mem _, hqlo, hqhi⟩
  | true =>
    simp only [if_true]
    have hhalf : R.rd (num' / R.rd den) * (1 / 2) ∈ FP p := by
      have := fp_scale (R.mem (num' / R.rd den)) (-1)
      have e : (2 : ℝ) ^ (-1 : ℤ) = 1 / 2 := by norm_num
      rwa [e] at this
    rw [R.rd_of_mem hhalf]
    refine ⟨hhalf, ?_, ?_⟩
    · have := mul_le_mul_of_nonneg_right hqlo (by norm_num : (0 : ℝ) ≤ 1 / 2); linarith
    · have := mul_le_mul_of_nonneg_right hqhi (by norm_num : (0 : ℝ) ≤ 1 / 2); linarith

/-- The promoted number of tests. -/
private theorem promoteR_spec (n u : ℝ) (hn : n ∈ FP p) (hn0 : 0 ≤ n) (hu : 0 ≤ u) :
    promoteR R.rd n u ∈ FP p ∧ n ≤ promoteR R.rd n u ∧
    (n + 2 ≤ 2 ^ p → promoteR R.rd n u ≤ 2 ^ p ∧
      (loopCount (promoteR R.rd n u) = plannedTests n u ∨
        (loopCount (promoteR R.rd n u) + 1 = plannedTests n u ∧ u < n - ⌊n⌋ ∧ n - ⌊n⌋ ≤ unitError p * (n + 1)))) := by
  have hfr : R.rd (n - ⌊n⌋) = n - ⌊n⌋ := R.rd_of_mem (fp_fract hn hn0)
  unfold promoteR
  rw [hfr]
  have hf0 : 0 ≤ ⌊n⌋ := Int.floor_nonneg.2 hn0
  have hfl := Int.floor_le n
  have hfu := Int.lt_floor_add_one n
  by_cases h : u < n - ⌊n⌋
  · rw [if_pos h]
    refine ⟨R.mem _, R.ge_of_ge hn (by linarith), fun hle => ?_⟩
    have hi : n ≠ ⌊n⌋ := by intro hc; linarith
    obtain ⟨a, ha⟩ := Int.eq_ofNat_of_zero_le hf0
    have haR : ((⌊n⌋ : ℤ) : ℝ) = (a : ℝ) := by rw [ha]; simp
    have hap : a + 2 ≤ 2 ^ p := by
      have : (a : ℝ) + 2 ≤ 2 ^ p := by rw [← haR]; linarith
      exact_mod_cast this
    have hplan : plannedTests n u = a + 1 := by
      unfold plannedTests
      rw [if_neg hi, if_pos h, ha]
      simp
    have m1 : ((a + 1 : ℕ) : ℝ) ∈ FP p := fp_nat (by omega)
    have m2 : ((a + 2 : ℕ) : ℝ) ∈ FP p := fp_nat hap
    have h1 : ((a + 1 : ℕ) : ℝ) ≤ R.rd (n + 1) := R.ge_of_ge m1 (by push_cast; rw [← haR]; linarith)
    have h2 : R.rd (n + 1) ≤ ((a + 2 : ℕ) : ℝ) := R.le_of_le m2 (by push_cast; rw [← haR]; linarith)
    refine ⟨h2.trans (by exact_mod_cast hap), ?_⟩
    rw [hplan]
    rcases h1.lt_or_eq with h3 | h3
    · left
      have : ⌈R.rd (n + 1)⌉ = (a : ℤ) + 2 := by
        rw [Int.ceil_eq_iff]
        push_cast at h2 h3 ⊢
        exact ⟨by linarith, h2⟩
      unfold loopCount
      rw [this]; omega
    · right
      refine ⟨?_, h, ?_⟩
      · rw [← h3]
        unfold loopCount
        rw [Int.ceil_natCast]; omega
      · have := (abs_le.1 (R.error (n + 1))).1
        rw [← h3, abs_of_nonneg (by linarith)] at this
        unfold unitError
        push_cast at this
        rw [haR]
        linarith
  · rw [if_neg h]
    refine ⟨hn, le_rfl, fun hle => ⟨by linarith, .inl ?_⟩⟩
    have := loopCount_promote n u hn0 hu
    rw [promote, if_neg h] at this
    exact this

private theorem mem_of_split (env : DriverEnv P S ℝ) (A B : ℕ) (hAB : A ≤ B) (hB : B < env.nSpecies)
    (hne : env.rhs A B ≠ []) (ds : List ((ℕ × ℕ) × Option (TestData ℝ)))
    (hm : ds.map Prod.fst = speciesPairs env.nSpecies)
    (hds : ∀ d ∈ ds, d.1.1 ≤ d.1.2 ∧ d.1.2 < env.nSpecies ∧ (d.2 = none ↔ env.rhs d.1.1 d.1.2 = [])) :
    ∃ td, ((A, B), some td) ∈ ds := by
  have hin : (A, B) ∈ ds.map Prod.fst := by rw [hm]; exact (mem_speciesPairs _ _ _).2 ⟨hAB, hB⟩
  obtain ⟨⟨ab, o⟩, hmem, hab⟩ := List.mem_map.1 hin
  simp only at hab
  subst hab
  cases o with
  | none => exact absurd ((hds _ hmem).2.2.1 rfl) hne
  | some td => exact ⟨td, hmem⟩

/-- The exact estimate for species `A` and `B` of a cell. -/
noncomputable def cellEstimate (env : DriverEnv P S ℝ) (st0 : DState P S ℝ) (A B : ℕ) : ℝ :=
  ntcEstimate (env.weight (st0.mem (st0.range A).1))
      (env.weight (st0.mem (st0.range B).1)) ((st0.range A).2 - (st0.range A).1)
      ((st0.range B).2 - (st0.range B).1) env.dt
      ((env.rhs A B).map (fun e => e.maxSigmaV (env.maxRelVel A B))).sum env.volume (A == B)

/-- The factors by which the rounded estimate for `n` channels may be too small and too large. -/
noncomputable def estimateLow (p n : ℕ) : ℝ := (1 - unitError p) ^ (n + 6) / (1 + unitError p)

@[inherit_doc estimateLow]
noncomputable def estimateHigh (p n : ℕ) : ℝ := (1 + unitError p) ^ (n + 6) / (1 - unitError p)

/-- The data of the first double loop for one pair. -/
private theorem driverR_data (hp : 0 < p) (env : DriverEnv P S ℝ) (st0 st1 : DState P S ℝ)
    (ds : List ((ℕ × ℕ) × Option (TestData ℝ)))
    (hw : ∀ x, 0 < env.weight x) (hdt : 0 ≤ env.dt) (hvol : 0 < env.volume)
    (he : estimateAllR R.rd env (speciesPairs env.nSpecies) st0 = .ok (ds, st1)) (A B : ℕ) (td : TestData ℝ)
    (hmem : ((A, B), some td) ∈ ds) (hms : ∀ e ∈ env.rhs A B, 0 ≤ e.maxSigmaV (env.maxRelVel A B)) :
    ∃ Nr ∈ FP p, ∃ g, td.numberTests = promoteR R.rd Nr (env.rng.rand g).1 ∧
      0 ≤ Nr ∧ estimateLow p (env.rhs A B).length * cellEstimate env st0 A B ≤ Nr ∧
      Nr ≤ estimateHigh p (env.rhs A B).length * cellEstimate env st0 A B := by
  obtain ⟨-, -, -, hdata⟩ := estimateAllR_spec env R.rd _ _ _ _ he
  obtain ⟨g, hsv, hnt⟩ := hdata A B td hmem
  have hnear : Near p (env.rhs A B).length
      ((env.rhs A B).map (fun e => e.maxSigmaV (env.maxRelVel A B))).sum td.maxSV := by
    have hl : ∀ c ∈ (env.rhs A B).map (fun e => e.maxSigmaV (env.maxRelVel A B)), 0 ≤ c := by
      intro c hc
      obtain ⟨e, he, rfl⟩ := List.mem_map.1 hc
      exact hms e he
    have hb := csTotalR_bounds R hp _ hl
    rw [List.length_map] at hb
    have hc : td.maxSV = csTotalR R.rd ((env.rhs A B).map (fun e => e.maxSigmaV (env.maxRelVel A B))) := by
      rw [hsv, findMaxSigmaVProductR_eq, List.map_map]; rfl
    rw [hc]
    exact ⟨List.sum_nonneg hl, hb⟩
  obtain ⟨h1, h2, h3⟩ := estimateTestsR_near R hp _ _ (hw (st0.mem (st0.range A).1)) (hw (st0.mem (st0.range B).1))
    (rsize (st0.range A)) (rsize (st0.range B)) env.dt _ _ env.volume hdt hvol (A == B) _ hnear
  refine ⟨_, h1, g, hnt, ?_, h2, h3⟩
  refine le_trans ?_ h2
  have he := unitError_pos (p := p)
  have he2 := unitError_le_half hp
  have hwm : 0 < max (env.weight (st0.mem (st0.range A).1)) (env.weight (st0.mem (st0.range B).1)) :=
    lt_max_of_lt_left (hw _)
  have h1e : 0 ≤ 1 - unitError p := by linarith
  have hs := hnear.1
  unfold ntcEstimate
  split <;> positivity

/-- **C96**  The number of tests of a species pair in floating-point arithmetic.  The estimate `Nr` is the exact no-time-counter
estimate up to the rounding of the sum over the channels and of seven products and quotients.  As long as `Nr + 2 ≤ 2 ^ p`
the number of tests is the planned number for `Nr` and one draw `u`, or one less; one less only if the promotion by
`u < Nr - ⌊Nr⌋` is lost in rounding, which needs `u < 2 ^ -p (Nr + 1)`; or the pair ran out of particles. -/
theorem C96_number_of_tests (hp : 0 < p) (env : DriverEnv P S ℝ) (hv : env.rng.ValidFP p) (fi fs : ℕ)
    (st0 st : DState P S ℝ) (hwf : WFRanges env.nSpecies st0.range)
    (hfit : ∀ C < env.nSpecies, (st0.range C).2 - (st0.range C).1 ≤ 2 ^ p) (hlog : st0.log = [])
    (hw : ∀ x, 0 < env.weight x) (hdt : 0 ≤ env.dt) (hvol : 0 < env.volume)
    (hrun : driverR R.rd env fi fs st0 = .ok st) (A B : ℕ) (hAB : A ≤ B) (hB : B < env.nSpecies)
    (hne : env.rhs A B ≠ []) (hms : ∀ e ∈ env.rhs A B, 0 ≤ e.maxSigmaV (env.maxRelVel A B)) :
    ∃ Nr ∈ FP p, ∃ g, let u := (env.rng.rand g).1
      let k := (st.log.filter (fun e => e.A == A && e.B == B)).length
      estimateLow p (env.rhs A B).length * cellEstimate env st0 A B ≤ Nr ∧
      Nr ≤ estimateHigh p (env.rhs A B).length * cellEstimate env st0 A B ∧
      (Nr + 2 ≤ 2 ^ p → k ≤ plannedTests Nr u ∧
        (k = plannedTests Nr u ∨
          (k + 1 = plannedTests Nr u ∧ u < Nr - ⌊Nr⌋ ∧ u < unitError p * (Nr + 1)) ∨
          (A = B ∧ (st.range A).2 - (st.range A).1 < 2) ∨
          (st.range A).2 - (st.range A).1 = 0 ∨ (st.range B).2 - (st.range B).1 = 0)) := by
  obtain ⟨ds, st1, he, hrun', ⟨g1, hg1⟩, hm, hds⟩ := driverR_split env R.rd fi fs st0 st hrun
  obtain ⟨td, hmem⟩ := mem_of_split env A B hAB hB hne ds hm hds
  obtain ⟨Nr, hfp, g, hnt, hNr0, hlo, hhi⟩ := driverR_data R hp env st0 st1 ds hw hdt hvol he A B td hmem hms
  refine ⟨Nr, hfp, g, hlo, hhi, fun hsmall => ?_⟩
  obtain ⟨evs, h1, -, h3⟩ := collideAllR_count R hp env hv fi fs ds st1 st (by rw [hg1]; exact hwf)
    (by rw [hg1]; exact hfit) hds (by rw [hm]; exact nodup_speciesPairs _) hrun'
  have hlog' : st.log = evs := by rw [h1, hg1]; simp [hlog]
  have hu0 := (hv.rand_mem g).1
  obtain ⟨p1, -, p3⟩ := promoteR_spec R Nr (env.rng.rand g).1 hfp hNr0 hu0
  obtain ⟨p3, p4⟩ := p3 hsmall
  have h4 := h3 A B td hmem (by rw [hnt]; exact p1) (by rw [hnt]; exact p3)
  simp only at h4
  rw [hnt, ← hlog'] at h4
  have hex : notEnough st A B = true →
      (A = B ∧ (st.range A).2 - (st.range A).1 < 2) ∨
      (st.range A).2 - (st.range A).1 = 0 ∨ (st.range B).2 - (st.range B).1 = 0 := by
    intro hc
    simp only [notEnough, Bool.or_eq_true, Bool.and_eq_true, beq_iff_eq, decide_eq_true_eq] at hc
    exact hc
  rcases p4 with p4 | ⟨p4, p5, p6⟩
  · rw [p4] at h4
    exact ⟨h4.1, h4.2.imp_right fun hc => .inr (hex hc)⟩
  · refine ⟨by omega, ?_⟩
    rcases h4.2 with h5 | h5
    · exact .inr (.inl ⟨by omega, p5, by linarith⟩)
    · exact .inr (.inr (hex h5))

/-- **C96** (finding)  Above `2 ^ (p + 1)` subtracting one from the number of tests changes nothing.  A run with such an estimate
for a species pair ends only after the pair has run out of particles. -/
theorem C96_stuck (hp : 0 < p) (env : DriverEnv P S ℝ) (hv : env.rng.ValidFP p) (fi fs : ℕ)
    (st0 st : DState P S ℝ) (hwf : WFRanges env.nSpecies st0.range)
    (hfit : ∀ C < env.nSpecies, (st0.range C).2 - (st0.range C).1 ≤ 2 ^ p)
    (hw : ∀ x, 0 < env.weight x) (hdt : 0 ≤ env.dt) (hvol : 0 < env.volume)
    (hrun : driverR R.rd env fi fs st0 = .ok st) (A B : ℕ) (hAB : A ≤ B) (hB : B < env.nSpecies)
    (hne : env.rhs A B ≠ []) (hms : ∀ e ∈ env.rhs A B, 0 ≤ e.maxSigmaV (env.maxRelVel A B))
    (hbig : 2 ^ (p + 1) < estimateLow p (env.rhs A B).length * cellEstimate env st0 A B) :
    (A = B ∧ (st.range A).2 - (st.range A).1 < 2) ∨
      (st.range A).2 - (st.range A).1 = 0 ∨ (st.range B).2 - (st.range B).1 = 0 := by
  obtain ⟨ds, st1, he, hrun', ⟨g1, hg1⟩, hm, hds⟩ := driverR_split env R.rd fi fs st0 st hrun
  obtain ⟨td, hmem⟩ := mem_of_split env A B hAB hB hne ds hm hds
  obtain ⟨Nr, hfp, g, hnt, hNr0, hlo, -⟩ := driverR_data R hp env st0 st1 ds hw hdt hvol he A B td hmem hms
  obtain ⟨p1, p2, -⟩ := promoteR_spec R Nr (env.rng.rand g).1 hfp hNr0 (hv.rand_mem g).1
  obtain ⟨sa, sb, ds1, ds2, hd12, h1, h2, h3⟩ := collideAllR_mem env R.rd fi fs ds st1 st A B td hmem hrun'
  have hne' := testLoopR_large R hp env fs A B td.maxSV fi _ sa sb (by rw [hnt]; exact p1) (by rw [hnt]; linarith) h2
  have hds1 : ∀ d ∈ ds1, d.1.1 ≤ d.1.2 ∧ d.1.2 < env.nSpecies ∧ (d.2 = none ↔ env.rhs d.1.1 d.1.2 = []) :=
    fun d hd => hds d (by rw [hd12]; simp [hd])
  have hds2 : ∀ d ∈ ds2, d.1.1 ≤ d.1.2 ∧ d.1.2 < env.nSpecies ∧ (d.2 = none ↔ env.rhs d.1.1 d.1.2 = []) :=
    fun d hd => hds d (by rw [hd12]; simp [hd])
  have hwf1 : WFRanges env.nSpecies st1.range := by rw [hg1]; exact hwf
  have hfit1 : Fits p env.nSpecies st1.range := by rw [hg1]; exact hfit
  have ra := greach_range_shrinks (collideAllR_reach R hp env hv fi fs ds1 st1 sa hwf1 hfit1 hds1 h1) hwf1
  have hfita := hfit1.shrink ra.2.1 ra.2.2
  have rb := greach_range_shrinks
    (testLoopR_reach R hp env hv fs A B td.maxSV hAB hB hne fi _ sa sb ra.1 hfita h2) ra.1
  have hfitb := hfita.shrink rb.2.1 rb.2.2
  have rc := greach_range_shrinks (collideAllR_reach R hp env hv fi fs ds2 sb st rb.1 hfitb hds2 h3) rb.1
  have := notEnough_mono rc.2.1 rc.2.2 hne'
  simp only [notEnough, Bool.or_eq_true, Bool.and_eq_true, beq_iff_eq, decide_eq_true_eq] at this
  exact this

/-- **C96** (finding)  With out-of-place interactions such a run never ends, whatever the random numbers. -/
theorem C96_endless (hp : 0 < p) (env : DriverEnv P S ℝ) (hv : env.rng.ValidFP p) (hout : env.inplace = false)
    (st0 : DState P S ℝ) (hwf : WFRanges env.nSpecies st0.range)
    (hfit : ∀ C < env.nSpecies, (st0.range C).2 - (st0.range C).1 ≤ 2 ^ p)
    (hw : ∀ x, 0 < env.weight x) (hdt : 0 ≤ env.dt) (hvol : 0 < env.volume)
    (A B : ℕ) (hAB : A ≤ B) (hB : B < env.nSpecies)
    (hne : env.rhs A B ≠ []) (hms : ∀ e ∈ env.rhs A B, 0 ≤ e.maxSigmaV (env.maxRelVel A B))
    (hA2 : A = B → 2 ≤ (st0.range A).2 - (st0.range A).1)
    (hAn : (st0.range A).1 < (st0.range A).2) (hBn : (st0.range B).1 < (st0.range B).2)
    (hbig : 2 ^ (p + 1) < estimateLow p (env.rhs A B).length * cellEstimate env st0 A B) :
    ∀ fi fs st, driverR R.rd env fi fs st0 ≠ .ok st := by
  intro fi fs st hrun
  have h1 := C96_stuck R hp env hv fi fs st0 st hwf hfit hw hdt hvol hrun A B hAB hB hne hms hbig
  have h2 := ((driverR_tests R hp hv hwf hfit hrun).outOfPlace hout).2.1
  rw [h2] at h1
  rcases h1 with h | h | h
  · have := hA2 h.1; omega
  · omega
  · omega

/-! ## Termination -/

/-- From every state, some later exclusive draw is at most 1/4 and some later one is at least 3/4. -/
def RNG.Spreads (rng : RNG S ℝ) : Prop := ∀ s, (∃ j, rng.excDraw s j ≤ 1 / 4) ∧ ∃ j, 3 / 4 ≤ rng.excDraw s j

private theorem pickPosR_spread (lo sz : ℕ) (hsz : 2 ≤ sz) (hszp : 4 * sz ≤ 2 ^ p) {u w : ℝ} (hu : u ≤ 1 / 4)
    (hw : 3 / 4 ≤ w) (hu0 : 0 ≤ u) : pickPosR R.rd lo sz u ≠ pickPosR R.rd lo sz w := by
  have hs : (2 : ℝ) ≤ sz := by exact_mod_cast hsz
  have m1 : (sz : ℝ) * (1 / 4) ∈ FP p := by
    have := fp_scale (fp_nat (p := p) (n := sz) (by omega)) (-2)
    have e : (2 : ℝ) ^ (-2 : ℤ) = 1 / 4 := by norm_num
    rwa [e] at this
  have m3 : (sz : ℝ) * (3 / 4) ∈ FP p := by
    have := fp_scale (fp_nat (p := p) (n := 3 * sz) (by omega)) (-2)
    have e : ((3 * sz : ℕ) : ℝ) * (2 : ℝ) ^ (-2 : ℤ) = sz * (3 / 4) := by push_cast; norm_num; ring
    rwa [e] at this
  have h1 : R.rd (sz * u) ≤ sz * (1 / 4) := R.le_of_le m1 (by nlinarith)
  have h3 : sz * (3 / 4) ≤ R.rd (sz * w) := R.ge_of_ge m3 (by nlinarith)
  have h0 : 0 ≤ R.rd (sz * u) := R.nonneg (by positivity)
  have hle : R.rd (sz * u) + 1 ≤ R.rd (sz * w) := by linarith
  have hf : ⌊R.rd (sz * u)⌋ + 1 ≤ ⌊R.rd (sz * w)⌋ := by
    rw [Int.le_floor]; push_cast
    have := Int.floor_le (R.rd (sz * u)); linarith
  have hf0 : 0 ≤ ⌊R.rd (sz * u)⌋ := Int.floor_nonneg.2 h0
  unfold pickPosR
  omega

private theorem selectRandomPairR_returns (hp : 0 < p) (rng : RNG S ℝ) (hv : rng.ValidFP p) (hfair : rng.Spreads)
    (range : ℕ → ℕ × ℕ) (n A B : ℕ) (hwf : WFRanges n range) (hA : A < n) (hB : B < n)
    (hfit : ∀ C < n, 4 * rsize (range C) ≤ 2 ^ p)
    (st : DState P S ℝ) (hst : st.range = range) (hen : notEnough st A B = false) (s : S) :
    ∃ fs r, selectRandomPairR R.rd rng false fs (range A) (range B) s = some r := by
  subst hst
  simp only [notEnough, Bool.or_eq_false_iff, Bool.and_eq_false_iff, beq_eq_false_iff_ne,
    decide_eq_false_iff_not] at hen
  obtain ⟨h1, h2, h3⟩ := hen
  have hfA := hfit A hA
  have hfB := hfit B hB
  have key : ∃ j, pickPosR R.rd (st.range B).1 (rsize (st.range B)) (rng.excDraw (rng.randExc s).2 j) ≠
      pickPosR R.rd (st.range A).1 (rsize (st.range A)) (rng.randExc s).1 := by
    by_cases hAB : A = B
    · subst hAB
      have hsz : 2 ≤ rsize (st.range A) := by
        rcases h1 with h1 | h1
        · exact absurd rfl h1
        · omega
      obtain ⟨⟨i, hi⟩, ⟨j, hj⟩⟩ := hfair (rng.randExc s).2
      have hne := pickPosR_spread R (st.range A).1 (rsize (st.range A)) hsz hfA hi hj (hv.randExc_mem _).1
      by_cases hc : pickPosR R.rd (st.range A).1 (rsize (st.range A)) (rng.excDraw (rng.randExc s).2 i) =
          pickPosR R.rd (st.range A).1 (rsize (st.range A)) (rng.randExc s).1
      · exact ⟨j, fun hc' => hne (hc.trans hc'.symm)⟩
      · exact ⟨i, hc⟩
    · refine ⟨0, fun hc => ?_⟩
      have a := hv.randExc_mem s
      have ra := pickPosR_range R hp (st.range A).1 _ _ (hv.randExc_fp s) a.1 a.2 (by omega) (by omega : rsize (st.range A) ≤ 2 ^ p)
      have b := hv.randExc_mem (rng.randExc s).2
      have rb := pickPosR_range R hp (st.range B).1 _ _ (hv.randExc_fp (rng.randExc s).2) b.1 b.2 (by omega)
        (by omega : rsize (st.range B) ≤ 2 ^ p)
      have hc' : pickPosR R.rd (st.range B).1 (rsize (st.range B)) (rng.randExc (rng.randExc s).2).1 =
        pickPosR R.rd (st.range A).1 (rsize (st.range A)) (rng.randExc s).1 := hc
      refine hwf.disj A hA B hB hAB (pickPosR R.rd (st.range A).1 (rsize (st.range A)) (rng.randExc s).1)
        ⟨⟨ra.1, lt_of_lt_of_le ra.2 (by unfold rsize; have := hwf.le A hA; omega)⟩, ?_⟩
      rw [← hc']
      exact ⟨rb.1, lt_of_lt_of_le rb.2 (by unfold rsize; have := hwf.le B hB; omega)⟩
  obtain ⟨j, hj⟩ := key
  obtain ⟨r, hr⟩ := selectBR_some_of_draw R.rd rng _ _ _ j _ hj
  refine ⟨j + 1, (pickPosR R.rd (st.range A).1 (rsize (st.range A)) (rng.randExc s).1, r.1, r.2), ?_⟩
  simp only [selectRandomPairR, Bool.false_eq_true, if_false]
  rw [hr]

private theorem testLoopR_returns (hp : 0 < p) (env : DriverEnv P S ℝ) (hv : env.rng.ValidFP p) (hfair : env.rng.Spreads)
    (A B : ℕ) (m : ℝ) (hAB : A ≤ B) (hB : B < env.nSpecies) (hne : env.rhs A B ≠ []) :
    ∀ (k : ℕ) (nt : ℝ) (st : DState P S ℝ), loopCount nt = k → nt ∈ FP p → nt ≤ 2 ^ p → WFRanges env.nSpecies st.range →
      (∀ C < env.nSpecies, 4 * rsize (st.range C) ≤ 2 ^ p) →
      ∃ fs st', testLoopR R.rd env fs A B m k nt st = .ok st' := by
  intro k
  induction k with
  | zero =>
    intro nt st hk _ _ _ _
    refine ⟨0, st, ?_⟩
    have : ¬ nt > 1 := by
      intro hc; rw [loopCount_succ hc] at hk; omega
    simp [testLoopR, this]
  | succ k ih =>
    intro nt st hk hfp hle hwf hfit
    have hn : nt > 1 := by
      by_contra hc; rw [loopCount_of_le hc] at hk; omega
    cases hen : notEnough st A B with
    | true => exact ⟨0, st, by simp [testLoopR, hn, hen]⟩
    | false =>
      obtain ⟨f1, r, hr⟩ := selectRandomPairR_returns R hp env.rng hv hfair st.range env.nSpecies A B hwf
        (by omega) hB hfit st rfl hen st.gen
      have hfit' : Fits p env.nSpecies st.range := fun C hC => by have := hfit C hC; omega
      have hstep := gstep_of_pick R hp env hv (m := m) hAB hB hne hfit' hen hr
      have hs := hstep.range_shrinks hwf
      have hm1 : nt - 1 ∈ FP p := by
        have := fp_sub_nat hfp (n := 1) (by push_cast; exact hn.le) hle
        simpa using this
      obtain ⟨f2, st', h2⟩ := ih (nt - 1) _ (by rw [loopCount_succ hn] at hk; omega) hm1 (by linarith) hs.1 (by
        intro C hC
        have h1 := hfit C hC; have h2 := hs.2.1 C; have h3 := hs.2.2 C
        unfold rsize at *
        omega)
      refine ⟨max f1 f2, st', ?_⟩
      simp only [testLoopR, if_pos hn, hen, Bool.false_eq_true, if_false]
      rw [selectRandomPairR_mono R.rd env.rng f1 (max f1 f2) _ _ _ _ (le_max_left _ _) hr, R.rd_of_mem hm1]
      exact testLoopR_mono R.rd env f2 (max f1 f2) A B m (le_max_right _ _) k k _ _ _ le_rfl h2

private theorem collideAllR_returns (hp : 0 < p) (env : DriverEnv P S ℝ) (hv : env.rng.ValidFP p)
    (hfair : env.rng.Spreads) :
    ∀ (ds : List ((ℕ × ℕ) × Option (TestData ℝ))) (st : DState P S ℝ),
    (∀ d ∈ ds, d.1.1 ≤ d.1.2 ∧ d.1.2 < env.nSpecies ∧
      (d.2 = none ↔ env.rhs d.1.1 d.1.2 = [])) →
    (∀ A B td, ((A, B), some td) ∈ ds → td.numberTests ∈ FP p ∧ td.numberTests ≤ 2 ^ p) →
    WFRanges env.nSpecies st.range → (∀ C < env.nSpecies, 4 * rsize (st.range C) ≤ 2 ^ p) →
    ∃ fi fs st', collideAllR R.rd env fi fs ds st = .ok st' := by
  intro ds
  induction ds with
  | nil => intro st _ _ _ _; exact ⟨0, 0, st, rfl⟩
  | cons d ds ih =>
    intro st hd hsm hwf hfit
    obtain ⟨⟨A, B⟩, o⟩ := d
    have hd' : ∀ d ∈ ds, d.1.1 ≤ d.1.2 ∧ d.1.2 < env.nSpecies ∧
      (d.2 = none ↔ env.rhs d.1.1 d.1.2 = []) := fun d hm => hd d (List.mem_cons_of_mem _ hm)
    have hsm' : ∀ A B td, ((A, B), some td) ∈ ds → td.numberTests ∈ FP p ∧ td.numberTests ≤ 2 ^ p :=
      fun A B td hm => hsm A B td (List.mem_cons_of_mem _ hm)
    cases o with
    | none => exact ih st hd' hsm' hwf hfit
    | some td =>
      have hh := hd _ List.mem_cons_self
      simp only at hh
      have hne : env.rhs A B ≠ [] := by
        intro hc; exact absurd (hh.2.2.2 hc) (by simp)
      have hs := hsm A B td List.mem_cons_self
      obtain ⟨f1, st1, h1⟩ := testLoopR_returns R hp env hv hfair A B td.maxSV hh.1 hh.2.1 hne _
        td.numberTests st rfl hs.1 hs.2 hwf hfit
      have hfit' : Fits p env.nSpecies st.range := fun C hC => by have := hfit C hC; omega
      have hr := greach_range_shrinks
        (testLoopR_reach R hp env hv f1 A B td.maxSV hh.1 hh.2.1 hne _ _ _ _ hwf hfit' h1) hwf
      obtain ⟨f2, f3, st2, h2⟩ := ih st1 hd' hsm' hr.1 (by
        intro C hC
        have h1 := hfit C hC; have h2 := hr.2.1 C; have h3 := hr.2.2 C
        unfold rsize at *
        omega)
      refine ⟨max (loopCount td.numberTests) f2, max f1 f3, st2, ?_⟩
      simp only [collideAllR]
      rw [testLoopR_mono R.rd env f1 _ A B _ (le_max_left _ _) _ _ _ _ _ (le_max_left _ _) h1]
      exact collideAllR_mono R.rd env f2 _ f3 _ (le_max_right _ _) (le_max_right _ _) _ _ _ h2

private theorem estimateAllR_ok (rd : ℝ → ℝ) (env : DriverEnv P S ℝ) : ∀ (ps : List (ℕ × ℕ)) (st : DState P S ℝ),
    (∀ ab ∈ ps, env.rhs ab.1 ab.2 ≠ [] → rsize (st.range ab.1) ≠ 0 ∧ rsize (st.range ab.2) ≠ 0) →
    ∃ r, estimateAllR rd env ps st = .ok r := by
  intro ps
  induction ps with
  | nil => intro st _; exact ⟨_, rfl⟩
  | cons ab ps ih =>
    intro st h
    obtain ⟨A, B⟩ := ab
    have h1 : ∃ d g, estimatePairR rd env st A B = .ok (d, { st with gen := g }) := by
      by_cases hne : env.rhs A B = []
      · exact ⟨none, st.gen, by simp [estimatePairR, hne]⟩
      · have := h (A, B) (by simp) hne
        simp only at this
        simp only [estimatePairR, List.length_eq_zero_iff, hne, this.1, this.2, or_self, if_false]
        exact ⟨_, _, rfl⟩
    obtain ⟨d, g, h1⟩ := h1
    obtain ⟨r, hr⟩ := ih { st with gen := g } (fun ab hab => h ab (by simp [hab]))
    simp only [estimateAllR, h1, hr]
    exact ⟨_, rfl⟩

/-- **C96**  A run in floating-point arithmetic ends after finitely many draws, for every database and every interaction
model, if the generator does not stay in one part of the unit interval, each interacting species has a particle, the cell has
at most `2 ^ (p - 2)` particles of each species, and no estimate exceeds about `2 ^ p`. -/
theorem C96_driver_finishes (hp : 0 < p) (env : DriverEnv P S ℝ) (hv : env.rng.ValidFP p) (hfair : env.rng.Spreads)
    (st0 : DState P S ℝ) (hwf : WFRanges env.nSpecies st0.range)
    (hfit : ∀ C < env.nSpecies, 4 * ((st0.range C).2 - (st0.range C).1) ≤ 2 ^ p)
    (hw : ∀ x, 0 < env.weight x) (hdt : 0 ≤ env.dt) (hvol : 0 < env.volume)
    (hms : ∀ A B, ∀ e ∈ env.rhs A B, 0 ≤ e.maxSigmaV (env.maxRelVel A B))
    (hpop : ∀ A B, A ≤ B → B < env.nSpecies → env.rhs A B ≠ [] →
      (st0.range A).1 < (st0.range A).2 ∧ (st0.range B).1 < (st0.range B).2)
    (hsmall : ∀ A B, A ≤ B → B < env.nSpecies → env.rhs A B ≠ [] →
      estimateHigh p (env.rhs A B).length * cellEstimate env st0 A B + 2 ≤ 2 ^ p) :
    ∃ fi fs st, driverR R.rd env fi fs st0 = .ok st := by
  obtain ⟨⟨ds, st1⟩, he⟩ := estimateAllR_ok R.rd env (speciesPairs env.nSpecies) st0 (by
    rintro ⟨A, B⟩ hab hne
    have := (mem_speciesPairs _ _ _).1 hab
    have := hpop A B this.1 this.2 hne
    unfold rsize
    simp only
    omega)
  obtain ⟨⟨g1, hg1⟩, hm, hd, -⟩ := estimateAllR_spec env R.rd _ _ _ _ he
  have hds : ∀ d ∈ ds, d.1.1 ≤ d.1.2 ∧ d.1.2 < env.nSpecies ∧
      (d.2 = none ↔ env.rhs d.1.1 d.1.2 = []) := by
    intro d hdm
    have h1 : d.1 ∈ speciesPairs env.nSpecies := by rw [← hm]; exact List.mem_map.2 ⟨d, hdm, rfl⟩
    have := (mem_speciesPairs _ _ _).1 h1
    exact ⟨this.1, this.2, hd d hdm⟩
  obtain ⟨fi, fs, st', h⟩ := collideAllR_returns R hp env hv hfair ds st1 hds (by
    intro A B td hmem
    have hh := hds _ hmem
    simp only at hh
    have hne : env.rhs A B ≠ [] := fun hc => absurd (hh.2.2.2 hc) (by simp)
    obtain ⟨Nr, hfp, g, hnt, hNr0, -, hhi⟩ := driverR_data R hp env st0 st1 ds hw hdt hvol he A B td hmem (hms A B)
    obtain ⟨p1, -, p3⟩ := promoteR_spec R Nr (env.rng.rand g).1 hfp hNr0 (hv.rand_mem g).1
    have := hsmall A B hh.1 hh.2.1 hne
    rw [hnt]
    exact ⟨p1, (p3 (by linarith)).1⟩) (by rw [hg1]; exact hwf) (by rw [hg1]; exact hfit)
  exact ⟨fi, fs, st', by simp [driverR, he, h]⟩

/-- One gas of four particles with one interaction that changes nothing, a generator that alternates between 1/4 and 3/4, and
a time step `dt`. -/
noncomputable def gasEnv (dt : ℝ) : DriverEnv ℕ Bool ℝ where
  nSpecies := 1
  rhs := fun _ _ => [⟨fun _ => 1, fun _ => 1, fun a b s => (a, b, [], s)⟩]
  maxRelVel := fun _ _ => 1
  volume := 1
  dt := dt
  weight := fun _ => 1
  species := fun _ => 0
  relSpeed := fun _ _ => 1
  inplace := false
  rng := twoPointRNG

/-- The four particles are at positions 0 to 3. -/
def gasCell : DState ℕ Bool ℝ := ⟨id, fun _ => (0, 4), [], [], [], false⟩

theorem gas_wf (dt : ℝ) : WFRanges (gasEnv dt).nSpecies gasCell.range :=
  ⟨fun _ _ => by simp [gasCell], fun A hA B hB hAB => by simp [gasEnv] at hA hB; omega⟩

theorem gas_estimate (dt : ℝ) : cellEstimate (gasEnv dt) gasCell 0 0 = 8 * dt := by
  simp only [cellEstimate, ntcEstimate, gasEnv, gasCell]
  norm_num
  ring

private theorem eps53 : unitError 53 ≤ 1 / 1024 := by unfold unitError; norm_num

theorem twoPointRNG_draw (s : Bool) : twoPointRNG.excDraw s 0 = (if s then 3 / 4 else 1 / 4) ∧
    twoPointRNG.excDraw s 1 = (if s then 1 / 4 else 3 / 4) := by
  cases s <;> simp [RNG.excDraw, twoPointRNG]

/-- With a time step of 2 (16 expected tests) the hypotheses on the number of tests are met in `double`. -/
example (R : Rounding 53) (fi fs : ℕ) (st : DState ℕ Bool ℝ) (h : driverR R.rd (gasEnv 2) fi fs gasCell = .ok st) :
    ∃ Nr ∈ FP 53, estimateLow 53 1 * 16 ≤ Nr ∧ Nr ≤ estimateHigh 53 1 * 16 := by
  obtain ⟨Nr, h1, g, h2, h3, -⟩ := C96_number_of_tests R (by norm_num) (gasEnv 2) twoPointRNG_valid fi fs gasCell st
    (gas_wf 2) (fun _ _ => by simp [gasCell]) rfl (fun _ => by simp [gasEnv]) (by simp [gasEnv]) (by simp [gasEnv]) h 0 0
    le_rfl (by simp [gasEnv]) (by simp [gasEnv]) (by simp [gasEnv])
  rw [gas_estimate] at h2 h3
  refine ⟨Nr, h1, ?_, ?_⟩
  · simpa [gasEnv, show (8 : ℝ) * 2 = 16 by norm_num] using h2
  · simpa [gasEnv, show (8 : ℝ) * 2 = 16 by norm_num] using h3

/-- With a time step of `2 ^ 53` the driver never returns in `double`. -/
example (R : Rounding 53) : ∀ fi fs st, driverR R.rd (gasEnv (2 ^ 53)) fi fs gasCell ≠ .ok st := by
  refine C96_endless R (by norm_num) (gasEnv (2 ^ 53)) twoPointRNG_valid rfl gasCell (gas_wf _)
    (fun _ _ => by simp [gasCell]) (fun _ => by simp [gasEnv]) (by simp [gasEnv]) (by simp [gasEnv]) 0 0
    le_rfl (by simp [gasEnv]) (by simp [gasEnv]) (by simp [gasEnv]) (by simp [gasCell]) (by simp [gasCell])
    (by simp [gasCell]) ?_
  rw [gas_estimate]
  have h := eps53
  have h0 := unitError_pos (p := 53)
  have hl : (1 / 2 : ℝ) ≤ estimateLow 53 ((gasEnv (2 ^ 53)).rhs 0 0).length := by
    unfold estimateLow
    simp only [gasEnv, List.length_singleton]
    have h1 : (1 - 1 / 1024 : ℝ) ^ (1 + 6) ≤ (1 - unitError 53) ^ (1 + 6) := pow_le_pow_left₀ (by norm_num) (by linarith) _
    rw [le_div_iff₀ (by linarith)]
    norm_num at h1 ⊢
    linarith
  have : (1 / 2 : ℝ) * (8 * 2 ^ 53) ≤ estimateLow 53 ((gasEnv (2 ^ 53)).rhs 0 0).length * (8 * 2 ^ 53) :=
    mul_le_mul_of_nonneg_right hl (by positivity)
  refine lt_of_lt_of_le ?_ this
  norm_num

/-- With a time step of 2 it does. -/
example (R : Rounding 53) : ∃ fi fs st, driverR R.rd (gasEnv 2) fi fs gasCell = .ok st := by
  refine C96_driver_finishes R (by norm_num) (gasEnv 2) twoPointRNG_valid ?_ gasCell (gas_wf _)
    (fun _ _ => by simp [gasCell]) (fun _ => by simp [gasEnv]) (by simp [gasEnv]) (by simp [gasEnv])
    (by simp [gasEnv]) (by simp [gasCell]) ?_
  · intro s
    have := twoPointRNG_draw s
    cases s
    · exact ⟨⟨0, by simp [gasEnv, this.1]⟩, ⟨1, by simp [gasEnv, this.2]⟩⟩
    · exact ⟨⟨1, by simp [gasEnv, this.2]⟩, ⟨0, by simp [gasEnv, this.1]⟩⟩
  · intro A B hAB hB _
    have hB' : B = 0 := by simp [gasEnv] at hB; exact hB
    have hA' : A = 0 := by omega
    subst hA' hB'
    rw [gas_estimate]
    have h := eps53
    have h0 := unitError_pos (p := 53)
    have hl : estimateHigh 53 ((gasEnv 2).rhs 0 0).length ≤ 2 := by
      unfold estimateHigh
      simp only [gasEnv, List.length_singleton]
      have h1 : (1 + unitError 53) ^ (1 + 6) ≤ (1 + 1 / 1024 : ℝ) ^ (1 + 6) := pow_le_pow_left₀ (by linarith) (by linarith) _
      rw [div_le_iff₀ (by linarith)]
      norm_num at h1 ⊢
      linarith
    have : estimateHigh 53 ((gasEnv 2).rhs 0 0).length * (8 * 2) ≤ 2 * (8 * 2) :=
      mul_le_mul_of_nonneg_right hl (by positivity)
    norm_num at this ⊢
    linarith

end Chimp
