import Verif.Model.Float
import Verif.Lemmas.Float
import Verif.Lemmas.DriverCount
import Verif.Props.Driver

/-!
# Lemmas on the driver in floating-point arithmetic
-/

namespace Chimp

variable {P S : Type}

/-! ### Without rounding it is the exact driver -/

theorem csTotalR_id (cs : List ℝ) : csTotalR id cs = csTotal cs := rfl

theorem pickLoopR_id (r : ℝ) : ∀ (cs : List ℝ) (t : ℝ) (j : ℕ), pickLoopR id r cs t j = pickLoop r cs t j := by
  intro cs
  induction cs with
  | nil => intro t j; rfl
  | cons c cs ih => intro t j; simp only [pickLoopR, pickLoop, id, ih]

theorem calculateOutPathR_id (cs : List ℝ) (m v u w : ℝ) :
    calculateOutPathR id cs m v u w = calculateOutPath cs m v u w := by
  simp only [calculateOutPathR, calculateOutPath, id, csTotalR_id, pickLoopR_id]
  cases pickLoop (w * csTotal cs) cs 0 0 <;> rfl

theorem selectBR_id (rng : RNG S ℝ) (lo sz pA : ℕ) : ∀ (f : ℕ) (s : S),
    selectBR id rng lo sz pA f s = selectB rng lo sz pA f s := by
  intro f
  induction f with
  | zero => intro s; rfl
  | succ f ih => intro s; simp only [selectBR, selectB, ih]; rfl

theorem selectRandomPairR_id (rng : RNG S ℝ) (al : Bool) (f : ℕ) (a b : ℕ × ℕ) (s : S) :
    selectRandomPairR id rng al f a b s = selectRandomPair rng al f a b s := by
  simp only [selectRandomPairR, selectRandomPair, selectBR_id]; rfl

theorem pairTestR_id (env : DriverEnv P S ℝ) (A B : ℕ) (m : ℝ) (p q : ℕ) (st : DState P S ℝ) :
    pairTestR id env A B m p q st = pairTest env A B m p q st := by
  simp only [pairTestR, pairTest, setInteractR, setInteract, calculateOutPathR_id, id, csTotalR_id]
  rfl

theorem testLoopR_id (env : DriverEnv P S ℝ) (fs A B : ℕ) (m : ℝ) : ∀ (fi : ℕ) (nt : ℝ) (st : DState P S ℝ),
    testLoopR id env fs A B m fi nt st = testLoop env fs A B m fi nt st := by
  intro fi
  induction fi with
  | zero => intro nt st; rfl
  | succ f ih =>
    intro nt st
    simp only [testLoopR, testLoop, id, ih, selectRandomPairR_id, pairTestR_id]
    rfl

theorem estimatePairR_id (env : DriverEnv P S ℝ) (st : DState P S ℝ) (A B : ℕ) :
    estimatePairR id env st A B = estimatePair env st A B := rfl

theorem estimateAllR_id (env : DriverEnv P S ℝ) : ∀ (ps : List (ℕ × ℕ)) (st : DState P S ℝ),
    estimateAllR id env ps st = estimateAll env ps st := by
  intro ps
  induction ps with
  | nil => intro st; rfl
  | cons ab ps ih =>
    intro st
    simp only [estimateAllR, estimateAll, estimatePairR_id, ih]
    cases estimatePair env st ab.1 ab.2 with
    | error e => rfl
    | ok r =>
      obtain ⟨d, st1⟩ := r
      simp only
      cases estimateAll env ps st1 <;> rfl

theorem collideAllR_id (env : DriverEnv P S ℝ) (fi fs : ℕ) :
    ∀ (ds : List ((ℕ × ℕ) × Option (TestData ℝ))) (st : DState P S ℝ),
    collideAllR id env fi fs ds st = collideAll env fi fs ds st := by
  intro ds
  induction ds with
  | nil => intro st; rfl
  | cons d ds ih =>
    intro st
    obtain ⟨⟨A, B⟩, o⟩ := d
    cases o with
    | none => exact ih st
    | some td =>
      simp only [collideAllR, collideAll, testLoopR_id, ih]
      cases testLoop env fs A B td.maxSV fi td.numberTests st <;> rfl

/-- Without rounding the rounded driver is the exact one. -/
theorem driverR_id (env : DriverEnv P S ℝ) (fi fs : ℕ) (st : DState P S ℝ) :
    driverR id env fi fs st = driver env fi fs st := by
  simp only [driverR, driver, estimateAllR_id, collideAllR_id]
  cases estimateAll env (speciesPairs env.nSpecies) st <;> rfl

/-! ### Steps -/

section
variable {K : Type}

/-- A pair test keeps ranges well formed, keeps their beginnings and never extends them. -/
theorem GStep.range_shrinks {env : DriverEnv P S K} {st st' : DState P S K}
    (h : GStep env st st') (hwf : WFRanges env.nSpecies st.range) :
    WFRanges env.nSpecies st'.range ∧ (∀ C, (st'.range C).1 = (st.range C).1) ∧
      ∀ C, (st'.range C).2 ≤ (st.range C).2 := by
  obtain ⟨A, B, p, q, r, _, hAB, hB, hne, hp, hq, hpq, hr⟩ := h
  cases hin : env.inplace with
  | false =>
    have h2 := (applyPair_fields false A B p q r st).2.2 rfl
    rw [h2.2.1]
    exact ⟨hwf, fun _ => rfl, fun _ => le_rfl⟩
  | true =>
    have hA : A < env.nSpecies := by omega
    have h1 := applyPair_inplace env.nSpecies A B p q r st hr.created hwf hA hB hp hq hpq
    simp only at h1
    by_cases hprod : r.2.2.2.1 = []
    · obtain ⟨hr, -, -⟩ := h1.1 hprod
      rw [hr]
      exact ⟨hwf, fun _ => rfl, fun _ => le_rfl⟩
    · obtain ⟨hr, -, -⟩ := h1.2 hprod
      have hle : ∀ C, ((applyPair true A B p q r st).range C).2 ≤ (st.range C).2 := by
        intro C; rw [hr]; simp
      have hlo : ∀ C, ((applyPair true A B p q r st).range C).1 = (st.range C).1 := by
        intro C; rw [hr]
      refine ⟨⟨?_, ?_⟩, hlo, hle⟩
      · intro C hC
        rw [hr]
        simp only
        by_cases hEA : C = A <;> by_cases hEB : C = B
        · subst hEA; subst hEB; simp only [if_true]; omega
        · subst hEA; simp only [hEB, if_true, if_false]; omega
        · subst hEB; simp only [hEA, if_true, if_false]; omega
        · simp only [hEA, hEB, if_false]; have := hwf.le C hC; omega
      · intro C hC D hD hCD z hzz
        have a1 := hle C; have a2 := hle D; have a3 := hlo C; have a4 := hlo D
        exact hwf.disj C hC D hD hCD z ⟨⟨by omega, by omega⟩, ⟨by omega, by omega⟩⟩

theorem greach_range_shrinks {env : DriverEnv P S K} {st st' : DState P S K}
    (h : Relation.ReflTransGen (GStep env) st st') (hwf : WFRanges env.nSpecies st.range) :
    WFRanges env.nSpecies st'.range ∧ (∀ C, (st'.range C).1 = (st.range C).1) ∧
      ∀ C, (st'.range C).2 ≤ (st.range C).2 := by
  induction h with
  | refl => exact ⟨hwf, fun _ => rfl, fun _ => le_rfl⟩
  | tail _ hs ih =>
    have := hs.range_shrinks ih.1
    exact ⟨this.1, fun C => (this.2.1 C).trans (ih.2.1 C), fun C => (this.2.2 C).trans (ih.2.2 C)⟩

end

/-! ### Selection -/

/-- A generator whose numbers have `p` digits and stay in their documented ranges. -/
structure RNG.ValidFP (p : ℕ) (rng : RNG S ℝ) : Prop extends rng.Valid where
  rand_fp : ∀ s, (rng.rand s).1 ∈ FP p
  randExc_fp : ∀ s, (rng.randExc s).1 ∈ FP p

variable {p : ℕ} (R : Rounding p)

theorem pickPosR_range (hp : 0 < p) (lo sz : ℕ) (u : ℝ) (hu : u ∈ FP p) (_ : 0 ≤ u) (h1 : u < 1) (hsz : 0 < sz)
    (hszp : sz ≤ 2 ^ p) : lo ≤ pickPosR R.rd lo sz u ∧ pickPosR R.rd lo sz u < lo + sz := by
  have hs : (0 : ℝ) < sz := by exact_mod_cast hsz
  have h2 := R.mul_lt hp hu h1 (fp_nat hszp) hs
  rw [mul_comm] at h2
  have h3 : ⌊R.rd ((sz : ℝ) * u)⌋ < (sz : ℤ) := by
    rw [Int.floor_lt]; exact_mod_cast h2
  unfold pickPosR
  omega

theorem selectBR_spec (hp : 0 < p) (rng : RNG S ℝ) (hv : rng.ValidFP p) (lo sz pA : ℕ) (hsz : 0 < sz)
    (hszp : sz ≤ 2 ^ p) :
    ∀ (fuel : ℕ) (s : S) (pB : ℕ) (s' : S), selectBR R.rd rng lo sz pA fuel s = some (pB, s') →
      lo ≤ pB ∧ pB < lo + sz ∧ pA ≠ pB := by
  intro fuel
  induction fuel with
  | zero => intro s pB s' h; simp [selectBR] at h
  | succ f ih =>
    intro s pB s' h
    simp only [selectBR] at h
    split at h
    · exact ih _ _ _ h
    · rename_i hne
      simp only [Option.some.injEq, Prod.mk.injEq] at h
      obtain ⟨rfl, rfl⟩ := h
      have := hv.randExc_mem s
      have h2 := pickPosR_range R hp lo sz _ (hv.randExc_fp s) this.1 this.2 hsz hszp
      exact ⟨h2.1, h2.2, hne⟩

theorem selectRandomPairR_spec (hp : 0 < p) (rng : RNG S ℝ) (hv : rng.ValidFP p) (fuel : ℕ) (a b : ℕ × ℕ)
    (ha : 0 < rsize a) (hb : 0 < rsize b) (hap : rsize a ≤ 2 ^ p) (hbp : rsize b ≤ 2 ^ p) (s : S) (i j : ℕ) (s' : S)
    (h : selectRandomPairR R.rd rng false fuel a b s = some (i, j, s')) :
    (a.1 ≤ i ∧ i < a.2) ∧ (b.1 ≤ j ∧ j < b.2) ∧ i ≠ j := by
  simp only [selectRandomPairR, Bool.false_eq_true, if_false] at h
  split at h
  · cases h
  · rename_i x heq
    simp only [Option.some.injEq, Prod.mk.injEq] at h
    obtain ⟨rfl, rfl, rfl⟩ := h
    have h1 := selectBR_spec R hp rng hv b.1 (rsize b) _ hb hbp _ _ _ _ heq
    have := hv.randExc_mem s
    have h2 := pickPosR_range R hp a.1 (rsize a) _ (hv.randExc_fp s) this.1 this.2 ha hap
    exact ⟨⟨h2.1, lt_of_lt_of_le h2.2 (by unfold rsize at *; omega)⟩,
      ⟨h1.1, lt_of_lt_of_le h1.2.1 (by unfold rsize at *; omega)⟩, h1.2.2⟩

/-! ### Runs -/

/-- All species of the cell fit: conversions of their sizes to a floating-point number are exact. -/
def Fits (p n : ℕ) (range : ℕ → ℕ × ℕ) : Prop := ∀ C < n, rsize (range C) ≤ 2 ^ p

theorem Fits.shrink {n : ℕ} {r r' : ℕ → ℕ × ℕ} (h : Fits p n r) (hlo : ∀ C, (r' C).1 = (r C).1)
    (hhi : ∀ C, (r' C).2 ≤ (r C).2) : Fits p n r' := by
  intro C hC
  have h1 := h C hC; have h2 := hlo C; have h3 := hhi C
  unfold rsize at *
  omega

theorem gstep_of_pick (hp : 0 < p) (env : DriverEnv P S ℝ) (hv : env.rng.ValidFP p) {fs A B : ℕ} {m : ℝ}
    (hAB : A ≤ B) (hB : B < env.nSpecies) (hne : env.rhs A B ≠ []) {st : DState P S ℝ}
    (hfit : Fits p env.nSpecies st.range) (hen : notEnough st A B = false) {i j : ℕ} {s' : S}
    (h : selectRandomPairR R.rd env.rng false fs (st.range A) (st.range B) st.gen = some (i, j, s')) :
    GStep env st (pairTestR R.rd env A B m i j { st with gen := s' }) := by
  simp only [notEnough, Bool.or_eq_false_iff, Bool.and_eq_false_iff, beq_eq_false_iff_ne] at hen
  have hs := selectRandomPairR_spec R hp env.rng hv fs _ _ (by omega) (by omega) (hfit A (by omega)) (hfit B hB) _ _ _ _ h
  exact .mk A B i j _ st hAB hB hne hs.1 hs.2.1 hs.2.2 (performPath_possible ..)

theorem testLoopR_reach (hp : 0 < p) (env : DriverEnv P S ℝ) (hv : env.rng.ValidFP p) (fs A B : ℕ) (m : ℝ)
    (hAB : A ≤ B) (hB : B < env.nSpecies) (hne : env.rhs A B ≠ []) :
    ∀ (fi : ℕ) (nt : ℝ) (st st' : DState P S ℝ), WFRanges env.nSpecies st.range → Fits p env.nSpecies st.range →
      testLoopR R.rd env fs A B m fi nt st = .ok st' → Relation.ReflTransGen (GStep env) st st' := by
  intro fi
  induction fi with
  | zero =>
    intro nt st st' _ _ h
    simp only [testLoopR] at h
    split at h
    · cases h
    · cases h; exact .refl
  | succ f ih =>
    intro nt st st' hwf hfit h
    simp only [testLoopR] at h
    split at h
    · split at h
      · cases h; exact .refl
      · rename_i hen
        split at h
        · cases h
        · rename_i i j s' heq
          have hs := gstep_of_pick R hp env hv (m := m) hAB hB hne hfit (by simpa using hen) heq
          have hr := hs.range_shrinks hwf
          exact .head hs (ih _ _ _ hr.1 (hfit.shrink hr.2.1 hr.2.2) h)
    · cases h; exact .refl

theorem estimatePairR_spec (env : DriverEnv P S ℝ) (rd : ℝ → ℝ) (st : DState P S ℝ) (A B : ℕ)
    (d : Option (TestData ℝ)) (st1 : DState P S ℝ) (he : estimatePairR rd env st A B = .ok (d, st1)) :
    (∃ g, st1 = { st with gen := g }) ∧ (d = none ↔ env.rhs A B = []) ∧
    ∀ td, d = some td → ∃ g,
      td.maxSV = findMaxSigmaVProductR rd ((env.rhs A B).map Eqn.maxSigmaV) (env.maxRelVel A B) ∧
      td.numberTests = promoteR rd (estimateTestsR rd (env.weight (st.mem (st.range A).1))
        (env.weight (st.mem (st.range B).1))
        (rsize (st.range A)) (rsize (st.range B)) env.dt td.maxSV env.volume (A == B)) (env.rng.rand g).1 := by
  simp only [estimatePairR] at he
  split at he
  · rename_i hl
    simp only [Except.ok.injEq, Prod.mk.injEq] at he
    obtain ⟨rfl, rfl⟩ := he
    exact ⟨⟨st.gen, rfl⟩, by simpa using hl, by simp⟩
  · rename_i hl
    split at he
    · cases he
    · simp only [Except.ok.injEq, Prod.mk.injEq] at he
      obtain ⟨rfl, rfl⟩ := he
      refine ⟨⟨_, rfl⟩, by simpa using hl, ?_⟩
      intro td h
      cases h
      exact ⟨st.gen, rfl, rfl⟩

theorem estimateAllR_spec (env : DriverEnv P S ℝ) (rd : ℝ → ℝ) : ∀ (ps : List (ℕ × ℕ)) (st : DState P S ℝ)
    (ds : List ((ℕ × ℕ) × Option (TestData ℝ))) (st' : DState P S ℝ),
    estimateAllR rd env ps st = .ok (ds, st') →
    (∃ g, st' = { st with gen := g }) ∧ ds.map Prod.fst = ps ∧
    (∀ d ∈ ds, (d.2 = none ↔ env.rhs d.1.1 d.1.2 = [])) ∧
    ∀ A B td, ((A, B), some td) ∈ ds → ∃ g,
      td.maxSV = findMaxSigmaVProductR rd ((env.rhs A B).map Eqn.maxSigmaV) (env.maxRelVel A B) ∧
      td.numberTests = promoteR rd (estimateTestsR rd (env.weight (st.mem (st.range A).1))
        (env.weight (st.mem (st.range B).1))
        (rsize (st.range A)) (rsize (st.range B)) env.dt td.maxSV env.volume (A == B)) (env.rng.rand g).1 := by
  intro ps
  induction ps with
  | nil =>
    intro st ds st' h
    simp only [estimateAllR, Except.ok.injEq, Prod.mk.injEq] at h
    obtain ⟨rfl, rfl⟩ := h
    exact ⟨⟨st.gen, rfl⟩, rfl, by simp, by simp⟩
  | cons ab ps ih =>
    intro st ds st' h
    obtain ⟨A, B⟩ := ab
    simp only [estimateAllR] at h
    split at h
    · cases h
    · rename_i d st1 he
      split at h
      · cases h
      · rename_i ds2 st2 h2
        simp only [Except.ok.injEq, Prod.mk.injEq] at h
        obtain ⟨rfl, rfl⟩ := h
        obtain ⟨⟨g2, hg2⟩, hm, hd, hdata⟩ := ih _ _ _ h2
        obtain ⟨⟨g1, rfl⟩, hd1, hd2⟩ := estimatePairR_spec env rd st A B d st1 he
        refine ⟨⟨g2, by rw [hg2]⟩, by simp [hm], ?_, ?_⟩
        · intro x hx
          rcases List.mem_cons.1 hx with rfl | hx
          · exact hd1
          · exact hd x hx
        · intro A' B' td hx
          rcases List.mem_cons.1 hx with hx | hx
          · simp only [Prod.mk.injEq] at hx
            obtain ⟨⟨rfl, rfl⟩, hx'⟩ := hx
            exact hd2 td hx'.symm
          · exact hdata A' B' td hx

theorem collideAllR_reach (hp : 0 < p) (env : DriverEnv P S ℝ) (hv : env.rng.ValidFP p) (fi fs : ℕ) :
    ∀ (ds : List ((ℕ × ℕ) × Option (TestData ℝ))) (st st' : DState P S ℝ),
    WFRanges env.nSpecies st.range → Fits p env.nSpecies st.range →
    (∀ d ∈ ds, d.1.1 ≤ d.1.2 ∧ d.1.2 < env.nSpecies ∧
      (d.2 = none ↔ env.rhs d.1.1 d.1.2 = [])) →
    collideAllR R.rd env fi fs ds st = .ok st' → Relation.ReflTransGen (GStep env) st st' := by
  intro ds
  induction ds with
  | nil => intro st st' _ _ _ h; simp only [collideAllR, Except.ok.injEq] at h; subst h; exact .refl
  | cons d ds ih =>
    intro st st' hwf hfit hd h
    obtain ⟨⟨A, B⟩, o⟩ := d
    have hds := fun x hx => hd x (List.mem_cons_of_mem _ hx)
    have h0 := hd ((A, B), o) (by simp)
    cases o with
    | none =>
      simp only [collideAllR] at h
      exact ih st st' hwf hfit hds h
    | some td =>
      simp only [collideAllR] at h
      split at h
      · cases h
      · rename_i st1 h1
        have hne : env.rhs A B ≠ [] := by
          intro hc; have := h0.2.2.2 hc; cases this
        have hr := testLoopR_reach R hp env hv fs A B td.maxSV h0.1 h0.2.1 hne _ _ _ _ hwf hfit h1
        have hs := greach_range_shrinks hr hwf
        exact hr.trans (ih _ _ hs.1 (hfit.shrink hs.2.1 hs.2.2) hds h)

/-- A driver run in floating-point arithmetic as the estimates and then the loops. -/
theorem driverR_split (env : DriverEnv P S ℝ) (rd : ℝ → ℝ) (fi fs : ℕ) (st st' : DState P S ℝ)
    (h : driverR rd env fi fs st = .ok st') :
    ∃ ds st1, estimateAllR rd env (speciesPairs env.nSpecies) st = .ok (ds, st1) ∧
      collideAllR rd env fi fs ds st1 = .ok st' ∧ (∃ g, st1 = { st with gen := g }) ∧
      ds.map Prod.fst = speciesPairs env.nSpecies ∧
      (∀ d ∈ ds, d.1.1 ≤ d.1.2 ∧ d.1.2 < env.nSpecies ∧ (d.2 = none ↔ env.rhs d.1.1 d.1.2 = [])) := by
  simp only [driverR] at h
  split at h
  · cases h
  · rename_i ds st1 he
    obtain ⟨hg, hm, hd, -⟩ := estimateAllR_spec env rd _ _ _ _ he
    refine ⟨ds, st1, he, h, hg, hm, ?_⟩
    intro d hd'
    have : d.1 ∈ speciesPairs env.nSpecies := hm ▸ List.mem_map_of_mem hd'
    have := (mem_speciesPairs env.nSpecies d.1.1 d.1.2).1 this
    exact ⟨this.1, this.2, hd d hd'⟩

/-- A completed run in floating-point arithmetic is a sequence of pair tests. -/
theorem driverR_tests (hp : 0 < p) {env : DriverEnv P S ℝ} (hv : env.rng.ValidFP p) {fi fs : ℕ} {st st' : DState P S ℝ}
    (hwf : WFRanges env.nSpecies st.range) (hfit : Fits p env.nSpecies st.range)
    (h : driverR R.rd env fi fs st = .ok st') : TestsOf env st st' := by
  obtain ⟨ds, st1, -, h1, ⟨g, rfl⟩, -, hd⟩ := driverR_split env R.rd fi fs st st' h
  exact ⟨g, collideAllR_reach R hp env hv fi fs ds _ _ hwf hfit hd h1⟩

/-! ### Number of iterations -/

theorem testLoopR_count (env : DriverEnv P S ℝ) (fs A B : ℕ) (m : ℝ) :
    ∀ (fi : ℕ) (nt : ℝ) (st st' : DState P S ℝ), testLoopR R.rd env fs A B m fi nt st = .ok st' →
      ∃ evs, st'.log = st.log ++ evs ∧ (∀ e ∈ evs, e.A = A ∧ e.B = B) ∧
        (nt ∈ FP p → nt ≤ 2 ^ p →
          evs.length ≤ loopCount nt ∧ (evs.length = loopCount nt ∨ notEnough st' A B = true)) := by
  intro fi
  induction fi with
  | zero =>
    intro nt st st' h
    simp only [testLoopR] at h
    split at h
    · cases h
    · rename_i hn
      cases h
      exact ⟨[], by simp, by simp, fun _ _ => ⟨by simp, .inl (by rw [loopCount_of_le hn]; rfl)⟩⟩
  | succ f ih =>
    intro nt st st' h
    simp only [testLoopR] at h
    by_cases hn : nt > 1
    · rw [if_pos hn] at h
      by_cases hne : notEnough st A B = true
      · rw [if_pos hne] at h
        cases h
        exact ⟨[], by simp, by simp, fun _ _ => ⟨by simp, .inr hne⟩⟩
      · rw [if_neg hne] at h
        cases hs : selectRandomPairR R.rd env.rng false fs (st.range A) (st.range B) st.gen with
        | none => rw [hs] at h; cases h
        | some r =>
          rw [hs] at h
          obtain ⟨evs, he1, he2, he3⟩ := ih _ _ _ h
          have hl := (applyPair_fields env.inplace A B r.1 r.2.1
            (setInteractR R.rd env (env.rhs A B) m (st.mem r.1) (st.mem r.2.1) r.2.2) { st with gen := r.2.2 }).2.1
          simp only at hl
          simp only [pairTestR] at he1
          rw [hl, List.append_assoc] at he1
          refine ⟨_, he1, ?_, ?_⟩
          · intro e he
            rcases List.mem_append.1 he with he | he
            · rw [List.mem_singleton] at he; subst he; exact ⟨rfl, rfl⟩
            · exact he2 e he
          · intro hnt hle
            have hm1 : nt - 1 ∈ FP p := by
              have := fp_sub_nat hnt (n := 1) (by push_cast; exact hn.le) hle
              simpa using this
            rw [R.rd_of_mem hm1] at he3
            obtain ⟨he3, he4⟩ := he3 hm1 (by linarith)
            rw [loopCount_succ hn]
            refine ⟨by simp; omega, ?_⟩
            rcases he4 with he4 | he4
            · left; simp; omega
            · exact .inr he4
    · rw [if_neg hn] at h
      cases h
      exact ⟨[], by simp, by simp, fun _ _ => ⟨by simp, .inl (by rw [loopCount_of_le hn]; rfl)⟩⟩

/-- From `2 ^ (p + 1)` on, subtracting one and rounding changes nothing. -/
theorem rd_sub_one_of_large (hp : 0 < p) {x : ℝ} (hx : x ∈ FP p) (hl : 2 ^ (p + 1) < x) : R.rd (x - 1) = x := by
  have hx0 : (0 : ℝ) < x := lt_trans (by positivity) hl
  obtain ⟨M, k, hM, hM', rfl⟩ := fp_normal hx hx0
  have hMr' : (M : ℝ) ≤ 2 ^ p := by exact_mod_cast hM'
  have hk0 : (0 : ℝ) < 2 ^ k := by positivity
  have hk : 2 ≤ k := by
    by_contra hc
    have h1 : (2 : ℝ) ^ k ≤ 2 ^ (1 : ℤ) := zpow_le_zpow_right₀ (by norm_num) (by omega)
    have h2 : (M : ℝ) * 2 ^ k ≤ 2 ^ p * 2 := by
      rw [zpow_one] at h1
      exact mul_le_mul hMr' h1 hk0.le (by positivity)
    rw [pow_succ] at hl
    linarith
  have h4 : (4 : ℝ) ≤ 2 ^ k := by
    calc (4 : ℝ) = 2 ^ (2 : ℤ) := by norm_num
      _ ≤ 2 ^ k := zpow_le_zpow_right₀ (by norm_num) hk
  have hle : R.rd ((M : ℝ) * 2 ^ k - 1) ≤ M * 2 ^ k := R.le_of_le hx (by linarith)
  have hnear := R.near ((M : ℝ) * 2 ^ k - 1) _ hx
  rcases hle.lt_or_eq with hlt | heq
  · have hg := fp_gap hp hM (R.mem _) hlt
    have h5 : |(M : ℝ) * 2 ^ k - 1 - M * 2 ^ k| = 1 := by
      rw [show (M : ℝ) * 2 ^ k - 1 - M * 2 ^ k = -1 by ring]; simp
    rw [h5] at hnear
    have := (abs_le.1 hnear).2
    nlinarith
  · exact heq

theorem collideAllR_count (hp : 0 < p) (env : DriverEnv P S ℝ) (hv : env.rng.ValidFP p) (fi fs : ℕ) :
    ∀ (ds : List ((ℕ × ℕ) × Option (TestData ℝ))) (st st' : DState P S ℝ),
    WFRanges env.nSpecies st.range → Fits p env.nSpecies st.range →
    (∀ d ∈ ds, d.1.1 ≤ d.1.2 ∧ d.1.2 < env.nSpecies ∧
      (d.2 = none ↔ env.rhs d.1.1 d.1.2 = [])) → (ds.map Prod.fst).Nodup →
    collideAllR R.rd env fi fs ds st = .ok st' →
    ∃ evs, st'.log = st.log ++ evs ∧ (∀ e ∈ evs, ∃ td, ((e.A, e.B), some td) ∈ ds) ∧
      ∀ A B td, ((A, B), some td) ∈ ds → td.numberTests ∈ FP p → td.numberTests ≤ 2 ^ p →
        let k := (evs.filter (fun e => e.A == A && e.B == B)).length
        k ≤ loopCount td.numberTests ∧ (k = loopCount td.numberTests ∨ notEnough st' A B = true) := by
  intro ds
  induction ds with
  | nil =>
    intro st st' _ _ _ _ h
    simp only [collideAllR, Except.ok.injEq] at h
    subst h
    exact ⟨[], by simp, by simp, by simp⟩
  | cons d ds ih =>
    intro st st' hwf hfit hd hnd h
    obtain ⟨⟨A', B'⟩, o⟩ := d
    rw [List.map_cons, List.nodup_cons] at hnd
    have hd' : ∀ d ∈ ds, d.1.1 ≤ d.1.2 ∧ d.1.2 < env.nSpecies ∧
      (d.2 = none ↔ env.rhs d.1.1 d.1.2 = []) := fun d hm => hd d (List.mem_cons_of_mem _ hm)
    cases o with
    | none =>
      obtain ⟨evs, h1, h2, h3⟩ := ih st st' hwf hfit hd' hnd.2 h
      refine ⟨evs, h1, ?_, ?_⟩
      · intro e he; obtain ⟨td, h⟩ := h2 e he; exact ⟨td, List.mem_cons_of_mem _ h⟩
      · intro A B td hm
        rcases List.mem_cons.1 hm with hm | hm
        · simp at hm
        · exact h3 A B td hm
    | some td0 =>
      simp only [collideAllR] at h
      cases ht : testLoopR R.rd env fs A' B' td0.maxSV fi td0.numberTests st with
      | error e => rw [ht] at h; cases h
      | ok st1 =>
        rw [ht] at h
        have hh := hd _ List.mem_cons_self
        simp only at hh
        have hne : env.rhs A' B' ≠ [] := by
          intro hc; exact absurd (hh.2.2.2 hc) (by simp)
        have hr1 := testLoopR_reach R hp env hv fs A' B' td0.maxSV hh.1 hh.2.1 hne _ _ _ _ hwf hfit ht
        have hs1 := greach_range_shrinks hr1 hwf
        have hfit1 := hfit.shrink hs1.2.1 hs1.2.2
        have hr2 := collideAllR_reach R hp env hv fi fs ds st1 st' hs1.1 hfit1 hd' h
        have hs2 := greach_range_shrinks hr2 hs1.1
        obtain ⟨ev1, c1, c2, c3⟩ := testLoopR_count R env fs A' B' td0.maxSV fi _ _ _ ht
        obtain ⟨ev2, h1, h2, h3⟩ := ih st1 st' hs1.1 hfit1 hd' hnd.2 h
        refine ⟨ev1 ++ ev2, by rw [h1, c1, List.append_assoc], ?_, ?_⟩
        · intro e he
          rcases List.mem_append.1 he with he | he
          · obtain ⟨rfl, rfl⟩ := c2 e he
            exact ⟨td0, List.mem_cons_self⟩
          · obtain ⟨td, h⟩ := h2 e he; exact ⟨td, List.mem_cons_of_mem _ h⟩
        · intro A B td hm hfp hle
          rcases List.mem_cons.1 hm with hm | hm
          · simp only [Prod.mk.injEq, Option.some.injEq] at hm
            obtain ⟨⟨rfl, rfl⟩, rfl⟩ := hm
            have e1 : ev1.filter (fun e => e.A == A && e.B == B) = ev1 := by
              rw [List.filter_eq_self]
              intro e he; simp [c2 e he]
            have e2 : ev2.filter (fun e => e.A == A && e.B == B) = [] := by
              rw [List.filter_eq_nil_iff]
              intro e he hc
              obtain ⟨td', hm'⟩ := h2 e he
              simp only [Bool.and_eq_true, beq_iff_eq] at hc
              rw [hc.1, hc.2] at hm'
              exact hnd.1 (List.mem_map.2 ⟨_, hm', rfl⟩)
            simp only [List.filter_append, e1, e2, List.append_nil]
            obtain ⟨c3, c4⟩ := c3 hfp hle
            refine ⟨c3, c4.imp_right fun hc => notEnough_mono hs2.2.1 hs2.2.2 hc⟩
          · have hne' : (A, B) ≠ (A', B') := by
              rintro hc
              exact hnd.1 (hc ▸ List.mem_map.2 ⟨_, hm, rfl⟩)
            have e1 : ev1.filter (fun e => e.A == A && e.B == B) = [] := by
              rw [List.filter_eq_nil_iff]
              intro e he hc
              simp only [Bool.and_eq_true, beq_iff_eq] at hc
              apply hne'
              rw [← hc.1, ← hc.2, (c2 e he).1, (c2 e he).2]
            simp only [List.filter_append, e1, List.nil_append]
            exact h3 A B td hm hfp hle

/-! ### A loop that never ends -/

/-- Above `2 ^ (p + 1)` the counter stands still: the loop can only end because no pair is left. -/
theorem testLoopR_large (hp : 0 < p) (env : DriverEnv P S ℝ) (fs A B : ℕ) (m : ℝ) :
    ∀ (fi : ℕ) (nt : ℝ) (st st' : DState P S ℝ), nt ∈ FP p → 2 ^ (p + 1) < nt →
      testLoopR R.rd env fs A B m fi nt st = .ok st' → notEnough st' A B = true := by
  intro fi
  have h1 : ∀ nt : ℝ, 2 ^ (p + 1) < nt → nt > 1 := fun nt h => lt_of_le_of_lt (one_le_pow₀ (by norm_num)) h
  induction fi with
  | zero =>
    intro nt st st' _ hl h
    simp only [testLoopR, if_pos (h1 nt hl)] at h
    cases h
  | succ f ih =>
    intro nt st st' hnt hl h
    simp only [testLoopR, if_pos (h1 nt hl)] at h
    split at h
    · rename_i hne; cases h; exact hne
    · split at h
      · cases h
      · rw [rd_sub_one_of_large R hp hnt hl] at h
        exact ih _ _ _ hnt hl h

theorem collideAllR_mem (env : DriverEnv P S ℝ) (rd : ℝ → ℝ) (fi fs : ℕ) :
    ∀ (ds : List ((ℕ × ℕ) × Option (TestData ℝ))) (st st' : DState P S ℝ) (A B : ℕ) (td : TestData ℝ),
    ((A, B), some td) ∈ ds → collideAllR rd env fi fs ds st = .ok st' →
    ∃ st1 st2 ds1 ds2, ds = ds1 ++ ((A, B), some td) :: ds2 ∧ collideAllR rd env fi fs ds1 st = .ok st1 ∧
      testLoopR rd env fs A B td.maxSV fi td.numberTests st1 = .ok st2 ∧ collideAllR rd env fi fs ds2 st2 = .ok st' := by
  intro ds
  induction ds with
  | nil => intro st st' A B td h; simp at h
  | cons d ds ih =>
    intro st st' A B td hm h
    obtain ⟨⟨A', B'⟩, o⟩ := d
    cases o with
    | none =>
      rcases List.mem_cons.1 hm with hm | hm
      · simp at hm
      · obtain ⟨st1, st2, ds1, ds2, he, h1, h2, h3⟩ := ih st st' A B td hm h
        exact ⟨st1, st2, ((A', B'), none) :: ds1, ds2, by rw [he]; rfl, h1, h2, h3⟩
    | some td0 =>
      simp only [collideAllR] at h
      cases ht : testLoopR rd env fs A' B' td0.maxSV fi td0.numberTests st with
      | error e => rw [ht] at h; cases h
      | ok sta =>
        rw [ht] at h
        rcases List.mem_cons.1 hm with hm | hm
        · simp only [Prod.mk.injEq, Option.some.injEq] at hm
          obtain ⟨⟨rfl, rfl⟩, rfl⟩ := hm
          exact ⟨st, sta, [], ds, rfl, rfl, ht, h⟩
        · obtain ⟨st1, st2, ds1, ds2, he, h1, h2, h3⟩ := ih sta st' A B td hm h
          refine ⟨st1, st2, ((A', B'), some td0) :: ds1, ds2, by rw [he]; rfl, ?_, h2, h3⟩
          simp only [collideAllR, ht]
          exact h1

/-! ### Termination -/

theorem selectBR_mono (rd : ℝ → ℝ) (rng : RNG S ℝ) (lo sz pA : ℕ) : ∀ (f f' : ℕ) (s : S) (r : ℕ × S),
    f ≤ f' → selectBR rd rng lo sz pA f s = some r → selectBR rd rng lo sz pA f' s = some r := by
  intro f
  induction f with
  | zero => intro f' s r _ h; simp [selectBR] at h
  | succ f ih =>
    intro f' s r hle h
    obtain ⟨g, rfl⟩ : ∃ g, f' = g + 1 := ⟨f' - 1, by omega⟩
    simp only [selectBR] at h ⊢
    split at h
    · rename_i hh
      rw [if_pos hh]
      exact ih g _ _ (by omega) h
    · rename_i hh
      rw [if_neg hh]
      exact h

theorem selectRandomPairR_mono (rd : ℝ → ℝ) (rng : RNG S ℝ) (f f' : ℕ) (a b : ℕ × ℕ) (s : S)
    (r : ℕ × ℕ × S) (hle : f ≤ f') (h : selectRandomPairR rd rng false f a b s = some r) :
    selectRandomPairR rd rng false f' a b s = some r := by
  simp only [selectRandomPairR, Bool.false_eq_true, if_false] at h ⊢
  split at h
  · cases h
  · rename_i heq
    rw [selectBR_mono rd rng _ _ _ f f' _ _ hle heq]
    exact h

theorem testLoopR_mono (rd : ℝ → ℝ) (env : DriverEnv P S ℝ) (fs fs' A B : ℕ) (m : ℝ) (hfs : fs ≤ fs') :
    ∀ (fi fi' : ℕ) (nt : ℝ) (st st' : DState P S ℝ), fi ≤ fi' →
      testLoopR rd env fs A B m fi nt st = .ok st' → testLoopR rd env fs' A B m fi' nt st = .ok st' := by
  intro fi
  induction fi with
  | zero =>
    intro fi' nt st st' _ h
    simp only [testLoopR] at h
    split at h
    · cases h
    · rename_i hn
      cases fi' with
      | zero => simpa only [testLoopR, if_neg hn] using h
      | succ f => simpa only [testLoopR, if_neg hn] using h
  | succ f ih =>
    intro fi' nt st st' hle h
    obtain ⟨g, rfl⟩ : ∃ g, fi' = g + 1 := ⟨fi' - 1, by omega⟩
    simp only [testLoopR] at h ⊢
    by_cases hn : nt > 1
    · rw [if_pos hn] at h ⊢
      by_cases hne : notEnough st A B = true
      · rw [if_pos hne] at h ⊢; exact h
      · rw [if_neg hne] at h ⊢
        cases hs : selectRandomPairR rd env.rng false fs (st.range A) (st.range B) st.gen with
        | none => rw [hs] at h; cases h
        | some r =>
          rw [hs] at h
          rw [selectRandomPairR_mono rd env.rng fs fs' _ _ _ _ hfs hs]
          exact ih g _ _ _ (by omega) h
    · rw [if_neg hn] at h ⊢; exact h

theorem collideAllR_mono (rd : ℝ → ℝ) (env : DriverEnv P S ℝ) (fi fi' fs fs' : ℕ) (hfi : fi ≤ fi')
    (hfs : fs ≤ fs') : ∀ (ds : List ((ℕ × ℕ) × Option (TestData ℝ))) (st st' : DState P S ℝ),
    collideAllR rd env fi fs ds st = .ok st' → collideAllR rd env fi' fs' ds st = .ok st' := by
  intro ds
  induction ds with
  | nil => intro st st' h; exact h
  | cons d ds ih =>
    intro st st' h
    obtain ⟨⟨A, B⟩, o⟩ := d
    cases o with
    | none => exact ih st st' h
    | some td =>
      simp only [collideAllR] at h ⊢
      cases ht : testLoopR rd env fs A B td.maxSV fi td.numberTests st with
      | error e => rw [ht] at h; cases h
      | ok st1 =>
        rw [ht] at h
        rw [testLoopR_mono rd env fs fs' A B _ hfs fi fi' _ _ _ hfi ht]
        exact ih _ _ h

theorem selectBR_some_of_draw (rd : ℝ → ℝ) (rng : RNG S ℝ) (lo sz pA : ℕ) : ∀ (j : ℕ) (s : S),
    pickPosR rd lo sz (rng.excDraw s j) ≠ pA → ∃ r, selectBR rd rng lo sz pA (j + 1) s = some r := by
  intro j
  induction j with
  | zero =>
    intro s h
    simp only [RNG.excDraw, Function.iterate_zero, id] at h
    simp only [selectBR]
    rw [if_neg (fun hc => h hc.symm)]
    exact ⟨_, rfl⟩
  | succ j ih =>
    intro s h
    by_cases hc : pA = pickPosR rd lo sz (rng.randExc s).1
    · have : pickPosR rd lo sz (rng.excDraw (rng.randExc s).2 j) ≠ pA := by
        simpa only [RNG.excDraw, Function.iterate_succ, Function.comp] using h
      obtain ⟨r, hr⟩ := ih _ this
      refine ⟨r, ?_⟩
      rw [selectBR]
      simp only
      rw [if_pos hc]
      exact hr
    · refine ⟨(pickPosR rd lo sz (rng.randExc s).1, (rng.randExc s).2), ?_⟩
      rw [selectBR]
      simp only
      rw [if_neg hc]

end Chimp
