import Verif.Props.FloatCollide
import Verif.Props.FloatRun
import Verif.Props.DriverRun

/-!
# Property C99: drift of conserved quantities over a run in floating-point arithmetic
-/

namespace Chimp

variable {P S W : Type} {p : ℕ} (R : Rounding p)

/-! ## Specification -/

/-- Every equation changes the quantity `φ` by a fixed amount, the `j`-th equation of species `A` and `B` by `d A B j`, up
to the relative error `ε`. -/
def NearlyBalances (env : DriverEnv P S ℝ) (φ : P → ℝ) (d : ℕ → ℕ → ℕ → ℝ) (ε : ℝ) : Prop :=
  ∀ A B, A ≤ B → B < env.nSpecies → ∀ (j : ℕ) (e : Eqn P S ℝ), (env.rhs A B)[j]? = some e → ∀ a b s,
    env.species a = A → env.species b = B → 0 < e.sigma (env.relSpeed a b) →
    ((e.act a b s).2.2.1 = [] →
      |φ (e.act a b s).1 + φ (e.act a b s).2.1 - (φ a + φ b + d A B j)| ≤ ε * (φ a + φ b + |d A B j|)) ∧
    ((e.act a b s).2.2.1 ≠ [] →
      |((e.act a b s).2.2.1.map φ).sum - (φ a + φ b + d A B j)| ≤ ε * (φ a + φ b + |d A B j|))

/-- Every equation conserves the quantity `ψ` up to `c` times the root of the energy `φ` involved. -/
def NearlyKeeps (env : DriverEnv P S ℝ) (ψ φ : P → ℝ) (d : ℕ → ℕ → ℕ → ℝ) (c : ℝ) : Prop :=
  ∀ A B, A ≤ B → B < env.nSpecies → ∀ (j : ℕ) (e : Eqn P S ℝ), (env.rhs A B)[j]? = some e → ∀ a b s,
    env.species a = A → env.species b = B → 0 < e.sigma (env.relSpeed a b) →
    ((e.act a b s).2.2.1 = [] →
      |ψ (e.act a b s).1 + ψ (e.act a b s).2.1 - (ψ a + ψ b)| ≤ c * Real.sqrt (φ a + φ b + |d A B j|)) ∧
    ((e.act a b s).2.2.1 ≠ [] →
      |((e.act a b s).2.2.1.map ψ).sum - (ψ a + ψ b)| ≤ c * Real.sqrt (φ a + φ b + |d A B j|))

/-- The number of interactions among the reported tests. -/
def interactionCount (l : List (Event P ℝ)) : ℕ := l.countP fun e => decide (0 ≤ e.path.first)

/-- The amount of `φ` in the cell and among the products reported. -/
def allOf (env : DriverEnv P S ℝ) (φ : P → ℝ) (st : DState P S ℝ) : ℝ :=
  cellTotal env.nSpecies φ st + (st.results.map φ).sum

/-! ### Lemmas -/

private theorem sum_ite (n A : ℕ) (hA : A < n) (φ : P → ℝ) (x : P) :
    ∑ C ∈ Finset.range n, ((if C = A then ({x} : Multiset P) else 0).map φ).sum = φ x := by
  rw [Finset.sum_eq_single A]
  · simp
  · intro C _ hC; simp [hC]
  · intro h; exact absurd (Finset.mem_range.2 hA) h

private theorem cellTotal_nonneg (n : ℕ) {φ : P → ℝ} (h0 : ∀ x, 0 ≤ φ x) (st : DState P S ℝ) : 0 ≤ cellTotal n φ st := by
  refine Finset.sum_nonneg fun C _ => Multiset.sum_nonneg fun x hx => ?_
  obtain ⟨y, -, rfl⟩ := Multiset.mem_map.1 hx
  exact h0 y

/-- Two different live particles carry no more than the cell. -/
private theorem pair_le (n A B i j : ℕ) (st : DState P S ℝ) (hwf : WFRanges n st.range) (hA : A < n) (hB : B < n)
    (hi : (st.range A).1 ≤ i ∧ i < (st.range A).2) (hj : (st.range B).1 ≤ j ∧ j < (st.range B).2) (hij : i ≠ j)
    {φ : P → ℝ} (h0 : ∀ x, 0 ≤ φ x) : φ (st.mem i) + φ (st.mem j) ≤ cellTotal n φ st := by
  have h := (applyPair_inplace n A B i j (⟨0, 0, false⟩, st.mem i, st.mem j, [st.mem i], st.gen) st
    (fun _ => le_rfl) hwf hA hB hi hj hij).2 (by simp)
  have h4 : ∑ C ∈ Finset.range n, _ = ∑ C ∈ Finset.range n, ((liveM st.mem (st.range C)).map φ).sum :=
    Finset.sum_congr rfl fun C hC => congrArg (fun m => (Multiset.map φ m).sum) (h.2.2 C (Finset.mem_range.1 hC))
  simp only [Multiset.map_add, Multiset.sum_add, Finset.sum_add_distrib, sum_ite n A hA φ, sum_ite n B hB φ] at h4
  have := cellTotal_nonneg n h0 (applyPair true A B i j (⟨0, 0, false⟩, st.mem i, st.mem j, [st.mem i], st.gen) st)
  unfold cellTotal at this ⊢
  linarith

/-- What one in-place test does to the totals of the cell. -/
private theorem gstep_total {env : DriverEnv P S ℝ} (hin : env.inplace = true) (hk : InPlaceKeeps env env.species)
    {st st' : DState P S ℝ} (hwf : WFRanges env.nSpecies st.range) (hom : Homogeneous env st) (h : GStep env st st') :
    WFRanges env.nSpecies st'.range ∧ Homogeneous env st' ∧ ∃ ev : Event P ℝ, st'.log = st.log ++ [ev] ∧
      env.species ev.a = ev.A ∧ env.species ev.b = ev.B ∧ ev.A ≤ ev.B ∧ ev.B < env.nSpecies ∧
      (∀ φ : P → ℝ, (∀ x, 0 ≤ φ x) → φ ev.a + φ ev.b ≤ cellTotal env.nSpecies φ st) ∧
      (((ev.path.first < 0 ∨ (env.rhs ev.A ev.B)[ev.path.first.toNat]? = none) ∧
          ∀ φ : P → ℝ, allOf env φ st' = allOf env φ st) ∨
        (0 ≤ ev.path.first ∧ ∃ e s, (env.rhs ev.A ev.B)[ev.path.first.toNat]? = some e ∧
          ∀ φ : P → ℝ, allOf env φ st' = allOf env φ st - (φ ev.a + φ ev.b) +
            (if (e.act ev.a ev.b s).2.2.1 = [] then φ (e.act ev.a ev.b s).1 + φ (e.act ev.a ev.b s).2.1
              else ((e.act ev.a ev.b s).2.2.1.map φ).sum))) := by
  have hwf' := (h.range_shrinks hwf).1
  obtain ⟨A, B, i, j, r, _, hAB, hB, hne, hi, hj, hij, hr⟩ := h
  have hA : A < env.nSpecies := by omega
  rw [hin] at hwf' ⊢
  have h1 := applyPair_inplace env.nSpecies A B i j r st hr.created hwf hA hB hi hj hij
  have h2 := applyPair_fields true A B i j r st
  have hspa : env.species (st.mem i) = A := hom A hA i hi.1 hi.2
  have hspb : env.species (st.mem j) = B := hom B hB j hj.1 hj.2
  have hks := hr.keeps hk
  rw [hspa, hspb] at hks
  simp only at h1 h2
  generalize applyPair true A B i j r st = st' at h1 h2 hwf'
  have hmem : ∀ C < env.nSpecies, ∀ x ∈ liveM st'.mem (st'.range C),
      x ∈ liveM st.mem (st.range C) ∨ (C = A ∧ x = r.2.1) ∨ (C = B ∧ x = r.2.2.1) := by
    intro C hC x hx
    by_cases hprod : r.2.2.2.1 = []
    · obtain ⟨-, -, hl⟩ := h1.1 hprod
      have h3 : x ∈ liveM st.mem (st.range C) + (if C = A then {r.2.1} else 0) + (if C = B then {r.2.2.1} else 0) := by
        rw [← hl C hC]
        exact Multiset.mem_add.2 (.inl (Multiset.mem_add.2 (.inl hx)))
      rcases Multiset.mem_add.1 h3 with h3 | h3
      · rcases Multiset.mem_add.1 h3 with h3 | h3
        · exact .inl h3
        · split at h3
          · exact .inr (.inl ⟨by assumption, Multiset.mem_singleton.1 h3⟩)
          · simp at h3
      · split at h3
        · exact .inr (.inr ⟨by assumption, Multiset.mem_singleton.1 h3⟩)
        · simp at h3
    · obtain ⟨-, -, hl⟩ := h1.2 hprod
      left
      rw [← hl C hC]
      exact Multiset.mem_add.2 (.inl (Multiset.mem_add.2 (.inl hx)))
  have htot : ∀ φ : P → ℝ, allOf env φ st' = allOf env φ st - (φ (st.mem i) + φ (st.mem j)) +
      (if r.2.2.2.1 = [] then φ r.2.1 + φ r.2.2.1 else (r.2.2.2.1.map φ).sum) := by
    intro φ
    unfold allOf
    rw [h2.1, List.map_append, List.sum_append]
    by_cases hprod : r.2.2.2.1 = []
    · obtain ⟨-, -, hl⟩ := h1.1 hprod
      have h4 : ∑ C ∈ Finset.range env.nSpecies, _ = ∑ C ∈ Finset.range env.nSpecies, _ :=
        Finset.sum_congr rfl fun C hC => congrArg (fun m => (Multiset.map φ m).sum) (hl C (Finset.mem_range.1 hC))
      simp only [Multiset.map_add, Multiset.sum_add, Finset.sum_add_distrib, sum_ite _ A hA φ, sum_ite _ B hB φ] at h4
      rw [if_pos hprod, hprod]
      unfold cellTotal
      simp only [List.map_nil, List.sum_nil]
      linarith
    · obtain ⟨-, -, hl⟩ := h1.2 hprod
      have h4 : ∑ C ∈ Finset.range env.nSpecies, _ = ∑ C ∈ Finset.range env.nSpecies, _ :=
        Finset.sum_congr rfl fun C hC => congrArg (fun m => (Multiset.map φ m).sum) (hl C (Finset.mem_range.1 hC))
      simp only [Multiset.map_add, Multiset.sum_add, Finset.sum_add_distrib, sum_ite _ A hA φ, sum_ite _ B hB φ] at h4
      rw [if_neg hprod]
      unfold cellTotal
      linarith
  refine ⟨hwf', ?_, ⟨A, B, i, j, st.mem i, st.mem j, r.1, r.2.2.2.1⟩, h2.2.1, hspa, hspb, hAB, hB,
    fun φ h0 => pair_le env.nSpecies A B i j st hwf hA hB hi hj hij h0, ?_⟩
  · intro C hC z hz1 hz2
    rcases hmem C hC _ (mem_liveM.2 ⟨z, hz1, hz2, rfl⟩) with h3 | ⟨rfl, h3⟩ | ⟨rfl, h3⟩
    · obtain ⟨y, hy1, hy2, hy⟩ := mem_liveM.1 h3
      rw [← hy]; exact hom C hC y hy1 hy2
    · rw [h3, hks.1]
    · rw [h3, hks.2]
  · rcases hr with ⟨hf, ha, hb, hp⟩ | ⟨h0, e, -, s', he, h | h⟩
    · left
      refine ⟨hf, fun φ => ?_⟩
      rw [htot φ, if_pos hp, ha, hb]
      ring
    · rw [hspa, hspb] at h; omega
    · right
      refine ⟨h0, e, s', he, fun φ => ?_⟩
      rw [htot φ, h.2.1, h.2.2.1, h.2.2.2]

/-- What is carried along a run. -/
private structure DriftInv (env : DriverEnv P S ℝ) (φ : P → ℝ) (d : ℕ → ℕ → ℕ → ℝ) (ε : ℝ) (st0 st : DState P S ℝ) :
    Prop where
  wf : WFRanges env.nSpecies st.range
  hom : Homogeneous env st
  drift : |allOf env φ st - (allOf env φ st0 + (st.log.map (Event.source d)).sum)| ≤
    ((1 + ε) ^ interactionCount st.log - 1) *
      (allOf env φ st0 + (st.log.map (Event.source fun A B j => |d A B j|)).sum)

private theorem source_abs (d : ℕ → ℕ → ℕ → ℝ) (l : List (Event P ℝ)) :
    |(l.map (Event.source d)).sum| ≤ (l.map (Event.source fun A B j => |d A B j|)).sum := by
  induction l with
  | nil => simp
  | cons e l ih =>
    rw [List.map_cons, List.sum_cons, List.map_cons, List.sum_cons]
    refine (abs_add_le _ _).trans (add_le_add ?_ ih)
    unfold Event.source
    split <;> simp

private theorem DriftInv.le {env : DriverEnv P S ℝ} {φ : P → ℝ} {d : ℕ → ℕ → ℕ → ℝ} {ε : ℝ} {st0 st : DState P S ℝ}
    (h : DriftInv env φ d ε st0 st) :
    allOf env φ st ≤ (1 + ε) ^ interactionCount st.log *
      (allOf env φ st0 + (st.log.map (Event.source fun A B j => |d A B j|)).sum) := by
  have h1 := (abs_le.1 h.drift).2
  have h2 := (le_abs_self _).trans (source_abs d st.log)
  linarith

private theorem allOf_nonneg (env : DriverEnv P S ℝ) {φ : P → ℝ} (h0 : ∀ x, 0 ≤ φ x) (st : DState P S ℝ) :
    0 ≤ allOf env φ st ∧ cellTotal env.nSpecies φ st ≤ allOf env φ st := by
  have h1 := cellTotal_nonneg env.nSpecies h0 st
  have h2 : 0 ≤ (st.results.map φ).sum := List.sum_nonneg fun x hx => by
    obtain ⟨y, -, rfl⟩ := List.mem_map.1 hx
    exact h0 y
  unfold allOf
  constructor <;> linarith

/-- Only open channels, all along the log. -/
private def OpenLog (env : DriverEnv P S ℝ) (st : DState P S ℝ) : Prop :=
  ∀ ev ∈ st.log, ev.path.first < 0 ∨
    ∃ q, (env.rhs ev.A ev.B)[ev.path.first.toNat]? = some q ∧ 0 < q.sigma (env.relSpeed ev.a ev.b)

private theorem drift_step {env : DriverEnv P S ℝ} (hin : env.inplace = true) (hk : InPlaceKeeps env env.species)
    {φ : P → ℝ} (h0 : ∀ x, 0 ≤ φ x) {d : ℕ → ℕ → ℕ → ℝ} {ε : ℝ} (hε : 0 ≤ ε) (hb : NearlyBalances env φ d ε)
    {st0 st st' : DState P S ℝ} (hopen : OpenLog env st') (hinv : DriftInv env φ d ε st0 st) (h : GStep env st st') :
    DriftInv env φ d ε st0 st' := by
  obtain ⟨hwf, hom, ev, hlog, ha, hB, hAB, hn, hle, hc⟩ := gstep_total hin hk hinv.wf hinv.hom h
  refine ⟨hwf, hom, ?_⟩
  have hT0 := (allOf_nonneg env h0 st0).1
  have hS0 : 0 ≤ (st.log.map (Event.source fun A B j => |d A B j|)).sum := (abs_nonneg _).trans (source_abs d st.log)
  have hle' := (hle φ h0).trans (allOf_nonneg env h0 st).2
  have hup := hinv.le
  have hdr := hinv.drift
  have hpow : 1 ≤ (1 + ε) ^ interactionCount st.log := one_le_pow₀ (by linarith)
  have hop := hopen ev (by rw [hlog]; exact List.mem_append_right _ (List.mem_singleton.2 rfl))
  rw [hlog]
  simp only [List.map_append, List.sum_append, List.map_cons, List.map_nil, List.sum_cons, List.sum_nil, add_zero]
  generalize (st.log.map (Event.source fun A B j => |d A B j|)).sum = Sa at *
  generalize (st.log.map (Event.source d)).sum = Sd at *
  rcases hc with ⟨hf, hT⟩ | ⟨hf, e, s, he, hT⟩
  · have hneg : ev.path.first < 0 := by
      rcases hop with hop | ⟨q, hq, -⟩
      · exact hop
      · rcases hf with hf | hf
        · exact hf
        · rw [hf] at hq; cases hq
    have hcount : interactionCount (st.log ++ [ev]) = interactionCount st.log := by
      simp [interactionCount, not_le.2 hneg]
    rw [hcount, hT φ]
    simp only [Event.source, if_pos hneg, add_zero]
    exact hdr
  · have hcount : interactionCount (st.log ++ [ev]) = interactionCount st.log + 1 := by
      simp [interactionCount, hf]
    rw [hcount, hT φ]
    have hpos : 0 < e.sigma (env.relSpeed ev.a ev.b) := by
      rcases hop with hop | ⟨q, hq, hpos⟩
      · omega
      · rw [he] at hq; cases hq; exact hpos
    have hbal := hb ev.A ev.B hAB hn _ e he ev.a ev.b s ha hB hpos
    simp only [Event.source, if_neg (not_lt.2 hf)]
    set D := d ev.A ev.B ev.path.first.toNat
    have key : ∀ x : ℝ, |x - (φ ev.a + φ ev.b + D)| ≤ ε * (φ ev.a + φ ev.b + |D|) →
        |allOf env φ st - (φ ev.a + φ ev.b) + x - (allOf env φ st0 + (Sd + D))| ≤
          ((1 + ε) ^ (interactionCount st.log + 1) - 1) * (allOf env φ st0 + (Sa + |D|)) := by
      intro x hx
      have e1 : allOf env φ st - (φ ev.a + φ ev.b) + x - (allOf env φ st0 + (Sd + D)) =
          (allOf env φ st - (allOf env φ st0 + Sd)) + (x - (φ ev.a + φ ev.b + D)) := by ring
      rw [e1, pow_succ]
      refine (abs_add_le _ _).trans ((add_le_add hdr hx).trans ?_)
      have hD := abs_nonneg D
      set g := (1 + ε) ^ interactionCount st.log
      have e2 := mul_le_mul_of_nonneg_left (hle'.trans hup) hε
      have e3 : 0 ≤ (g - 1) * |D| := mul_nonneg (by linarith) hD
      have e4 : ε * |D| ≤ g * ε * |D| := by
        have := mul_le_mul_of_nonneg_right hpow (mul_nonneg hε hD)
        linarith
      linarith
    split_ifs with hp
    · exact key _ (hbal.1 hp)
    · exact key _ (hbal.2 hp)

private theorem keep_step {env : DriverEnv P S ℝ} (hin : env.inplace = true) (hk : InPlaceKeeps env env.species)
    {φ ψ : P → ℝ} (h0 : ∀ x, 0 ≤ φ x) {d : ℕ → ℕ → ℕ → ℝ} {ε c : ℝ} (hε : 0 ≤ ε) (hc0 : 0 ≤ c)
    (hb : NearlyKeeps env ψ φ d c)
    {st0 st st' : DState P S ℝ} (hopen : OpenLog env st') (hinv : DriftInv env φ d ε st0 st) (h : GStep env st st')
    (hψ : |allOf env ψ st - allOf env ψ st0| ≤ interactionCount st.log * (c * Real.sqrt ((1 + ε) ^ interactionCount st.log *
      (allOf env φ st0 + (st.log.map (Event.source fun A B j => |d A B j|)).sum)))) :
    |allOf env ψ st' - allOf env ψ st0| ≤ interactionCount st'.log * (c * Real.sqrt ((1 + ε) ^ interactionCount st'.log *
      (allOf env φ st0 + (st'.log.map (Event.source fun A B j => |d A B j|)).sum))) := by
  obtain ⟨-, -, ev, hlog, ha, hB, hAB, hn, hle, hc⟩ := gstep_total hin hk hinv.wf hinv.hom h
  have hT0 := (allOf_nonneg env h0 st0).1
  have hS0 : 0 ≤ (st.log.map (Event.source fun A B j => |d A B j|)).sum := (abs_nonneg _).trans (source_abs d st.log)
  have hle' := (hle φ h0).trans (allOf_nonneg env h0 st).2
  have hup := hinv.le
  have hpow : 1 ≤ (1 + ε) ^ interactionCount st.log := one_le_pow₀ (by linarith)
  have hop := hopen ev (by rw [hlog]; exact List.mem_append_right _ (List.mem_singleton.2 rfl))
  rw [hlog]
  simp only [List.map_append, List.sum_append, List.map_cons, List.map_nil, List.sum_cons, List.sum_nil, add_zero]
  generalize (st.log.map (Event.source fun A B j => |d A B j|)).sum = Sa at *
  rcases hc with ⟨hf, hT⟩ | ⟨hf, e, s, he, hT⟩
  · have hneg : ev.path.first < 0 := by
      rcases hop with hop | ⟨q, hq, -⟩
      · exact hop
      · rcases hf with hf | hf
        · exact hf
        · rw [hf] at hq; cases hq
    have hcount : interactionCount (st.log ++ [ev]) = interactionCount st.log := by
      simp [interactionCount, not_le.2 hneg]
    rw [hcount, hT ψ]
    simp only [Event.source, if_pos hneg, add_zero]
    exact hψ
  · have hcount : interactionCount (st.log ++ [ev]) = interactionCount st.log + 1 := by
      simp [interactionCount, hf]
    rw [hcount, hT ψ]
    have hpos : 0 < e.sigma (env.relSpeed ev.a ev.b) := by
      rcases hop with hop | ⟨q, hq, hpos⟩
      · omega
      · rw [he] at hq; cases hq; exact hpos
    have hbal := hb ev.A ev.B hAB hn _ e he ev.a ev.b s ha hB hpos
    simp only [Event.source, if_neg (not_lt.2 hf)]
    set D := d ev.A ev.B ev.path.first.toNat
    have hD := abs_nonneg D
    set g := (1 + ε) ^ interactionCount st.log with hg
    have hg1 : (1 + ε) ^ (interactionCount st.log + 1) = g * (1 + ε) := pow_succ _ _
    have m1 : g * (allOf env φ st0 + Sa) ≤ g * (1 + ε) * (allOf env φ st0 + (Sa + |D|)) := by
      have := mul_nonneg hε (by positivity : 0 ≤ g * (allOf env φ st0 + Sa))
      have : 0 ≤ g * (1 + ε) * |D| := by positivity
      linarith
    have m2 : φ ev.a + φ ev.b + |D| ≤ g * (1 + ε) * (allOf env φ st0 + (Sa + |D|)) := by
      have := mul_nonneg hε (by positivity : 0 ≤ g * (allOf env φ st0 + Sa))
      have : |D| ≤ g * |D| := le_mul_of_one_le_left hD hpow
      have : 0 ≤ g * ε * |D| := by positivity
      linarith
    rw [hg1]
    set X := g * (1 + ε) * (allOf env φ st0 + (Sa + |D|))
    have key : ∀ x : ℝ, |x - (ψ ev.a + ψ ev.b)| ≤ c * Real.sqrt (φ ev.a + φ ev.b + |D|) →
        |allOf env ψ st - (ψ ev.a + ψ ev.b) + x - allOf env ψ st0| ≤
          ((interactionCount st.log + 1 : ℕ) : ℝ) * (c * Real.sqrt X) := by
      intro x hx
      have e1 : allOf env ψ st - (ψ ev.a + ψ ev.b) + x - allOf env ψ st0 =
          (allOf env ψ st - allOf env ψ st0) + (x - (ψ ev.a + ψ ev.b)) := by ring
      rw [e1]
      refine (abs_add_le _ _).trans ?_
      have k1 : c * Real.sqrt (φ ev.a + φ ev.b + |D|) ≤ c * Real.sqrt X :=
        mul_le_mul_of_nonneg_left (Real.sqrt_le_sqrt m2) hc0
      have k2 : (interactionCount st.log : ℝ) * (c * Real.sqrt (g * (allOf env φ st0 + Sa))) ≤
          interactionCount st.log * (c * Real.sqrt X) :=
        mul_le_mul_of_nonneg_left (mul_le_mul_of_nonneg_left (Real.sqrt_le_sqrt m1) hc0) (Nat.cast_nonneg _)
      push_cast
      linarith
    split_ifs with hp
    · exact key _ (hbal.1 hp)
    · exact key _ (hbal.2 hp)

private theorem OpenLog.before {env : DriverEnv P S ℝ} {st st' : DState P S ℝ} (h : OpenLog env st')
    (hs : GStep env st st') : OpenLog env st := by
  obtain ⟨A, B, i, j, r, _, -⟩ := hs
  intro ev hev
  exact h ev (by rw [(applyPair_fields env.inplace A B i j r st).2.1]; exact List.mem_append_left _ hev)

/-! ## Runs -/

section
variable (hp : 0 < p) (env : DriverEnv P S ℝ) (hin : env.inplace = true) (hv : env.rng.ValidFP p)
  (hk : InPlaceKeeps env env.species) (hnn : ∀ A B, ∀ q ∈ env.rhs A B, ∀ v, 0 ≤ q.sigma v)
  (fi fs : ℕ) (st0 st : DState P S ℝ) (hwf : WFRanges env.nSpecies st0.range)
  (hfit : ∀ C < env.nSpecies, (st0.range C).2 - (st0.range C).1 ≤ 2 ^ p) (hlog : st0.log = [])
  (hom : Homogeneous env st0) (hrun : driverR R.rd env fi fs st0 = .ok st)
include hp hin hv hk hnn hwf hfit hlog hom hrun

omit hp hin hk hwf hfit hom in
private theorem run_open : OpenLog env st := by
  intro ev hev
  rcases C96_open_channels R env hv fi fs st0 st hlog hnn hrun ev hev with h | ⟨j, hj, q, hq, hpos, -⟩
  · left; omega
  · right
    refine ⟨q, ?_, hpos⟩
    rw [hj, Int.toNat_natCast]; exact hq

private theorem run_inv {φ ψ : P → ℝ} (h0 : ∀ x, 0 ≤ φ x) {d : ℕ → ℕ → ℕ → ℝ} {ε c : ℝ} (hε : 0 ≤ ε) (hc : 0 ≤ c)
    (hb : NearlyBalances env φ d ε) (hm : NearlyKeeps env ψ φ d c) :
    DriftInv env φ d ε st0 st ∧
    |allOf env ψ st - allOf env ψ st0| ≤ interactionCount st.log * (c * Real.sqrt ((1 + ε) ^ interactionCount st.log *
      (allOf env φ st0 + (st.log.map (Event.source fun A B j => |d A B j|)).sum))) := by
  have hopen := run_open R env hv hnn fi fs st0 st hlog hrun
  obtain ⟨g, hreach⟩ := driverR_tests R hp hv hwf hfit hrun
  have i0 : DriftInv env φ d ε st0 { st0 with gen := g } := by
    refine ⟨hwf, hom, ?_⟩
    simp [hlog, interactionCount, allOf, cellTotal]
  clear hrun
  induction hreach with
  | refl => exact ⟨i0, by simp [hlog, interactionCount, allOf, cellTotal]⟩
  | tail _ hstep ih =>
    have hi := ih (hopen.before hstep)
    exact ⟨drift_step hin hk h0 hε hb hopen hi.1 hstep, keep_step hin hk h0 hε hc hm hopen hi.1 hstep hi.2⟩

/-- **C99**  If every equation changes a nonnegative quantity by a fixed amount up to the relative error `ε`, then after a
run with `n` interactions the amount in the cell and among the products is the initial amount plus the sum of the changes,
up to `(1 + ε)ⁿ - 1` of the amounts involved. -/
theorem C99_drift {φ : P → ℝ} (h0 : ∀ x, 0 ≤ φ x) {d : ℕ → ℕ → ℕ → ℝ} {ε : ℝ} (hε : 0 ≤ ε)
    (hb : NearlyBalances env φ d ε) :
    |allOf env φ st - (allOf env φ st0 + (st.log.map (Event.source d)).sum)| ≤
      ((1 + ε) ^ interactionCount st.log - 1) *
        (allOf env φ st0 + (st.log.map (Event.source fun A B j => |d A B j|)).sum) :=
  (run_inv R hp env hin hv hk hnn fi fs st0 st hwf hfit hlog hom hrun (ψ := fun _ => 0) (c := 0) h0 hε le_rfl hb
    (by intro A B _ _ j e _ a b s _ _ _; simp)).1.drift

/-- **C99**  If every equation also conserves another quantity, such as a component of the momentum, up to `c` times the
root of the energies involved, then after a run with `n` interactions that quantity has changed by at most `n c` times the
root of the energies of the run. -/
theorem C99_drift_signed {φ ψ : P → ℝ} (h0 : ∀ x, 0 ≤ φ x) {d : ℕ → ℕ → ℕ → ℝ} {ε c : ℝ} (hε : 0 ≤ ε) (hc : 0 ≤ c)
    (hb : NearlyBalances env φ d ε) (hm : NearlyKeeps env ψ φ d c) :
    |allOf env ψ st - allOf env ψ st0| ≤ interactionCount st.log * (c * Real.sqrt ((1 + ε) ^ interactionCount st.log *
      (allOf env φ st0 + (st.log.map (Event.source fun A B j => |d A B j|)).sum))) :=
  (run_inv R hp env hin hv hk hnn fi fs st0 st hwf hfit hlog hom hrun h0 hε hc hb hm).2

end

/-! ## Elastic gases -/

/-- All equations are elastic collisions with the velocities worked out in floating-point arithmetic, and species `A` has
mass `mass A`. -/
structure ElasticGas (ar : Arith) (env : DriverEnv (Part W) S ℝ) (mass : ℕ → ℝ) : Prop where
  species : ∀ x, env.species x = x.species.toNat
  mass_pos : ∀ A, 0 < mass A
  act : ∀ A B, ∀ e ∈ env.rhs A B, ∀ a b s v w s',
    elasticCollideR ar env.rng (reducedMassR ar.rd (mass A) (mass B)) a.vel b.vel s = some (v, w, s') →
      e.act a b s = ({ a with vel := v }, { b with vel := w }, [], s')

/-- The kinetic energy of a particle. -/
noncomputable def kineticOf (mass : ℕ → ℝ) (x : Part W) : ℝ := ke (mass x.species.toNat) x.vel

/-- The momentum of a particle. -/
noncomputable def massTimesVel (mass : ℕ → ℝ) (x : Part W) : Vec := mass x.species.toNat • x.vel

private theorem kineticOf_nonneg {mass : ℕ → ℝ} (hm : ∀ A, 0 < mass A) (x : Part W) : 0 ≤ kineticOf mass x := by
  have := (hm x.species.toNat).le
  unfold kineticOf ke Vec.normSq
  positivity

private theorem pow_small {x : ℝ} (h0 : 0 ≤ x) (n : ℕ) (h : n * x ≤ 1 / 2) : (1 + x) ^ n - 1 ≤ 2 * (n * x) := by
  have h1 : (1 + x) ^ n * (1 - n * x) ≤ 1 := by
    clear h
    induction n with
    | zero => simp
    | succ n ih =>
      have hp : 0 ≤ (1 + x) ^ n := by positivity
      have : (1 + x) ^ (n + 1) * (1 - ((n + 1 : ℕ) : ℝ) * x) = (1 + x) ^ n * (1 - n * x) - (1 + x) ^ n * ((n + 1) * x ^ 2) := by
        push_cast; ring
      rw [this]
      have : 0 ≤ (1 + x) ^ n * ((n + 1) * x ^ 2) := by positivity
      linarith
  have hn : 0 ≤ (n : ℝ) * x := by positivity
  nlinarith

section
variable {κ : ℝ} (R : Rounding 53) (ar : Arith) (har : ar.rd = R.rd) (hl : ar.Lib κ) (hκ : κ ≤ 1 / 2 ^ 53)
  (env : DriverEnv (Part W) S ℝ) (hv : env.rng.ValidFP 53) {mass : ℕ → ℝ} (hg : ElasticGas ar env mass)
include har hl hκ hv hg

private theorem gas_act (A B : ℕ) (e : Eqn (Part W) S ℝ) (he : e ∈ env.rhs A B) (a b : Part W) (s : S) :
    ∃ v w s', e.act a b s = ({ a with vel := v }, { b with vel := w }, [], s') ∧
      Vec.Within (54 / 2 ^ 53 * Real.sqrt (2 * (mass A + mass B) * (ke (mass A) a.vel + ke (mass B) b.vel)))
        (mass A • v + mass B • w) (mass A • a.vel + mass B • b.vel) ∧
      |ke (mass A) v + ke (mass B) w - (ke (mass A) a.vel + ke (mass B) b.vel)| ≤
        69 / 2 ^ 53 * (ke (mass A) a.vel + ke (mass B) b.vel) := by
  obtain ⟨v, w, h, h1, h2⟩ := C98_elastic_double R ar har hl hκ env.rng hv.toValid (hg.mass_pos A) (hg.mass_pos B)
    a.vel b.vel s
  exact ⟨v, w, _, hg.act A B e he a b s v w _ (by rw [har]; exact h), h1, h2⟩

private theorem gas_keeps : InPlaceKeeps env env.species := by
  intro A B e he a b s
  obtain ⟨v, w, s', h, -⟩ := gas_act R ar har hl hκ env hv hg A B e he a b s
  rw [h, hg.species, hg.species, hg.species, hg.species]
  exact ⟨rfl, rfl⟩

private theorem gas_energy : NearlyBalances env (kineticOf mass) (fun _ _ _ => 0) (69 / 2 ^ 53) := by
  intro A B _ _ j e he a b s ha hb _
  obtain ⟨v, w, s', h, -, h2⟩ := gas_act R ar har hl hκ env hv hg A B e (List.mem_of_getElem? he) a b s
  rw [h]
  rw [hg.species] at ha hb
  refine ⟨fun _ => ?_, fun h => absurd rfl h⟩
  simp only [kineticOf, ha, hb, add_zero, abs_zero]
  exact h2

private theorem gas_momentum (f : Vec → ℝ) (hf : f = Vec.x ∨ f = Vec.y ∨ f = Vec.z) {M : ℝ} (hM : ∀ A, mass A ≤ M) :
    NearlyKeeps env (fun x => f (massTimesVel mass x)) (kineticOf mass) (fun _ _ _ => 0) (108 / 2 ^ 53 * Real.sqrt M) := by
  intro A B _ _ j e he a b s ha hb _
  obtain ⟨v, w, s', h, ⟨h1, h2, h3⟩, -⟩ := gas_act R ar har hl hκ env hv hg A B e (List.mem_of_getElem? he) a b s
  rw [h]
  rw [hg.species] at ha hb
  refine ⟨fun _ => ?_, fun h => absurd rfl h⟩
  simp only [kineticOf, massTimesVel, ha, hb, add_zero, abs_zero]
  have hE : 0 ≤ ke (mass A) a.vel + ke (mass B) b.vel := by
    have := (hg.mass_pos A).le; have := (hg.mass_pos B).le
    unfold ke Vec.normSq; positivity
  have hM0 : 0 ≤ M := (hg.mass_pos A).le.trans (hM A)
  have key : 54 / 2 ^ 53 * Real.sqrt (2 * (mass A + mass B) * (ke (mass A) a.vel + ke (mass B) b.vel)) ≤
      108 / 2 ^ 53 * Real.sqrt M * Real.sqrt (ke (mass A) a.vel + ke (mass B) b.vel) := by
    have e1 : Real.sqrt (2 * (mass A + mass B) * (ke (mass A) a.vel + ke (mass B) b.vel)) ≤
        Real.sqrt (2 ^ 2 * (M * (ke (mass A) a.vel + ke (mass B) b.vel))) := by
      refine Real.sqrt_le_sqrt ?_
      have := mul_le_mul_of_nonneg_right (by linarith [hM A, hM B] : 2 * (mass A + mass B) ≤ 4 * M) hE
      linarith
    rw [Real.sqrt_mul (by norm_num : (0 : ℝ) ≤ 2 ^ 2) (M * _), Real.sqrt_sq (by norm_num), Real.sqrt_mul hM0] at e1
    have := mul_le_mul_of_nonneg_left e1 (by norm_num : (0 : ℝ) ≤ 54 / 2 ^ 53)
    linarith
  rcases hf with rfl | rfl | rfl
  · exact h1.trans key
  · exact h2.trans key
  · exact h3.trans key

variable (hin : env.inplace = true) (hnn : ∀ A B, ∀ q ∈ env.rhs A B, ∀ v, 0 ≤ q.sigma v)
  (fi fs : ℕ) (st0 st : DState (Part W) S ℝ) (hwf : WFRanges env.nSpecies st0.range)
  (hfit : ∀ C < env.nSpecies, (st0.range C).2 - (st0.range C).1 ≤ 2 ^ 53) (hlog : st0.log = [])
  (hom : Homogeneous env st0) (hrun : driverR R.rd env fi fs st0 = .ok st)
include hin hnn hwf hfit hlog hom hrun

/-- **C99**  A run of the driver in `double` on a gas with elastic collisions only, with `n` collisions among its tests,
keeps the kinetic energy up to `(1 + 69/2⁵³)ⁿ - 1` of itself.  For at most `2⁴⁵` collisions that is at most
`138 n/2⁵³`.  Each component of the momentum changes by at most `108 n/2⁵³ √(M E)` where `E` is the largest energy allowed
by the first bound and `M` the largest mass. -/
theorem C99_elastic_run {M : ℝ} (hM : ∀ A, mass A ≤ M) :
    let n := interactionCount st.log
    let E0 := allOf env (kineticOf mass) st0
    |allOf env (kineticOf mass) st - E0| ≤ ((1 + 69 / 2 ^ 53) ^ n - 1) * E0 ∧
    (n ≤ 2 ^ 45 → |allOf env (kineticOf mass) st - E0| ≤ 138 * n / 2 ^ 53 * E0) ∧
    ∀ f : Vec → ℝ, f = Vec.x ∨ f = Vec.y ∨ f = Vec.z →
      |allOf env (fun x => f (massTimesVel mass x)) st - allOf env (fun x => f (massTimesVel mass x)) st0| ≤
        108 * n / 2 ^ 53 * Real.sqrt (M * ((1 + 69 / 2 ^ 53) ^ n * E0)) := by
  intro n E0
  have hk := gas_keeps R ar har hl hκ env hv hg
  have hb := gas_energy R ar har hl hκ env hv hg
  have h0 := kineticOf_nonneg (W := W) hg.mass_pos
  have hz : ∀ l : List (Event (Part W) ℝ), (l.map (Event.source fun _ _ _ => (0 : ℝ))).sum = 0 := by
    intro l
    induction l with
    | nil => rfl
    | cons e l ih => rw [List.map_cons, List.sum_cons, ih]; simp [Event.source]
  have h1 := C99_drift R (by norm_num) env hin hv hk hnn fi fs st0 st hwf hfit hlog hom hrun h0 (by norm_num) hb
  simp only [abs_zero, hz, add_zero] at h1
  have hE0 : 0 ≤ E0 := (allOf_nonneg env h0 st0).1
  refine ⟨h1, fun hn => h1.trans (mul_le_mul_of_nonneg_right ?_ hE0), fun f hf => ?_⟩
  · have hn' : (n : ℝ) ≤ 2 ^ 45 := by exact_mod_cast hn
    have := pow_small (x := 69 / 2 ^ 53) (by norm_num) n (by linarith)
    linarith
  · have h2 := C99_drift_signed R (by norm_num) env hin hv hk hnn fi fs st0 st hwf hfit hlog hom hrun h0 (by norm_num)
      (by positivity) hb (gas_momentum R ar har hl hκ env hv hg f hf hM)
    simp only [abs_zero, hz, add_zero] at h2
    refine h2.trans (le_of_eq ?_)
    rw [Real.sqrt_mul ((hg.mass_pos 0).le.trans (hM 0))]
    ring

end

/-! ## A case -/

/-- Four particles of mass 2 in a cell of volume 1, elastic collisions. -/
noncomputable def elasticEnv (R : Rounding 53) : DriverEnv (Part Unit) Bool ℝ where
  nSpecies := 1
  rhs := fun _ _ => [⟨fun _ => 1, fun _ => 1, fun a b s =>
    match elasticCollideR R.arith twoPointRNG (reducedMassR R.rd 2 2) a.vel b.vel s with
    | some (v, w, s') => ({ a with vel := v }, { b with vel := w }, [], s')
    | none => (a, b, [], s)⟩]
  maxRelVel := fun _ _ => 1
  volume := 1
  dt := 2
  weight := fun _ => 1
  species := fun x => x.species.toNat
  relSpeed := fun a b => (a.vel - b.vel).abs
  inplace := true
  rng := twoPointRNG

/-- Four particles with different velocities. -/
noncomputable def elasticCell : DState (Part Unit) Bool ℝ :=
  ⟨fun i => ⟨0, ⟨i, 1, 0⟩, 0, ()⟩, fun _ => (0, 4), [], [], [], false⟩

theorem elastic_gas (R : Rounding 53) : ElasticGas R.arith (elasticEnv R) fun _ => 2 := by
  refine ⟨fun _ => rfl, fun _ => by norm_num, fun A B e he a b s v w s' h => ?_⟩
  simp only [elasticEnv, List.mem_singleton] at he h
  subst he
  have h' : elasticCollideR R.arith twoPointRNG (reducedMassR R.rd 2 2) a.vel b.vel s = some (v, w, s') := h
  simp only [h']

theorem elastic_wf (R : Rounding 53) : WFRanges (elasticEnv R).nSpecies elasticCell.range :=
  ⟨fun _ _ => by simp [elasticCell], fun A hA B hB hAB => by simp [elasticEnv] at hA hB; omega⟩

/-- The run ends, and its energy is 18 with a relative error of at most 138/2⁵³ per collision. -/
example (R : Rounding 53) : ∃ fi fs st, driverR R.rd (elasticEnv R) fi fs elasticCell = .ok st ∧
    (interactionCount st.log ≤ 2 ^ 45 →
      |allOf (elasticEnv R) (kineticOf fun _ => 2) st - 18| ≤ 138 * interactionCount st.log / 2 ^ 53 * 18) := by
  have hfin : ∃ fi fs st, driverR R.rd (elasticEnv R) fi fs elasticCell = .ok st := by
    refine C96_driver_finishes R (by norm_num) (elasticEnv R) twoPointRNG_valid ?_ elasticCell (elastic_wf R)
      (fun _ _ => by simp [elasticCell]) (fun _ => by simp [elasticEnv]) (by simp [elasticEnv]) (by simp [elasticEnv])
      (by simp [elasticEnv]) (by simp [elasticCell]) ?_
    · intro s
      have := twoPointRNG_draw s
      cases s
      · exact ⟨⟨0, by simp [elasticEnv, this.1]⟩, ⟨1, by simp [elasticEnv, this.2]⟩⟩
      · exact ⟨⟨1, by simp [elasticEnv, this.2]⟩, ⟨0, by simp [elasticEnv, this.1]⟩⟩
    · intro A B hAB hB _
      have hB' : B = 0 := by simp [elasticEnv] at hB; exact hB
      have hA' : A = 0 := by omega
      subst hA' hB'
      have hest : cellEstimate (elasticEnv R) elasticCell 0 0 = 16 := by
        simp only [cellEstimate, ntcEstimate, elasticEnv, elasticCell]
        norm_num
      rw [hest]
      have h : unitError 53 ≤ 1 / 1024 := by unfold unitError; norm_num
      have h0 := unitError_pos (p := 53)
      have hl : estimateHigh 53 ((elasticEnv R).rhs 0 0).length ≤ 2 := by
        unfold estimateHigh
        simp only [elasticEnv, List.length_singleton]
        have h1 : (1 + unitError 53) ^ (1 + 6) ≤ (1 + 1 / 1024 : ℝ) ^ (1 + 6) :=
          pow_le_pow_left₀ (by linarith) (by linarith) _
        rw [div_le_iff₀ (by linarith)]
        norm_num at h1 ⊢
        linarith
      have : estimateHigh 53 ((elasticEnv R).rhs 0 0).length * 16 ≤ 2 * 16 :=
        mul_le_mul_of_nonneg_right hl (by positivity)
      norm_num at this ⊢
      linarith
  obtain ⟨fi, fs, st, h⟩ := hfin
  refine ⟨fi, fs, st, h, fun hn => ?_⟩
  have hE : allOf (elasticEnv R) (kineticOf fun _ => 2) elasticCell = 18 := by
    have hlive : liveM elasticCell.mem (elasticCell.range 0) =
        {elasticCell.mem 3, elasticCell.mem 2, elasticCell.mem 1, elasticCell.mem 0} := by
      simp [liveM, elasticCell, Multiset.insert_eq_cons]
    simp only [allOf, cellTotal, elasticEnv, Finset.sum_range_one, hlive]
    simp [kineticOf, ke, Vec.normSq, elasticCell]
    norm_num
  have := (C99_elastic_run R R.arith rfl R.arith_lib (by rw [unitError]; norm_num) (elasticEnv R) twoPointRNG_valid
    (elastic_gas R) rfl (by intro A B q hq v; simp [elasticEnv] at hq; subst hq; norm_num) fi fs elasticCell st
    (elastic_wf R) (fun _ _ => by simp [elasticCell]) rfl (fun C hC i _ _ => by
      simp [elasticEnv] at hC; subst hC; rfl) h (M := 2) (fun _ => le_rfl)).2.1 hn
  rwa [hE] at this

end Chimp
