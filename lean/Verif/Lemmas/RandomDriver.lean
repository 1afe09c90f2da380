import Verif.Lemmas.Random
import Verif.Props.OutPath

/-!
# The out-of-place driver as a random program
-/

namespace Chimp

open MeasureTheory
open scoped ENNReal

variable {P S : Type} [MeasurableSpace S] {μ : Measure S} [IsProbabilityMeasure μ]

theorem measurableSet_pick (lo n p : ℕ) : MeasurableSet {u : ℝ | pickPos lo n u = p} := by
  have : Measurable (fun u : ℝ => pickPos lo n u) := by
    unfold pickPos
    exact (measurable_from_top (f := fun z : ℤ => lo + z.toNat)).comp
      (Int.measurable_floor.comp (measurable_const.mul measurable_id))
  exact this (measurableSet_singleton p)

/-! ### Selecting the pair -/

/-- `selectB` returns `q`. -/
def SelB (rng : RNG S ℝ) (lo sz pA : ℕ) : S → ℕ → S → Prop :=
  fun s q s' => ∃ f, selectB rng lo sz pA f s = some (q, s')

/-- One draw of a position. -/
def Draw (rng : RNG S ℝ) (lo sz : ℕ) : S → ℕ → S → Prop :=
  fun s p s' => pickPos lo sz (rng.randExc s).1 = p ∧ (rng.randExc s).2 = s'

theorem prog_draw {rng : RNG S ℝ} (h : rng.IID μ) (lo sz : ℕ) : Prog μ (Draw rng lo sz) :=
  (prog_of_draw rng.randExc h.exc_meas h.exc_law (pickPos lo sz) (measurableSet_pick lo sz)).1

theorem law_draw {rng : RNG S ℝ} (h : rng.IID μ) (lo sz p : ℕ) :
    law μ (Draw rng lo sz) p = unif {u | pickPos lo sz u = p} :=
  (prog_of_draw rng.randExc h.exc_meas h.exc_law (pickPos lo sz) (measurableSet_pick lo sz)).2 p

/-- `k` draws of `pA`, then `q ≠ pA`. -/
def SelBk (rng : RNG S ℝ) (lo sz pA q : ℕ) (E : Set S) : ℕ → Set S
  | 0 => {s | ∃ s', Draw rng lo sz s q s' ∧ s' ∈ E}
  | k + 1 => {s | ∃ s', Draw rng lo sz s pA s' ∧ s' ∈ SelBk rng lo sz pA q E k}

theorem selBk_measure {rng : RNG S ℝ} (h : rng.IID μ) (lo sz pA q : ℕ) (E : Set S)
    (hE : MeasurableSet E) : ∀ k, MeasurableSet (SelBk rng lo sz pA q E k) ∧
      μ (SelBk rng lo sz pA q E k) =
        unif {u | pickPos lo sz u = pA} ^ k * (unif {u | pickPos lo sz u = q} * μ E) := by
  have hD := prog_draw h lo sz
  intro k
  induction k with
  | zero =>
    refine ⟨hD.meas q E hE, ?_⟩
    rw [SelBk, hD.indep q E hE, law_draw h, pow_zero, one_mul]
  | succ k ih =>
    refine ⟨hD.meas pA _ ih.1, ?_⟩
    rw [SelBk, hD.indep pA _ ih.1, law_draw h, ih.2, pow_succ, ← mul_assoc, mul_comm (unif _) (_ ^ k)]

omit [MeasurableSpace S] in
theorem selB_iff (rng : RNG S ℝ) (lo sz pA q : ℕ) (E : Set S) (s : S) :
    (∃ s', SelB rng lo sz pA s q s' ∧ s' ∈ E) ↔ q ≠ pA ∧ ∃ k, s ∈ SelBk rng lo sz pA q E k := by
  constructor
  · rintro ⟨s', ⟨f, hf⟩, hE⟩
    induction f generalizing s with
    | zero => simp [selectB] at hf
    | succ f ih =>
      rw [selectB] at hf
      simp only at hf
      by_cases hc : pA = pickPos lo sz (rng.randExc s).1
      · rw [if_pos hc] at hf
        obtain ⟨h1, k, hk⟩ := ih _ hf
        exact ⟨h1, k + 1, _, ⟨hc.symm, rfl⟩, hk⟩
      · rw [if_neg hc] at hf
        simp only [Option.some.injEq, Prod.mk.injEq] at hf
        exact ⟨fun h => hc (by rw [hf.1, h]), 0, s', ⟨hf.1, hf.2⟩, hE⟩
  · rintro ⟨hne, k, hk⟩
    induction k generalizing s with
    | zero =>
      obtain ⟨s', ⟨h1, h2⟩, h3⟩ := hk
      refine ⟨s', ⟨1, ?_⟩, h3⟩
      rw [selectB]
      simp only
      rw [if_neg (by rw [h1]; exact fun h => hne h.symm), h1, h2]
    | succ k ih =>
      obtain ⟨s1, ⟨h1, h2⟩, h3⟩ := hk
      obtain ⟨s', ⟨f, hf⟩, hE⟩ := ih s1 h3
      refine ⟨s', ⟨f + 1, ?_⟩, hE⟩
      rw [selectB]
      simp only
      rw [if_pos h1.symm, h2]
      exact hf

omit [MeasurableSpace S] in
theorem selBk_disjoint (rng : RNG S ℝ) (lo sz pA q : ℕ) (hne : q ≠ pA) (E : Set S) :
    ∀ k k' s, s ∈ SelBk rng lo sz pA q E k → s ∈ SelBk rng lo sz pA q E k' → k = k' := by
  intro k
  induction k with
  | zero =>
    intro k' s h h'
    cases k' with
    | zero => rfl
    | succ k' =>
      obtain ⟨_, ⟨h1, _⟩, _⟩ := h
      obtain ⟨_, ⟨h2, _⟩, _⟩ := h'
      exact absurd (h1.symm.trans h2) hne
  | succ k ih =>
    intro k' s h h'
    cases k' with
    | zero =>
      obtain ⟨_, ⟨h1, _⟩, _⟩ := h
      obtain ⟨_, ⟨h2, _⟩, _⟩ := h'
      exact absurd (h2.symm.trans h1) hne
    | succ k' =>
      obtain ⟨s1, ⟨_, h1⟩, h3⟩ := h
      obtain ⟨s2, ⟨_, h2⟩, h4⟩ := h'
      rw [← h1] at h3; rw [← h2] at h4
      rw [ih k' _ h3 h4]

theorem selB_measure {rng : RNG S ℝ} (h : rng.IID μ) (lo sz pA q : ℕ) (E : Set S)
    (hE : MeasurableSet E) : MeasurableSet {s | ∃ s', SelB rng lo sz pA s q s' ∧ s' ∈ E} ∧
      μ {s | ∃ s', SelB rng lo sz pA s q s' ∧ s' ∈ E} =
        if q = pA then 0 else
          (1 - unif {u | pickPos lo sz u = pA})⁻¹ * unif {u | pickPos lo sz u = q} * μ E := by
  simp only [selB_iff]
  by_cases hq : q = pA
  · simp [hq]
  have hset : {s | q ≠ pA ∧ ∃ k, s ∈ SelBk rng lo sz pA q E k} = ⋃ k, SelBk rng lo sz pA q E k := by
    ext s; simp [hq]
  have hm := fun k => (selBk_measure h lo sz pA q E hE k).1
  rw [hset]
  refine ⟨MeasurableSet.iUnion hm, ?_⟩
  rw [if_neg hq, measure_iUnion ?_ hm]
  · simp only [fun k => (selBk_measure h lo sz pA q E hE k).2]
    rw [ENNReal.tsum_mul_right, ENNReal.tsum_geometric, mul_assoc]
  · intro k k' hkk
    exact Set.disjoint_left.2 fun s h1 h2 => hkk (selBk_disjoint rng lo sz pA q hq E k k' s h1 h2)

theorem law_selB {rng : RNG S ℝ} (h : rng.IID μ) (lo sz pA q : ℕ) :
    law μ (SelB rng lo sz pA) q = if q = pA then 0 else
      (1 - unif {u | pickPos lo sz u = pA})⁻¹ * unif {u | pickPos lo sz u = q} := by
  have := (selB_measure h lo sz pA q Set.univ MeasurableSet.univ).2
  simpa [law] using this

theorem sum_pick (lo sz : ℕ) : ∑' q, unif {u | pickPos lo sz u = q} = 1 := by
  rw [← measure_iUnion (fun a b hab => Set.disjoint_left.2 (by rintro u rfl h2; exact hab h2))
    (measurableSet_pick lo sz)]
  have : (⋃ a, {u : ℝ | pickPos lo sz u = a}) = Set.univ := by ext u; simp
  rw [this, measure_univ]

theorem prog0_selB {rng : RNG S ℝ} (h : rng.IID μ) (lo sz pA : ℕ) : Prog0 μ (SelB rng lo sz pA) := by
  refine ⟨?_, ?_, ?_⟩
  · rintro s a s' b s'' ⟨f, hf⟩ ⟨f', hf'⟩
    have h1 := selectB_mono rng lo sz pA f (max f f') s _ (le_max_left _ _) hf
    have h2 := selectB_mono rng lo sz pA f' (max f f') s _ (le_max_right _ _) hf'
    rw [h1] at h2
    simpa using h2
  · exact fun q E hE => (selB_measure h lo sz pA q E hE).1
  · intro q E hE
    rw [(selB_measure h lo sz pA q E hE).2, law_selB h]
    split <;> simp

/-- The loop finishes almost surely unless the range is the single element `pA`. -/
theorem total_selB {rng : RNG S ℝ} (h : rng.IID μ) (lo sz pA : ℕ)
    (hr : unif {u | pickPos lo sz u = pA} ≠ 1) : ∑' q, law μ (SelB rng lo sz pA) q = 1 := by
  simp only [law_selB h]
  have hle : unif {u | pickPos lo sz u = pA} ≤ 1 := prob_le_one
  have hsum := sum_pick lo sz
  rw [ENNReal.tsum_eq_add_tsum_ite pA] at hsum
  have hrest : (∑' q, if q = pA then 0 else unif {u | pickPos lo sz u = q}) =
      1 - unif {u | pickPos lo sz u = pA} := by
    rw [← hsum, ENNReal.add_sub_cancel_left (by finiteness)]
    exact tsum_congr fun q => by congr
  have : ∀ q, (if q = pA then 0 else (1 - unif {u | pickPos lo sz u = pA})⁻¹ *
      unif {u | pickPos lo sz u = q}) = (1 - unif {u | pickPos lo sz u = pA})⁻¹ *
        (if q = pA then 0 else unif {u | pickPos lo sz u = q}) := by
    intro q; split <;> simp
  simp only [this]
  rw [ENNReal.tsum_mul_left, hrest]
  refine ENNReal.inv_mul_cancel ?_ (by finiteness)
  rw [Ne, tsub_eq_zero_iff_le]
  exact fun hc => hr (le_antisymm hle hc)

theorem unif_pick_out (lo n p : ℕ) (hn : 0 < n) (hp : ¬ (lo ≤ p ∧ p < lo + n)) :
    unif {u | pickPos lo n u = p} = 0 := by
  rw [unif, Measure.restrict_apply' measurableSet_Ico]
  have : {u : ℝ | pickPos lo n u = p} ∩ Set.Ico 0 1 = ∅ := by
    ext u
    simp only [Set.mem_inter_iff, Set.mem_ofPred_eq, Set.mem_Ico, Set.mem_empty_iff_false, iff_false]
    rintro ⟨h, h0, h1⟩
    have := pickPos_range lo n u h0 h1 hn
    omega
  rw [this, measure_empty]

theorem unif_pick_in (lo n p : ℕ) (hp : lo ≤ p ∧ p < lo + n) :
    unif {u | pickPos lo n u = p} = ENNReal.ofReal (1 / n) := by
  obtain ⟨k, rfl⟩ := Nat.exists_eq_add_of_le hp.1
  exact C36_single_pick lo n k (by omega)

/-- `selectRandomPair` returns a pair. -/
def Sel (rng : RNG S ℝ) (a b : ℕ × ℕ) : S → ℕ × ℕ → S → Prop :=
  fun s x s' => ∃ f, selectRandomPair rng false f a b s = some (x.1, x.2, s')

omit [MeasurableSpace S] in
theorem sel_eq (rng : RNG S ℝ) (a b : ℕ × ℕ) :
    Sel rng a b = Seq (Draw rng a.1 (rsize a)) (fun p => Seq (SelB rng b.1 (rsize b) p)
      (fun q => Pure (p, q))) := by
  funext s x s'
  simp only [Sel, Seq, Draw, SelB, Pure, eq_iff_iff]
  constructor
  · rintro ⟨f, hf⟩
    simp only [selectRandomPair, Bool.false_eq_true, if_false] at hf
    cases hb : selectB rng b.1 (rsize b) (pickPos a.1 (rsize a) (rng.randExc s).1) f
        (rng.randExc s).2 with
    | none => rw [hb] at hf; cases hf
    | some r =>
      rw [hb] at hf
      simp only [Option.some.injEq, Prod.mk.injEq] at hf
      obtain ⟨h1, h2, h3⟩ := hf
      exact ⟨_, _, ⟨rfl, rfl⟩, r.1, s', ⟨f, by rw [hb, ← h3]⟩,
        by ext <;> simp [h1, h2], rfl⟩
  · rintro ⟨p, s1, ⟨h1, h2⟩, q, s2, ⟨f, hf⟩, rfl, rfl⟩
    refine ⟨f, ?_⟩
    simp only [selectRandomPair, Bool.false_eq_true, if_false]
    rw [h1, h2, hf]

/-- Two nonempty ranges from which two different particles can be drawn after any first pick. -/
def Pickable (a b : ℕ × ℕ) : Prop :=
  0 < rsize a ∧ 0 < rsize b ∧ (2 ≤ rsize b ∨ ∀ z, ¬ ((a.1 ≤ z ∧ z < a.2) ∧ (b.1 ≤ z ∧ z < b.2)))

theorem unif_pick_ne_one (lo n p : ℕ) (hn : 2 ≤ n) : unif {u | pickPos lo n u = p} ≠ 1 := by
  by_cases hp : lo ≤ p ∧ p < lo + n
  · rw [unif_pick_in lo n p hp, Ne, ENNReal.ofReal_eq_one]
    have : (2 : ℝ) ≤ n := by exact_mod_cast hn
    intro h
    rw [div_eq_one_iff_eq (by linarith)] at h
    linarith
  · rw [unif_pick_out lo n p (by omega) hp]; simp

theorem prog_sel {rng : RNG S ℝ} (h : rng.IID μ) (a b : ℕ × ℕ) (hab : Pickable a b) :
    Prog μ (Sel rng a b) := by
  rw [sel_eq]
  have h0 : ∀ p, Prog0 μ (Seq (SelB rng b.1 (rsize b) p) (fun q => (Pure (p, q) : S → ℕ × ℕ → S → Prop))) :=
    fun p => prog0_seq (prog0_selB h _ _ _) (fun q => (prog_pure (p, q)).toProg0)
  refine prog_seq' (prog_draw h _ _) h0 fun p => ?_
  obtain ⟨ha, hb, hor⟩ := hab
  rw [law_draw h]
  by_cases hp : a.1 ≤ p ∧ p < a.1 + rsize a
  · right
    have hr : unif {u | pickPos b.1 (rsize b) u = p} ≠ 1 := by
      rcases hor with h2 | hd
      · exact unif_pick_ne_one _ _ _ h2
      · rw [unif_pick_out _ _ _ hb]
        · simp
        · intro hq
          unfold rsize at *
          exact hd p ⟨⟨hp.1, by omega⟩, ⟨hq.1, by omega⟩⟩
    exact (prog_seq ⟨prog0_selB h _ _ p, total_selB h _ _ p hr⟩ (fun q => prog_pure (p, q))).total
  · left
    exact unif_pick_out _ _ _ ha hp

theorem law_sel {rng : RNG S ℝ} (h : rng.IID μ) (a b : ℕ × ℕ) (p q : ℕ) :
    law μ (Sel rng a b) (p, q) = unif {u | pickPos a.1 (rsize a) u = p} * (if q = p then 0 else
      (1 - unif {u | pickPos b.1 (rsize b) u = p})⁻¹ * unif {u | pickPos b.1 (rsize b) u = q}) := by
  rw [sel_eq]
  have h0 : ∀ p, Prog0 μ (Seq (SelB rng b.1 (rsize b) p) (fun q => (Pure (p, q) : S → ℕ × ℕ → S → Prop))) :=
    fun p => prog0_seq (prog0_selB h _ _ _) (fun q => (prog_pure (p, q)).toProg0)
  rw [← mean_indicator, mean_seq (prog_draw h _ _).toProg0 h0]
  simp only [fun p => mean_seq (prog0_selB h b.1 (rsize b) p) (fun q => (prog_pure (S := S) (μ := μ) (p, q)).toProg0),
    mean_pure]
  unfold mean
  rw [tsum_eq_single p (fun p' hp' => by simp [hp'])]
  beta_reduce
  rw [tsum_eq_single q (fun q' hq' => by simp [hq'])]
  simp only [if_true, mul_one]
  rw [law_draw h, law_selB h]

/-- Two species: every pair has probability `1 / (m n)`. -/
theorem law_sel_disjoint {rng : RNG S ℝ} (h : rng.IID μ) (a b : ℕ × ℕ)
    (hd : ∀ z, ¬ ((a.1 ≤ z ∧ z < a.2) ∧ (b.1 ≤ z ∧ z < b.2))) (p q : ℕ)
    (hp : a.1 ≤ p ∧ p < a.2) (hq : b.1 ≤ q ∧ q < b.2) :
    law μ (Sel rng a b) (p, q) = ENNReal.ofReal (1 / (rsize a * rsize b)) := by
  have hb : 0 < rsize b := by unfold rsize; omega
  rw [law_sel h, unif_pick_in _ _ p (by unfold rsize; omega), unif_pick_in _ _ q (by unfold rsize; omega),
    unif_pick_out _ _ p hb (fun hc => hd p ⟨hp, hc.1, by unfold rsize at hc; omega⟩),
    if_neg (by rintro rfl; exact hd q ⟨hp, hq⟩), tsub_zero, inv_one, one_mul,
    ← ENNReal.ofReal_mul (by positivity)]
  congr 1
  rw [one_div_mul_one_div]

/-- One species: every ordered pair has probability `1 / (n (n-1))`. -/
theorem law_sel_same {rng : RNG S ℝ} (h : rng.IID μ) (a : ℕ × ℕ) (p q : ℕ)
    (hp : a.1 ≤ p ∧ p < a.2) (hq : a.1 ≤ q ∧ q < a.2) (hpq : p ≠ q) :
    law μ (Sel rng a a) (p, q) = ENNReal.ofReal (1 / (rsize a * (rsize a - 1))) := by
  have h2 : 2 ≤ rsize a := by unfold rsize; omega
  have h2' : (2 : ℝ) ≤ rsize a := by exact_mod_cast h2
  rw [law_sel h, unif_pick_in _ _ p (by unfold rsize; omega), unif_pick_in _ _ q (by unfold rsize; omega),
    if_neg (fun h => hpq h.symm), ← ENNReal.ofReal_one, ← ENNReal.ofReal_sub _ (by positivity),
    ← ENNReal.ofReal_inv_of_pos (by
      rw [sub_pos, div_lt_one (by linarith)]; linarith),
    ← ENNReal.ofReal_mul (by
      rw [inv_nonneg, sub_nonneg, div_le_one (by linarith)]; linarith),
    ← ENNReal.ofReal_mul (by positivity)]
  congr 1
  have h3 : (rsize a : ℝ) - 1 ≠ 0 := by linarith
  have h4 : (rsize a : ℝ) ≠ 0 := by linarith
  have h5 : (1 : ℝ) - 1 / rsize a ≠ 0 := by
    intro hc; apply h3; field_simp at hc; linarith
  field_simp

/-! ### The interaction -/

/-- Outcome of `Set::interact`: the index of the chosen equation. -/
def Inter (env : DriverEnv P S ℝ) (rhs : List (Eqn P S ℝ)) (m : ℝ) (a b : P) : S → ℤ → S → Prop :=
  fun s j s' => (setInteract env rhs m a b s).1.first = j ∧ (setInteract env rhs m a b s).2.2.2.2 = s'

/-- Index chosen by the loop of `calculateOutPath`. -/
noncomputable def pickFirst (cs : List ℝ) (tot : ℝ) (j : ℕ) (r : ℝ) : ℤ :=
  match pickLoop r cs tot j with
  | some (j, _) => j
  | none => -1

theorem measurable_pickFirst (cs : List ℝ) : ∀ (tot : ℝ) (j : ℕ), Measurable (pickFirst cs tot j) := by
  induction cs with
  | nil => intro tot j; exact measurable_const
  | cons c cs ih =>
    intro tot j
    have : pickFirst (c :: cs) tot j =
        fun r => if tot + c > r then (j : ℤ) else pickFirst cs (tot + c) (j + 1) r := by
      funext r
      simp only [pickFirst, pickLoop]
      by_cases h : tot + c > r
      · simp [h]
      · simp [h]
    rw [this]
    refine Measurable.ite ?_ measurable_const (ih _ _)
    exact measurableSet_lt measurable_id measurable_const

/-- State after the chosen interaction. -/
def actState (env : DriverEnv P S ℝ) (rhs : List (Eqn P S ℝ)) (a b : P) (j : ℤ) (s : S) : S :=
  if j ≥ 0 then
    match rhs[j.toNat]? with
    | none => s
    | some e => if env.species a > env.species b then (e.act b a s).2.2.2 else (e.act a b s).2.2.2
  else s

/-- Every interaction leaves the generator distributed as before. -/
def ActsPreserve (rhs : List (Eqn P S ℝ)) (μ : Measure S) : Prop :=
  ∀ e ∈ rhs, ∀ a b, MeasurePreserving (fun s => (e.act a b s).2.2.2) μ μ

omit [IsProbabilityMeasure μ] in
theorem actState_preserving (env : DriverEnv P S ℝ) (rhs : List (Eqn P S ℝ)) (h : ActsPreserve rhs μ)
    (a b : P) (j : ℤ) : MeasurePreserving (actState env rhs a b j) μ μ := by
  unfold actState
  by_cases hj : j ≥ 0
  · simp only [hj, if_true]
    cases he : rhs[j.toNat]? with
    | none => exact MeasurePreserving.id μ
    | some e =>
      have hm := List.mem_of_getElem? he
      by_cases hs : env.species a > env.species b
      · simpa only [hs, if_true] using h e hm b a
      · simpa only [hs, if_false] using h e hm a b
  · simp only [hj, if_false]
    exact MeasurePreserving.id μ

omit [MeasurableSpace S] in
theorem inter_eq (env : DriverEnv P S ℝ) (rhs : List (Eqn P S ℝ)) (m : ℝ) (a b : P) :
    Inter env rhs m a b = Seq
      (fun s (r : Bool) s' => decide ((env.rng.rand s).1 * m >
        csTotal (rhs.map (fun e => e.sigma (env.relSpeed a b))) * env.relSpeed a b) = r ∧
        (env.rng.rand s).2 = s')
      (fun r => if r then Pure (-1) else Seq
        (fun s (j : ℤ) s' => pickFirst (rhs.map (fun e => e.sigma (env.relSpeed a b))) 0 0
          ((env.rng.randExc s).1 * csTotal (rhs.map (fun e => e.sigma (env.relSpeed a b)))) = j ∧
          (env.rng.randExc s).2 = s')
        (fun j s j' s' => j' = j ∧ s' = actState env rhs a b j s)) := by
  funext s j s'
  simp only [Inter, eq_iff_iff]
  set cs := rhs.map (fun e => e.sigma (env.relSpeed a b)) with hcs
  by_cases hrej : (env.rng.rand s).1 * m > csTotal cs * env.relSpeed a b
  · have h1 : setInteract env rhs m a b s = (⟨-1, 0, false⟩, a, b, [], (env.rng.rand s).2) := by
      simp only [setInteract, performPath, calculateOutPath, ← hcs, hrej, if_true]
      simp
    rw [h1]
    constructor
    · rintro ⟨h2, h3⟩
      exact ⟨true, _, ⟨by simpa using hrej, rfl⟩, by simpa [Pure] using ⟨h2.symm, h3.symm⟩⟩
    · rintro ⟨r, s1, ⟨h2, h3⟩, h4⟩
      have : r = true := by rw [← h2]; simpa using hrej
      subst this
      simp only [if_true, Pure] at h4
      exact ⟨h4.1.symm, by rw [h4.2, ← h3]⟩
  · have h1 : (setInteract env rhs m a b s).1.first =
        pickFirst cs 0 0 ((env.rng.randExc (env.rng.rand s).2).1 * csTotal cs) ∧
        (setInteract env rhs m a b s).2.2.2.2 = actState env rhs a b
          (pickFirst cs 0 0 ((env.rng.randExc (env.rng.rand s).2).1 * csTotal cs))
          (env.rng.randExc (env.rng.rand s).2).2 := by
      simp only [setInteract, performPath, calculateOutPath, ← hcs, hrej, if_false, pickFirst]
      cases hp : pickLoop ((env.rng.randExc (env.rng.rand s).2).1 * csTotal cs) cs 0 0 with
      | none => simp [actState]
      | some x =>
        obtain ⟨k, c⟩ := x
        simp only [actState, ge_iff_le, Int.natCast_nonneg, if_true, Int.toNat_natCast]
        cases rhs[k]? with
        | none => simp
        | some e => by_cases hsp : env.species a > env.species b <;> simp [hsp]
    rw [h1.1, h1.2]
    constructor
    · rintro ⟨h2, h3⟩
      refine ⟨false, _, ⟨by simpa using hrej, rfl⟩, ?_⟩
      simp only [Bool.false_eq_true, if_false]
      exact ⟨_, _, ⟨rfl, rfl⟩, h2.symm, h3.symm⟩
    · rintro ⟨r, s1, ⟨h2, h3⟩, h4⟩
      have : r = false := by rw [← h2]; simpa using hrej
      subst this
      simp only [Bool.false_eq_true, if_false] at h4
      obtain ⟨j', s2, ⟨h5, h6⟩, h7, h8⟩ := h4
      rw [h3, h5, h6]
      exact ⟨h7.symm, h8.symm⟩

theorem prog_inter (env : DriverEnv P S ℝ) (h : env.rng.IID μ) (rhs : List (Eqn P S ℝ))
    (hact : ActsPreserve rhs μ) (m : ℝ) (a b : P) : Prog μ (Inter env rhs m a b) := by
  rw [inter_eq]
  refine prog_seq ?_ ?_
  · refine (prog_of_draw env.rng.rand h.rand_meas h.rand_law
      (fun u => decide (u * m > csTotal (rhs.map (fun e => e.sigma (env.relSpeed a b))) *
        env.relSpeed a b)) ?_).1
    have hm : MeasurableSet {u : ℝ | u * m > csTotal (rhs.map (fun e => e.sigma (env.relSpeed a b))) *
        env.relSpeed a b} := measurableSet_lt measurable_const (measurable_id.mul_const m)
    intro r
    cases r with
    | true => simpa using hm
    | false =>
      have := hm.compl
      simpa [Set.compl_def] using this
  · intro r
    cases r with
    | true => exact prog_pure _
    | false =>
      refine prog_seq ?_ (fun j => prog_state _ (actState_preserving env rhs hact a b j) j)
      refine (prog_of_draw env.rng.randExc h.exc_meas h.exc_law
        (fun w => pickFirst (rhs.map (fun e => e.sigma (env.relSpeed a b))) 0 0
          (w * csTotal (rhs.map (fun e => e.sigma (env.relSpeed a b))))) ?_).1
      intro j
      exact ((measurable_pickFirst _ 0 0).comp (measurable_id.mul_const _)) (measurableSet_singleton j)

theorem first_eq (cs : List ℝ) (m v u w : ℝ) : (calculateOutPath cs m v u w).first =
    if u * m > csTotal cs * v then -1 else pickFirst cs 0 0 (w * csTotal cs) := by
  unfold calculateOutPath pickFirst
  by_cases h : u * m > csTotal cs * v
  · simp [h]
  · simp only [h, if_false]
    cases pickLoop (w * csTotal cs) cs 0 0 <;> rfl

omit [MeasurableSpace S] in
theorem setInteract_first (env : DriverEnv P S ℝ) (rhs : List (Eqn P S ℝ)) (m : ℝ) (a b : P) (s : S) :
    (setInteract env rhs m a b s).1 = calculateOutPath
      (rhs.map (fun e => e.sigma (env.relSpeed a b))) m (env.relSpeed a b) (env.rng.rand s).1
      (env.rng.randExc (env.rng.rand s).2).1 := by
  simp only [setInteract, performPath_fst]

theorem unif_eq_Icc : unif = (volume : Measure ℝ).restrict (Set.Icc 0 1) := by
  unfold unif
  exact Measure.restrict_congr_set Ico_ae_eq_Icc

/-- The two numbers drawn by an interaction are independent and uniform. -/
theorem two_draws {rng : RNG S ℝ} (h : rng.IID μ) :
    μ.map (fun s => ((rng.rand s).1, (rng.randExc (rng.rand s).2).1)) = unif.prod unif := by
  have h2 : μ.map (fun s => (rng.randExc s).1) = unif := by
    have : (fun s => (rng.randExc s).1) = Prod.fst ∘ rng.randExc := rfl
    rw [this, ← Measure.map_map measurable_fst h.exc_meas, h.exc_law]
    simp
  have hf : (fun s => ((rng.rand s).1, (rng.randExc (rng.rand s).2).1)) =
      Prod.map id (fun s => (rng.randExc s).1) ∘ rng.rand := rfl
  have hm : Measurable (fun s => (rng.randExc s).1) := measurable_fst.comp h.exc_meas
  rw [hf, ← Measure.map_map (measurable_id.prodMap hm) h.rand_meas,
    h.rand_law, ← Measure.map_prod_map _ _ measurable_id hm, Measure.map_id, h2]

/-- Probability that a pair performs equation `j`. -/
theorem law_inter (env : DriverEnv P S ℝ) (h : env.rng.IID μ) (rhs : List (Eqn P S ℝ)) (m : ℝ) (a b : P)
    (hnn : ∀ e ∈ rhs, 0 ≤ e.sigma (env.relSpeed a b)) (hv : 0 ≤ env.relSpeed a b) (hm : 0 < m)
    (hb : (rhs.map (fun e => e.sigma (env.relSpeed a b))).sum * env.relSpeed a b ≤ m)
    (j : ℕ) (e : Eqn P S ℝ) (he : rhs[j]? = some e) :
    law μ (Inter env rhs m a b) j =
      ENNReal.ofReal (e.sigma (env.relSpeed a b) * env.relSpeed a b / m) := by
  set v := env.relSpeed a b with hvdef
  set cs := rhs.map (fun e => e.sigma v) with hcs
  have hnn' : ∀ c ∈ cs, 0 ≤ c := by
    intro c hc
    rw [hcs, List.mem_map] at hc
    obtain ⟨e', he', rfl⟩ := hc
    exact hnn e' he'
  have hcj : cs[j]? = some (e.sigma v) := by rw [hcs, List.getElem?_map, he]; rfl
  have hT : MeasurableSet {x : ℝ × ℝ | (calculateOutPath cs m v x.1 x.2).first = (j : ℤ)} := by
    have : Measurable (fun x : ℝ × ℝ => (calculateOutPath cs m v x.1 x.2).first) := by
      simp only [first_eq]
      refine Measurable.ite ?_ measurable_const ?_
      · exact measurableSet_lt measurable_const (measurable_fst.mul_const m)
      · exact (measurable_pickFirst cs 0 0).comp (measurable_snd.mul_const _)
    exact this (measurableSet_singleton _)
  have hset : {s | ∃ s', Inter env rhs m a b s j s'} =
      (fun s => ((env.rng.rand s).1, (env.rng.randExc (env.rng.rand s).2).1)) ⁻¹'
        {x : ℝ × ℝ | (calculateOutPath cs m v x.1 x.2).first = (j : ℤ)} := by
    ext s
    simp only [Inter, setInteract_first, Set.mem_ofPred_eq, Set.mem_preimage, ← hvdef, ← hcs]
    constructor
    · rintro ⟨_, h1, _⟩; exact h1
    · intro h1; exact ⟨_, h1, rfl⟩
  have hmeas : Measurable (fun s => ((env.rng.rand s).1, (env.rng.randExc (env.rng.rand s).2).1)) :=
    (measurable_fst.comp h.rand_meas).prodMk
      (measurable_fst.comp (h.exc_meas.comp (measurable_snd.comp h.rand_meas)))
  rw [law, hset, ← Measure.map_apply hmeas hT, two_draws h]
  have hprod : unif.prod unif = (volume : Measure (ℝ × ℝ)).restrict (Set.Icc 0 1 ×ˢ Set.Ico 0 1) := by
    rw [show unif.prod unif = ((volume : Measure ℝ).restrict (Set.Icc 0 1)).prod
      ((volume : Measure ℝ).restrict (Set.Ico 0 1)) by rw [← unif_eq_Icc]; rfl, Measure.prod_restrict]
    rfl
  rw [hprod, Measure.restrict_apply hT]
  have htot : totalSigma cs = cs.sum := rfl
  by_cases hpos : 0 < totalSigma cs
  · rw [← C32_joint_measure cs hnn' hpos m v hv hm (by rw [htot]; exact hb) j _ hcj]
    congr 1
    ext x
    simp only [Set.mem_inter_iff, Set.mem_ofPred_eq, Set.mem_prod]
    tauto
  · have h0 : totalSigma cs = 0 :=
      le_antisymm (not_lt.1 hpos) (by rw [htot]; exact List.sum_nonneg hnn')
    have hc0 : e.sigma v = 0 := by
      refine le_antisymm ?_ (hnn e (List.mem_of_getElem? he))
      rw [← h0, htot]
      exact List.single_le_sum hnn' _ (List.mem_of_getElem? hcj)
    have hempty : {x : ℝ × ℝ | (calculateOutPath cs m v x.1 x.2).first = (j : ℤ)} ∩
        Set.Icc 0 1 ×ˢ Set.Ico 0 1 = ∅ := by
      ext x
      simp only [Set.mem_inter_iff, Set.mem_ofPred_eq, Set.mem_prod, Set.mem_empty_iff_false, iff_false]
      rintro ⟨h1, _, h2⟩
      obtain ⟨_, c, hc, h3, h4⟩ := (C31_selected_iff cs hnn' m v x.1 x.2 h2.1 j).1 h1
      rw [hcj] at hc
      cases hc
      rw [hc0] at h4
      linarith
    rw [hempty, measure_empty, hc0]
    simp

/-! ### Pair tests -/

/-- What is observed of a pair test: the two positions and the index of the chosen equation. -/
abbrev TestObs := ℕ × ℕ × ℤ

/-- One iteration of the `while` loop, out of place. -/
def Test (env : DriverEnv P S ℝ) (mem : ℕ → P) (range : ℕ → ℕ × ℕ) (A B : ℕ) (m : ℝ) :
    S → TestObs → S → Prop :=
  Seq (Sel env.rng (range A) (range B)) (fun x =>
    Seq (Inter env (env.rhs A B) m (mem x.1) (mem x.2)) (fun j => Pure (x.1, x.2, j)))

/-- `n` iterations. -/
def Tests (env : DriverEnv P S ℝ) (mem : ℕ → P) (range : ℕ → ℕ × ℕ) (A B : ℕ) (m : ℝ) :
    ℕ → S → List TestObs → S → Prop
  | 0 => Pure []
  | n + 1 => Seq (Test env mem range A B m) (fun x => Seq (Tests env mem range A B m n)
      (fun l => Pure (x :: l)))

theorem prog_test (env : DriverEnv P S ℝ) (h : env.rng.IID μ) (mem : ℕ → P) (range : ℕ → ℕ × ℕ)
    (A B : ℕ) (m : ℝ) (hact : ActsPreserve (env.rhs A B) μ) (hp : Pickable (range A) (range B)) :
    Prog μ (Test env mem range A B m) :=
  prog_seq (prog_sel h _ _ hp) fun _ => prog_seq (prog_inter env h _ hact m _ _) fun _ => prog_pure _

theorem prog_tests (env : DriverEnv P S ℝ) (h : env.rng.IID μ) (mem : ℕ → P) (range : ℕ → ℕ × ℕ)
    (A B : ℕ) (m : ℝ) (hact : ActsPreserve (env.rhs A B) μ) (hp : Pickable (range A) (range B)) :
    ∀ n, Prog μ (Tests env mem range A B m n) := by
  intro n
  induction n with
  | zero => exact prog_pure _
  | succ n ih => exact prog_seq (prog_test env h mem range A B m hact hp) fun _ => prog_seq ih fun _ => prog_pure _

theorem law_test (env : DriverEnv P S ℝ) (h : env.rng.IID μ) (mem : ℕ → P) (range : ℕ → ℕ × ℕ)
    (A B : ℕ) (m : ℝ) (hact : ActsPreserve (env.rhs A B) μ) (hp : Pickable (range A) (range B))
    (p q : ℕ) (j : ℤ) : law μ (Test env mem range A B m) (p, q, j) =
      law μ (Sel env.rng (range A) (range B)) (p, q) *
        law μ (Inter env (env.rhs A B) m (mem p) (mem q)) j := by
  have hI := fun a b => prog_inter env h _ hact m a b
  rw [← mean_indicator, Test, mean_seq (prog_sel h _ _ hp).toProg0
    (fun x => (prog_seq (hI _ _) fun _ => prog_pure _).toProg0)]
  simp only [fun x : ℕ × ℕ => mean_seq (hI (mem x.1) (mem x.2)).toProg0
    (fun j => (prog_pure (S := S) (μ := μ) (x.1, x.2, j)).toProg0), mean_pure]
  unfold mean
  rw [tsum_eq_single (p, q)]
  · beta_reduce
    rw [tsum_eq_single j (fun j' hj' => by simp [hj'])]
    simp
  · rintro ⟨p', q'⟩ hne
    simp only [ne_eq, Prod.mk.injEq] at hne
    have : ∀ j', ¬ (p' = p ∧ q' = q ∧ j' = j) := fun j' hc => hne ⟨hc.1, hc.2.1⟩
    simp [this]

theorem mean_tests (env : DriverEnv P S ℝ) (h : env.rng.IID μ) (mem : ℕ → P) (range : ℕ → ℕ × ℕ)
    (A B : ℕ) (m : ℝ) (hact : ActsPreserve (env.rhs A B) μ) (hp : Pickable (range A) (range B))
    (x : TestObs) : ∀ n, mean μ (Tests env mem range A B m n) (fun l => (l.count x : ℝ≥0∞)) =
      n * law μ (Test env mem range A B m) x := by
  have hT := prog_test env h mem range A B m hact hp
  have hTs := prog_tests env h mem range A B m hact hp
  intro n
  induction n with
  | zero => rw [Tests, mean_pure]; simp
  | succ n ih =>
    rw [Tests, mean_seq hT.toProg0 (fun _ => (prog_seq (hTs n) fun _ => prog_pure _).toProg0)]
    simp only [fun y => mean_seq (hTs n).toProg0
      (fun l => (prog_pure (S := S) (μ := μ) (y :: l)).toProg0), mean_pure]
    have : ∀ (y : TestObs) (l : List TestObs), (((y :: l).count x : ℕ) : ℝ≥0∞) =
        (l.count x : ℝ≥0∞) + (if y = x then 1 else 0) := by
      intro y l
      rw [List.count_cons]
      push_cast
      by_cases hy : y = x <;> simp [hy]
    simp only [this, mean_add, ih, (hTs n).mean_const, hT.mean_const, mean_indicator]
    push_cast
    ring

/-- What is observed of an event of the log. -/
abbrev EvObs := ℕ × ℕ × TestObs

/-- See `EvObs`. -/
def evObs (e : Event P ℝ) : EvObs := (e.A, e.B, e.p, e.q, e.path.first)

omit [MeasurableSpace S] in
/-- The `while` loop follows the random program. -/
theorem testLoop_sim (env : DriverEnv P S ℝ) (hout : env.inplace = false) (A B : ℕ) (m : ℝ) :
    ∀ (n : ℕ) (nt : ℝ) (st : DState P S ℝ) (l : List TestObs) (s' : S), loopCount nt = n →
      notEnough st A B = false → Tests env st.mem st.range A B m n st.gen l s' →
      ∃ fi fs st', testLoop env fs A B m fi nt st = .ok st' ∧ st'.mem = st.mem ∧
        st'.range = st.range ∧ st'.gen = s' ∧
        st'.log.map evObs = st.log.map evObs ++ l.map (fun x => (A, B, x)) := by
  intro n
  induction n with
  | zero =>
    intro nt st l s' hn hne h
    obtain ⟨rfl, rfl⟩ := h
    have hn1 : ¬ nt > 1 := fun hc => by rw [loopCount_succ hc] at hn; omega
    exact ⟨0, 0, st, by simp [testLoop, hn1], rfl, rfl, rfl, by simp⟩
  | succ n ih =>
    intro nt st l s' hn hne h
    obtain ⟨⟨p, q, j⟩, s1, ⟨⟨p', q'⟩, s2, ⟨f, hsel⟩, j', s3, ⟨hj, hs3⟩, hx, rfl⟩, l', s4, hl, rfl, rfl⟩ := h
    simp only [Prod.mk.injEq] at hx
    obtain ⟨rfl, rfl, rfl⟩ := hx
    have hn1 : nt > 1 := by
      by_contra hc
      rw [loopCount_of_le hc] at hn; omega
    have hn' : loopCount (nt - 1) = n := by rw [loopCount_succ hn1] at hn; omega
    have hf := pairTest_fields env A B m p q { st with gen := s2 }
    simp only at hf
    obtain ⟨-, hlog, hsame⟩ := hf
    obtain ⟨hmem, hrange, -⟩ := hsame hout
    have hgen : (pairTest env A B m p q { st with gen := s2 }).gen = s1 := by
      rw [← hs3]
      simp [pairTest, applyPair, driverRetval, hout]
    obtain ⟨fi, fs, st', h1, h2, h3, h4, h5⟩ := ih (nt - 1) (pairTest env A B m p q { st with gen := s2 })
      l' s' hn' (by simpa [notEnough, hrange] using hne) (by rw [hmem, hrange, hgen]; exact hl)
    refine ⟨fi + 1, max f fs, st', ?_, h2.trans hmem, h3.trans hrange, h4, ?_⟩
    · simp only [testLoop]
      rw [if_pos hn1, if_neg (by simp [hne]),
        selectRandomPair_mono env.rng false f (max f fs) _ _ _ _ (le_max_left _ _) hsel]
      exact testLoop_mono env fs _ A B m (le_max_right _ _) fi fi _ _ _ le_rfl h1
    · rw [h5, hlog]
      simp [evObs, hj]

/-! ### The whole run -/

/-- The bound used for a species pair. -/
noncomputable def boundOf (env : DriverEnv P S ℝ) (A B : ℕ) : ℝ :=
  findMaxSigmaVProduct ((env.rhs A B).map Eqn.maxSigmaV) (env.maxRelVel A B)

/-- The estimate for a species pair. -/
noncomputable def estimateOf (env : DriverEnv P S ℝ) (mem : ℕ → P) (range : ℕ → ℕ × ℕ) (A B : ℕ) : ℝ :=
  estimateTests (env.weight (mem (range A).1)) (env.weight (mem (range B).1))
    (rsize (range A)) (rsize (range B)) env.dt (boundOf env A B) env.volume (A == B)

/-- The draw that fixes the number of tests. -/
def DrawCount (env : DriverEnv P S ℝ) (mem : ℕ → P) (range : ℕ → ℕ × ℕ) (A B : ℕ) : S → ℕ → S → Prop :=
  fun s k s' => loopCount (promote (estimateOf env mem range A B) (env.rng.rand s).1) = k ∧
    (env.rng.rand s).2 = s'

/-- The first double loop. -/
def Est (env : DriverEnv P S ℝ) (mem : ℕ → P) (range : ℕ → ℕ × ℕ) :
    List (ℕ × ℕ) → S → List ((ℕ × ℕ) × ℕ) → S → Prop
  | [] => Pure []
  | ab :: ps => if env.rhs ab.1 ab.2 = [] then Est env mem range ps else
      Seq (DrawCount env mem range ab.1 ab.2) (fun k => Seq (Est env mem range ps)
        (fun ks => Pure ((ab, k) :: ks)))

open Classical in
/-- The second double loop. -/
def Coll (env : DriverEnv P S ℝ) (mem : ℕ → P) (range : ℕ → ℕ × ℕ) :
    List ((ℕ × ℕ) × ℕ) → S → List EvObs → S → Prop
  | [] => Pure []
  | d :: ks => if Pickable (range d.1.1) (range d.1.2) then
      Seq (Tests env mem range d.1.1 d.1.2 (boundOf env d.1.1 d.1.2) d.2) (fun l =>
        Seq (Coll env mem range ks) (fun l' => Pure (l.map (fun x => (d.1.1, d.1.2, x)) ++ l')))
      else Coll env mem range ks

/-- A driver run. -/
def Run (env : DriverEnv P S ℝ) (mem : ℕ → P) (range : ℕ → ℕ × ℕ) : S → List EvObs → S → Prop :=
  Seq (Est env mem range (speciesPairs env.nSpecies)) (Coll env mem range)

theorem measurable_count (N : ℝ) : Measurable (fun u : ℝ => loopCount (promote N u)) := by
  have : (fun u : ℝ => loopCount (promote N u)) =
      fun u => if u < N - ⌊N⌋ then loopCount (N + 1) else loopCount N := by
    funext u; unfold promote; split <;> rfl
  rw [this]
  exact Measurable.ite (measurableSet_lt measurable_id measurable_const) measurable_const measurable_const

theorem prog_drawCount (env : DriverEnv P S ℝ) (h : env.rng.IID μ) (mem : ℕ → P) (range : ℕ → ℕ × ℕ)
    (A B : ℕ) : Prog μ (DrawCount env mem range A B) :=
  (prog_of_draw env.rng.rand h.rand_meas h.rand_law
    (fun u => loopCount (promote (estimateOf env mem range A B) u))
    (fun k => measurable_count _ (measurableSet_singleton k))).1

theorem mean_drawCount (env : DriverEnv P S ℝ) (h : env.rng.IID μ) (mem : ℕ → P) (range : ℕ → ℕ × ℕ)
    (A B : ℕ) : mean μ (DrawCount env mem range A B) (fun k => (k : ℝ≥0∞)) =
      ∫⁻ u, (loopCount (promote (estimateOf env mem range A B) u) : ℝ≥0∞) ∂unif := by
  rw [← lintegral_prog (prog_drawCount env h mem range A B) _
    (fun s => (loopCount (promote (estimateOf env mem range A B) (env.rng.rand s).1) : ℝ≥0∞))
    (by rintro s k s' ⟨rfl, _⟩; rfl)]
  have hmap : μ.map (fun s => (env.rng.rand s).1) = unif := by
    have : (fun s => (env.rng.rand s).1) = Prod.fst ∘ env.rng.rand := rfl
    rw [this, ← Measure.map_map measurable_fst h.rand_meas, h.rand_law]
    simp
  have hm : Measurable (fun s => (env.rng.rand s).1) := measurable_fst.comp h.rand_meas
  rw [← hmap, lintegral_map ?_ hm]
  · exact measurable_from_top.comp (measurable_count _)

theorem prog_est (env : DriverEnv P S ℝ) (h : env.rng.IID μ) (mem : ℕ → P) (range : ℕ → ℕ × ℕ)
    (ps : List (ℕ × ℕ)) : Prog μ (Est env mem range ps) := by
  induction ps with
  | nil => exact prog_pure _
  | cons ab ps ih =>
    rw [Est]
    split
    · exact ih
    · exact prog_seq (prog_drawCount env h mem range _ _) fun _ => prog_seq ih fun _ => prog_pure _

theorem prog_coll (env : DriverEnv P S ℝ) (h : env.rng.IID μ) (mem : ℕ → P) (range : ℕ → ℕ × ℕ)
    (hact : ∀ A B, ActsPreserve (env.rhs A B) μ) (ks : List ((ℕ × ℕ) × ℕ)) :
    Prog μ (Coll env mem range ks) := by
  induction ks with
  | nil => exact prog_pure _
  | cons d ks ih =>
    rw [Coll]
    split
    · rename_i hp
      exact prog_seq (prog_tests env h mem range _ _ _ (hact _ _) hp _) fun _ =>
        prog_seq ih fun _ => prog_pure _
    · exact ih

theorem prog_run (env : DriverEnv P S ℝ) (h : env.rng.IID μ) (mem : ℕ → P) (range : ℕ → ℕ × ℕ)
    (hact : ∀ A B, ActsPreserve (env.rhs A B) μ) : Prog μ (Run env mem range) :=
  prog_seq (prog_est env h mem range _) fun ks => prog_coll env h mem range hact ks

theorem count_map_pair (A B A' B' : ℕ) (x : TestObs) (l : List TestObs) :
    ((l.map (fun y => (A', B', y))).count (A, B, x) : ℕ) = if (A', B') = (A, B) then l.count x else 0 := by
  induction l with
  | nil => simp
  | cons y l ih =>
    rw [List.map_cons, List.count_cons, ih, List.count_cons]
    by_cases hab : (A', B') = (A, B)
    · simp only [Prod.mk.injEq] at hab
      simp [hab.1, hab.2]
    · rw [if_neg hab, if_neg hab]
      simp only [Prod.mk.injEq, not_and] at hab
      simp only [beq_iff_eq, Prod.mk.injEq]
      rw [if_neg (fun hc => hab hc.1 hc.2.1)]

theorem mean_coll (env : DriverEnv P S ℝ) (h : env.rng.IID μ) (mem : ℕ → P) (range : ℕ → ℕ × ℕ)
    (hact : ∀ A B, ActsPreserve (env.rhs A B) μ) (A B : ℕ) (hp : Pickable (range A) (range B))
    (x : TestObs) (ks : List ((ℕ × ℕ) × ℕ)) :
    mean μ (Coll env mem range ks) (fun l => (l.count (A, B, x) : ℝ≥0∞)) =
      (ks.map (fun d => if d.1 = (A, B) then (d.2 : ℝ≥0∞) else 0)).sum *
        law μ (Test env mem range A B (boundOf env A B)) x := by
  induction ks with
  | nil => rw [Coll, mean_pure]; simp
  | cons d ks ih =>
    obtain ⟨⟨A', B'⟩, k⟩ := d
    rw [Coll]
    by_cases hp' : Pickable (range A') (range B')
    · rw [if_pos hp']
      have hT := prog_tests env h mem range A' B' (boundOf env A' B') (hact _ _) hp' k
      have hC := prog_coll env h mem range hact ks
      rw [mean_seq hT.toProg0 (fun _ => (prog_seq hC fun _ => prog_pure _).toProg0)]
      simp only [fun l : List TestObs => mean_seq hC.toProg0 (fun l' => (prog_pure (S := S) (μ := μ)
        (l.map (fun x => (A', B', x)) ++ l')).toProg0), mean_pure]
      simp only [List.count_append, count_map_pair, Nat.cast_add, mean_add, hC.mean_const, ih,
        hT.mean_const, List.map_cons, List.sum_cons, add_mul]
      congr 1
      by_cases hab : (A', B') = (A, B)
      · simp only [hab, if_true]
        simp only [Prod.mk.injEq] at hab
        obtain ⟨rfl, rfl⟩ := hab
        rw [mean_tests env h mem range A' B' _ (hact _ _) hp']
      · simp only [hab, if_false]
        simp [mean]
    · rw [if_neg hp', ih]
      have hab : ¬ (A', B') = (A, B) := by
        intro hc
        simp only [Prod.mk.injEq] at hc
        rw [hc.1, hc.2] at hp'
        exact hp' hp
      simp [hab]

theorem mean_est (env : DriverEnv P S ℝ) (h : env.rng.IID μ) (mem : ℕ → P) (range : ℕ → ℕ × ℕ)
    (A B : ℕ) (hne : env.rhs A B ≠ []) (ps : List (ℕ × ℕ)) :
    mean μ (Est env mem range ps) (fun ks =>
      (ks.map (fun d => if d.1 = (A, B) then (d.2 : ℝ≥0∞) else 0)).sum) =
      ps.count (A, B) * mean μ (DrawCount env mem range A B) (fun k => (k : ℝ≥0∞)) := by
  induction ps with
  | nil => rw [Est, mean_pure]; simp
  | cons ab ps ih =>
    obtain ⟨A', B'⟩ := ab
    rw [Est]
    by_cases h0 : env.rhs A' B' = []
    · rw [if_pos h0, ih]
      have hab : ¬ (A', B') = (A, B) := by
        intro hc
        simp only [Prod.mk.injEq] at hc
        rw [hc.1, hc.2] at h0
        exact hne h0
      rw [List.count_cons_of_ne hab]
    · rw [if_neg h0]
      have hD := prog_drawCount env h mem range A' B'
      have hE := prog_est env h mem range ps
      rw [mean_seq hD.toProg0 (fun _ => (prog_seq hE fun _ => prog_pure _).toProg0)]
      simp only [fun k : ℕ => mean_seq hE.toProg0 (fun ks => (prog_pure (S := S) (μ := μ)
        (((A', B'), k) :: ks)).toProg0), mean_pure]
      simp only [List.map_cons, List.sum_cons, mean_add, hE.mean_const, ih, hD.mean_const]
      by_cases hab : (A', B') = (A, B)
      · simp only [hab, if_true, List.count_cons_self]
        simp only [Prod.mk.injEq] at hab
        obtain ⟨rfl, rfl⟩ := hab
        push_cast
        ring
      · simp only [hab, if_false]
        rw [List.count_cons_of_ne hab]
        simp [mean]

theorem mean_run (env : DriverEnv P S ℝ) (h : env.rng.IID μ) (mem : ℕ → P) (range : ℕ → ℕ × ℕ)
    (hact : ∀ A B, ActsPreserve (env.rhs A B) μ) (A B : ℕ) (hAB : A ≤ B) (hB : B < env.nSpecies)
    (hne : env.rhs A B ≠ []) (hp : Pickable (range A) (range B)) (x : TestObs) :
    mean μ (Run env mem range) (fun l => (l.count (A, B, x) : ℝ≥0∞)) =
      (∫⁻ u, (loopCount (promote (estimateOf env mem range A B) u) : ℝ≥0∞) ∂unif) *
        law μ (Test env mem range A B (boundOf env A B)) x := by
  rw [Run, mean_seq (prog_est env h mem range _).toProg0
    (fun ks => (prog_coll env h mem range hact ks).toProg0)]
  simp only [mean_coll env h mem range hact A B hp x]
  rw [mean_mul_right, mean_est env h mem range A B hne, mean_drawCount env h,
    List.count_eq_one_of_mem (nodup_speciesPairs _) ((mem_speciesPairs _ _ _).2 ⟨hAB, hB⟩)]
  simp

/-! ### The driver follows the random program -/

omit [MeasurableSpace S] in
theorem estimateAll_sim (env : DriverEnv P S ℝ) (mem : ℕ → P) (range : ℕ → ℕ × ℕ) :
    ∀ (ps : List (ℕ × ℕ)) (st : DState P S ℝ) (ks : List ((ℕ × ℕ) × ℕ)) (s' : S), st.mem = mem →
      st.range = range →
      (∀ ab ∈ ps, env.rhs ab.1 ab.2 ≠ [] → rsize (range ab.1) ≠ 0 ∧ rsize (range ab.2) ≠ 0) →
      Est env mem range ps st.gen ks s' →
      ∃ ds, estimateAll env ps st = .ok (ds, { st with gen := s' }) ∧
        ks = ds.filterMap (fun d => d.2.map (fun td => (d.1, loopCount td.numberTests))) ∧
        (∀ d ∈ ds, d.1 ∈ ps ∧ ∀ td, d.2 = some td → td.maxSV = boundOf env d.1.1 d.1.2) := by
  intro ps
  induction ps with
  | nil =>
    intro st ks s' _ _ _ h
    obtain ⟨rfl, rfl⟩ := h
    exact ⟨[], rfl, rfl, by simp⟩
  | cons ab ps ih =>
    intro st ks s' hm hr hpop h
    obtain ⟨A, B⟩ := ab
    rw [Est] at h
    by_cases h0 : env.rhs A B = []
    · rw [if_pos h0] at h
      obtain ⟨ds, h1, h2, h3⟩ := ih st ks s' hm hr (fun ab hab => hpop ab (List.mem_cons_of_mem _ hab)) h
      refine ⟨((A, B), none) :: ds, ?_, by simpa using h2, ?_⟩
      · simp only [estimateAll, estimatePair, h0, List.length_nil, if_true, h1]
      · intro d hd
        rcases List.mem_cons.1 hd with rfl | hd
        · exact ⟨List.mem_cons_self, by intro td htd; cases htd⟩
        · exact ⟨List.mem_cons_of_mem _ (h3 d hd).1, (h3 d hd).2⟩
    · rw [if_neg h0] at h
      obtain ⟨k, s1, ⟨hk, hs1⟩, ks', s2, hks, rfl, rfl⟩ := h
      have hz := hpop (A, B) List.mem_cons_self h0
      obtain ⟨ds, h1, h2, h3⟩ := ih { st with gen := s1 } ks' s' hm hr
        (fun ab hab => hpop ab (List.mem_cons_of_mem _ hab)) hks
      refine ⟨((A, B), some ⟨promote (estimateOf env mem range A B) (env.rng.rand st.gen).1,
        boundOf env A B⟩) :: ds, ?_, ?_, ?_⟩
      · have hl : (env.rhs A B).length ≠ 0 := by simpa using h0
        subst hm; subst hr
        simp only [estimateAll, estimatePair, hl, if_false, hz.1, hz.2, or_self, hs1, h1]
        rfl
      · simp [h2, hk]
      · intro d hd
        rcases List.mem_cons.1 hd with rfl | hd
        · exact ⟨List.mem_cons_self, by intro td htd; cases htd; rfl⟩
        · exact ⟨List.mem_cons_of_mem _ (h3 d hd).1, (h3 d hd).2⟩

omit [MeasurableSpace S] in
theorem pickable_iff (n : ℕ) (st : DState P S ℝ) (hwf : WFRanges n st.range) (A B : ℕ) (hA : A < n)
    (hB : B < n) : Pickable (st.range A) (st.range B) ↔ notEnough st A B = false := by
  have hd := hwf.disj A hA B hB
  unfold Pickable notEnough
  by_cases hAB : A = B
  · subst hAB
    simp only [BEq.rfl, Bool.true_and, Bool.or_eq_false_iff, decide_eq_false_iff_not, not_lt,
      beq_eq_false_iff_ne]
    constructor
    · rintro ⟨h1, -, h2 | h2⟩
      · omega
      · exact absurd ⟨⟨le_rfl, by unfold rsize at h1; omega⟩, ⟨le_rfl, by unfold rsize at h1; omega⟩⟩
          (h2 (st.range A).1)
    · rintro ⟨h1, h2, -⟩
      exact ⟨by omega, by omega, .inl h1⟩
  · have : (A == B) = false := by simpa using hAB
    simp only [this, Bool.false_and, Bool.false_or, Bool.or_eq_false_iff, beq_eq_false_iff_ne]
    constructor
    · rintro ⟨h1, h2, -⟩; omega
    · rintro ⟨h1, h2⟩
      exact ⟨by omega, by omega, .inr (hd hAB)⟩

omit [MeasurableSpace S] in
theorem collideAll_sim (env : DriverEnv P S ℝ) (hout : env.inplace = false) (mem : ℕ → P)
    (range : ℕ → ℕ × ℕ) (hwf : WFRanges env.nSpecies range) :
    ∀ (ds : List ((ℕ × ℕ) × Option (TestData ℝ))) (st : DState P S ℝ) (l : List EvObs) (s' : S),
      st.mem = mem → st.range = range →
      (∀ d ∈ ds, (d.1.1 < env.nSpecies ∧ d.1.2 < env.nSpecies) ∧
        ∀ td, d.2 = some td → td.maxSV = boundOf env d.1.1 d.1.2) →
      Coll env mem range (ds.filterMap (fun d => d.2.map (fun td => (d.1, loopCount td.numberTests))))
        st.gen l s' →
      ∃ fi fs st', collideAll env fi fs ds st = .ok st' ∧
        st'.log.map evObs = st.log.map evObs ++ l := by
  intro ds
  induction ds with
  | nil =>
    intro st l s' _ _ _ h
    obtain ⟨rfl, rfl⟩ := h
    exact ⟨0, 0, st, rfl, by simp⟩
  | cons d ds ih =>
    intro st l s' hm hr hds h
    obtain ⟨⟨A, B⟩, o⟩ := d
    have hds' := fun d hd => hds d (List.mem_cons_of_mem _ hd)
    cases o with
    | none =>
      obtain ⟨fi, fs, st', h1, h2⟩ := ih st l s' hm hr hds' (by simpa using h)
      exact ⟨fi, fs, st', h1, h2⟩
    | some td =>
      obtain ⟨⟨hA, hB⟩, hmax⟩ := hds _ List.mem_cons_self
      simp only at hA hB
      have hmax := hmax td rfl
      simp only at hmax
      simp only [List.filterMap_cons, Option.map_some] at h
      rw [Coll] at h
      simp only at h
      have hpick := pickable_iff env.nSpecies st (by rw [hr]; exact hwf) A B hA hB
      rw [hr] at hpick
      by_cases hp : Pickable (range A) (range B)
      · rw [if_pos hp] at h
        obtain ⟨l1, s1, ht, l2, s2, hc, rfl, rfl⟩ := h
        obtain ⟨fi, fs, st1, h1, h2, h3, h4, h5⟩ := testLoop_sim env hout A B (boundOf env A B) _
          td.numberTests st l1 s1 rfl (hpick.1 hp) (by rw [hm, hr]; exact ht)
        obtain ⟨fi', fs', st', h6, h7⟩ := ih st1 l2 s' (h2.trans hm) (h3.trans hr) hds' (by rw [h4]; exact hc)
        refine ⟨max fi fi', max fs fs', st', ?_, ?_⟩
        · simp only [collideAll, hmax]
          rw [testLoop_mono env fs _ A B _ (le_max_left _ _) fi _ _ _ _ (le_max_left _ _) h1]
          exact collideAll_mono env fi' _ fs' _ (le_max_right _ _) (le_max_right _ _) _ _ _ h6
        · rw [h7, h5]; simp
      · rw [if_neg hp] at h
        have hne : notEnough st A B = true := by
          cases hb : notEnough st A B with
          | true => rfl
          | false => exact absurd (hpick.2 hb) hp
        obtain ⟨fi, fs, st', h1, h2⟩ := ih st l s' hm hr hds' h
        refine ⟨fi + 1, fs, st', ?_, h2⟩
        simp only [collideAll, testLoop]
        by_cases hn : td.numberTests > 1
        · rw [if_pos hn, if_pos hne]
          exact collideAll_mono env fi _ fs _ (Nat.le_succ _) le_rfl _ _ _ h1
        · rw [if_neg hn]
          exact collideAll_mono env fi _ fs _ (Nat.le_succ _) le_rfl _ _ _ h1

omit [MeasurableSpace S] in
theorem driver_sim (env : DriverEnv P S ℝ) (hout : env.inplace = false) (st : DState P S ℝ)
    (hwf : WFRanges env.nSpecies st.range)
    (hpop : ∀ A B, A ≤ B → B < env.nSpecies → env.rhs A B ≠ [] →
      (st.range A).1 < (st.range A).2 ∧ (st.range B).1 < (st.range B).2)
    (s s' : S) (l : List EvObs) (h : Run env st.mem st.range s l s') :
    ∃ fi fs st', driver env fi fs { st with gen := s } = .ok st' ∧
      st'.log.map evObs = st.log.map evObs ++ l := by
  obtain ⟨ks, s1, h1, h2⟩ := h
  obtain ⟨ds, h3, rfl, h4⟩ := estimateAll_sim env st.mem st.range (speciesPairs env.nSpecies)
    { st with gen := s } ks s1 rfl rfl (by
      rintro ⟨A, B⟩ hab hne
      have := (mem_speciesPairs _ _ _).1 hab
      have := hpop A B this.1 this.2 hne
      unfold rsize; simp only; omega) h1
  obtain ⟨fi, fs, st', h5, h6⟩ := collideAll_sim env hout st.mem st.range hwf ds { st with gen := s1 } l s'
    rfl rfl (by
      intro d hd
      have := (mem_speciesPairs _ d.1.1 d.1.2).1 (h4 d hd).1
      exact ⟨⟨by omega, this.2⟩, (h4 d hd).2⟩) h2
  refine ⟨fi, fs, st', ?_, h6⟩
  simp only [driver, h3]
  exact h5

end Chimp
