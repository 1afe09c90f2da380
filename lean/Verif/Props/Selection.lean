import Verif.Lemmas.DriverCount
import Mathlib.Probability.ProductMeasure
import Mathlib.MeasureTheory.Function.Floor
import Mathlib.MeasureTheory.Measure.Lebesgue.Basic
import Mathlib.Analysis.SpecificLimits.Basic
import Mathlib.Tactic.NormNum
import Mathlib.Tactic.FieldSimp
import Mathlib.Tactic.Ring

/-!
# Properties C35, C36: selecting a random pair
-/

namespace Chimp

section
variable {S K : Type} [Field K] [LinearOrder K] [FloorRing K] [IsStrictOrderedRing K]

/-! ## C35 -/

/-- **C35**  Whenever the selection returns, the first particle lies in the first range, the second in the
second range, and they are different. -/
theorem C35_pair_in_ranges_and_distinct (rng : RNG S K) (hv : rng.Valid) (fuel : ℕ) (a b : ℕ × ℕ)
    (ha : a.1 < a.2) (hb : b.1 < b.2) (s : S) (p q : ℕ) (s' : S)
    (h : selectRandomPair rng false fuel a b s = some (p, q, s')) :
    (a.1 ≤ p ∧ p < a.2) ∧ (b.1 ≤ q ∧ q < b.2) ∧ p ≠ q :=
  selectRandomPair_spec rng hv fuel a b (by unfold rsize; omega) (by unfold rsize; omega) s p q s' h

/-- **C35**  With self selection allowed, the selection always returns a pair from the two ranges. -/
theorem C35_self_allowed (rng : RNG S K) (hv : rng.Valid) (fuel : ℕ) (a b : ℕ × ℕ)
    (ha : a.1 < a.2) (hb : b.1 < b.2) (s : S) :
    ∃ p q s', selectRandomPair rng true fuel a b s = some (p, q, s') ∧
      (a.1 ≤ p ∧ p < a.2) ∧ (b.1 ≤ q ∧ q < b.2) := by
  refine ⟨_, _, _, rfl, ?_, ?_⟩
  · have h1 := hv.randExc_mem s
    have := pickPos_range a.1 (rsize a) _ h1.1 h1.2 (by unfold rsize; omega)
    refine ⟨this.1, lt_of_lt_of_le this.2 (by unfold rsize; omega)⟩
  · have h1 := hv.randExc_mem (rng.randExc s).2
    have := pickPos_range b.1 (rsize b) _ h1.1 h1.2 (by unfold rsize; omega)
    refine ⟨this.1, lt_of_lt_of_le this.2 (by unfold rsize; omega)⟩

/-- **C35**  On two references to the same single particle the selection never returns. -/
theorem C35_single_particle_never_returns (rng : RNG S K) (hv : rng.Valid) (lo fuel : ℕ) (s : S) :
    selectRandomPair rng false fuel (lo, lo + 1) (lo, lo + 1) s = none := by
  cases h : selectRandomPair rng false fuel (lo, lo + 1) (lo, lo + 1) s with
  | none => rfl
  | some r =>
    have := C35_pair_in_ranges_and_distinct rng hv fuel (lo, lo + 1) (lo, lo + 1) (by simp) (by simp) s
      r.1 r.2.1 r.2.2 h
    omega

/-- **C35**  On nonempty ranges that do not overlap the selection returns after two draws. -/
theorem C35_disjoint_ranges_return (rng : RNG S K) (hv : rng.Valid) (a b : ℕ × ℕ)
    (ha : a.1 < a.2) (hb : b.1 < b.2)
    (hd : ∀ z, ¬ ((a.1 ≤ z ∧ z < a.2) ∧ (b.1 ≤ z ∧ z < b.2))) (s : S) :
    ∃ r, selectRandomPair rng false 1 a b s = some r := by
  have h1 := hv.randExc_mem s
  have hA := pickPos_range a.1 (rsize a) _ h1.1 h1.2 (by unfold rsize; omega)
  have h2 := hv.randExc_mem (rng.randExc s).2
  have hB := pickPos_range b.1 (rsize b) _ h2.1 h2.2 (by unfold rsize; omega)
  have hne : pickPos a.1 (rsize a) (rng.randExc s).1 ≠
      pickPos b.1 (rsize b) (rng.randExc (rng.randExc s).2).1 := by
    intro hc
    refine hd (pickPos a.1 (rsize a) (rng.randExc s).1) ⟨⟨hA.1, ?_⟩, ⟨hc ▸ hB.1, hc ▸ ?_⟩⟩
    · exact lt_of_lt_of_le hA.2 (by unfold rsize; omega)
    · exact lt_of_lt_of_le hB.2 (by unfold rsize; omega)
  simp only [selectRandomPair, Bool.false_eq_true, if_false, selectB, if_neg hne]
  exact ⟨_, rfl⟩

/-- **C35**  On the same range with at least two particles there is, for each first pick, a draw in `[0,1)`
that ends the loop. -/
theorem C35_some_draw_ends_loop (lo n pA : ℕ) (hn : 2 ≤ n) :
    ∃ u : K, 0 ≤ u ∧ u < 1 ∧ pickPos lo n u ≠ pA := by
  have hnK : (0 : K) < n := by exact_mod_cast (by omega : 0 < n)
  by_cases h : pA = lo
  · refine ⟨1 / n, by positivity, ?_, ?_⟩
    · rw [div_lt_one hnK]; exact_mod_cast (by omega : 1 < n)
    · have : (n : K) * (1 / n) = 1 := by field_simp
      rw [pickPos, this, h]; simp
  · exact ⟨0, le_rfl, one_pos, by simp [pickPos]; exact fun hc => h hc.symm⟩

/-- **C35**  For nonempty ranges that are not the same single element there are two draws after which the
function returns. -/
theorem C35_can_return (a b : ℕ × ℕ) (ha : a.1 < a.2) (hb : b.1 < b.2) (hne : ¬ (a = b ∧ a.2 = a.1 + 1)) :
    ∃ u w : K, (0 ≤ u ∧ u < 1) ∧ (0 ≤ w ∧ w < 1) ∧ ∀ (rng : RNG S K) (s s1 s2 : S) (fuel : ℕ),
      rng.randExc s = (u, s1) → rng.randExc s1 = (w, s2) →
      ∃ p q, selectRandomPair rng false (fuel + 1) a b s = some (p, q, s2) := by
  obtain ⟨a1, a2⟩ := a
  obtain ⟨b1, b2⟩ := b
  simp only at ha hb hne
  have key : ∃ u w : K, (0 ≤ u ∧ u < 1) ∧ (0 ≤ w ∧ w < 1) ∧ pickPos a1 (a2 - a1) u ≠ pickPos b1 (b2 - b1) w := by
    rcases Nat.lt_or_ge (b2 - b1) 2 with h | h
    · rcases Nat.lt_or_ge (a2 - a1) 2 with h' | h'
      · refine ⟨0, 0, ⟨le_rfl, one_pos⟩, ⟨le_rfl, one_pos⟩, ?_⟩
        have : a1 ≠ b1 := fun he => hne ⟨by rw [Prod.mk.injEq]; omega, by omega⟩
        simpa [pickPos] using this
      · obtain ⟨u, h0, h1, hu⟩ := C35_some_draw_ends_loop (K := K) a1 (a2 - a1) (pickPos b1 (b2 - b1) (0 : K)) h'
        exact ⟨u, 0, ⟨h0, h1⟩, ⟨le_rfl, one_pos⟩, hu⟩
    · obtain ⟨w, h0, h1, hw⟩ := C35_some_draw_ends_loop (K := K) b1 (b2 - b1) (pickPos a1 (a2 - a1) (0 : K)) h
      exact ⟨0, w, ⟨le_rfl, one_pos⟩, ⟨h0, h1⟩, fun he => hw he.symm⟩
  obtain ⟨u, w, hu, hw, hne'⟩ := key
  refine ⟨u, w, hu, hw, fun rng s s1 s2 fuel h1 h2 => ?_⟩
  refine ⟨pickPos a1 (a2 - a1) u, pickPos b1 (b2 - b1) w, ?_⟩
  simp only [selectRandomPair, h1, selectB, h2, rsize, Bool.false_eq_true, if_false, hne']

/-- A generator alternating between 0 and 1/2. -/
private def altRNG : RNG ℕ ℚ where
  rand s := (if s % 2 = 0 then 0 else 1/2, s + 1)
  randExc s := (if s % 2 = 0 then 0 else 1/2, s + 1)

private theorem altRNG_valid : altRNG.Valid := by
  constructor <;> intro s <;> simp only [altRNG] <;> split <;> norm_num

/-- Two particles at positions 5 and 6: the alternating generator selects (5, 6). -/
example : altRNG.Valid ∧ selectRandomPair altRNG false 3 (5, 7) (5, 7) 0 = some (5, 6, 2) :=
  ⟨altRNG_valid, by decide +kernel⟩

end

/-! ## C36 -/

section
variable {K : Type} [Field K] [LinearOrder K] [FloorRing K] [IsStrictOrderedRing K]

/-- **C36**  The element at offset `k` of a range of `n` elements is picked exactly for the draws in the
`k`-th of `n` equal parts of the unit interval. -/
theorem C36_picked_iff (lo n k : ℕ) (hn : 0 < n) (u : K) (hu : 0 ≤ u) :
    pickPos lo n u = lo + k ↔ (k : K) / n ≤ u ∧ u < (k + 1) / n := by
  have hnK : (0 : K) < n := by exact_mod_cast hn
  have hf : 0 ≤ ⌊(n : K) * u⌋ := Int.floor_nonneg.2 (by positivity)
  have h1 : pickPos lo n u = lo + k ↔ ⌊(n : K) * u⌋ = (k : ℤ) := by
    unfold pickPos; omega
  rw [h1, Int.floor_eq_iff, div_le_iff₀ hnK, lt_div_iff₀ hnK, mul_comm u]
  push_cast
  rfl

end

open MeasureTheory

/-- Uniform distribution on `[0,1)`. -/
noncomputable def unif : Measure ℝ := volume.restrict (Set.Ico 0 1)

instance : IsProbabilityMeasure unif := ⟨by simp [unif]⟩

/-- **C36**  Each of the `n` elements of a range is picked with probability `1/n`. -/
theorem C36_single_pick (lo n k : ℕ) (hk : k < n) :
    unif {u | pickPos lo n u = lo + k} = ENNReal.ofReal (1 / n) := by
  have hn : 0 < n := by omega
  have hnK : (0 : ℝ) < n := by exact_mod_cast hn
  have hset : {u : ℝ | pickPos lo n u = lo + k} ∩ Set.Ico 0 1 =
      Set.Ico ((k : ℝ) / n) ((k + 1) / n) := by
    ext u
    simp only [Set.mem_inter_iff, Set.mem_ofPred_eq, Set.mem_Ico]
    constructor
    · rintro ⟨h, h0, _⟩; exact (C36_picked_iff lo n k hn u h0).1 h
    · rintro ⟨h1, h2⟩
      have h0 : 0 ≤ u := le_trans (by positivity) h1
      refine ⟨(C36_picked_iff lo n k hn u h0).2 ⟨h1, h2⟩, h0, lt_of_lt_of_le h2 ?_⟩
      rw [div_le_one hnK]; exact_mod_cast hk
  rw [unif, Measure.restrict_apply' measurableSet_Ico, hset, Real.volume_Ico]
  congr 1
  field_simp
  ring

/-- A generator reading a given stream of numbers. -/
def streamRNG : RNG (ℕ → ℝ) ℝ where
  rand s := (s 0, fun j => s (j + 1))
  randExc s := (s 0, fun j => s (j + 1))

private theorem streamRNG_excDraw (s : ℕ → ℝ) (j : ℕ) : streamRNG.excDraw s j = s j := by
  have : ∀ (j : ℕ) (s : ℕ → ℝ), (fun s => (streamRNG.randExc s).2)^[j] s = fun i => s (i + j) := by
    intro j
    induction j with
    | zero => intro s; rfl
    | succ j ih => intro s; rw [Function.iterate_succ_apply, ih]; rfl
  rw [RNG.excDraw, this]; simp [streamRNG]

/-- Independent uniform draws. -/
noncomputable def iidUnif : Measure (ℕ → ℝ) := Measure.infinitePi (fun _ => unif)

private theorem selectB_returns_iff {S K : Type} [Field K] [LinearOrder K] [FloorRing K]
    (rng : RNG S K) (lo sz pA q : ℕ) (s : S) :
    (∃ f s', selectB rng lo sz pA f s = some (q, s')) ↔
      ∃ k, (∀ t < k, pickPos lo sz (rng.excDraw s t) = pA) ∧
        pickPos lo sz (rng.excDraw s k) = q ∧ q ≠ pA := by
  constructor
  · rintro ⟨f, s', h⟩
    induction f generalizing s with
    | zero => simp [selectB] at h
    | succ f ih =>
      rw [selectB] at h
      simp only at h
      by_cases hc : pA = pickPos lo sz (rng.randExc s).1
      · rw [if_pos hc] at h
        obtain ⟨k, h1, h2, h3⟩ := ih _ h
        refine ⟨k + 1, ?_, ?_, h3⟩
        · intro t ht
          cases t with
          | zero => simpa only [RNG.excDraw, Function.iterate_zero, id] using hc.symm
          | succ t => simpa only [RNG.excDraw, Function.iterate_succ, Function.comp] using h1 t (by omega)
        · simpa only [RNG.excDraw, Function.iterate_succ, Function.comp] using h2
      · rw [if_neg hc] at h
        simp only [Option.some.injEq, Prod.mk.injEq] at h
        refine ⟨0, by simp, ?_, ?_⟩
        · simpa only [RNG.excDraw, Function.iterate_zero, id] using h.1
        · rw [← h.1]; exact fun h => hc h.symm
  · rintro ⟨k, h1, h2, h3⟩
    induction k generalizing s with
    | zero =>
      refine ⟨1, (rng.randExc s).2, ?_⟩
      simp only [RNG.excDraw, Function.iterate_zero, id] at h2
      rw [selectB]
      simp only
      rw [if_neg (by rw [h2]; exact fun h => h3 h.symm), h2]
    | succ k ih =>
      have h0 := h1 0 (by omega)
      simp only [RNG.excDraw, Function.iterate_zero, id] at h0
      obtain ⟨f, s', h⟩ := ih (rng.randExc s).2
        (by intro t ht
            simpa only [RNG.excDraw, Function.iterate_succ, Function.comp] using h1 (t + 1) (by omega))
        (by simpa only [RNG.excDraw, Function.iterate_succ, Function.comp] using h2)
      refine ⟨f + 1, s', ?_⟩
      rw [selectB]
      simp only
      rw [if_pos h0.symm]
      exact h

/-- The selection returns the pair `(p, q)` on the stream `s` (after however many draws). -/
def Selects (a b : ℕ × ℕ) (s : ℕ → ℝ) (p q : ℕ) : Prop :=
  ∃ fuel s', selectRandomPair streamRNG false fuel a b s = some (p, q, s')

private theorem selects_iff (a b : ℕ × ℕ) (s : ℕ → ℝ) (p q : ℕ) :
    Selects a b s p q ↔ pickPos a.1 (rsize a) (s 0) = p ∧
      ∃ k, (∀ t < k, pickPos b.1 (rsize b) (s (t + 1)) = p) ∧
        pickPos b.1 (rsize b) (s (k + 1)) = q ∧ q ≠ p := by
  have h := selectB_returns_iff streamRNG b.1 (rsize b) p q (fun j => s (j + 1))
  simp only [streamRNG_excDraw] at h
  rw [← h]
  unfold Selects selectRandomPair
  simp only [Bool.false_eq_true, if_false]
  have e1 : (streamRNG.randExc s).1 = s 0 := rfl
  have e2 : (streamRNG.randExc s).2 = fun j => s (j + 1) := rfl
  constructor
  · rintro ⟨f, s', hs⟩
    cases hb : selectB streamRNG b.1 (rsize b) (pickPos a.1 (rsize a) (streamRNG.randExc s).1) f
        (streamRNG.randExc s).2 with
    | none => rw [hb] at hs; cases hs
    | some r =>
      rw [hb] at hs
      simp only [Option.some.injEq, Prod.mk.injEq] at hs
      rw [e1] at hb hs
      refine ⟨hs.1, f, r.2, ?_⟩
      rw [hs.1, e2] at hb
      rw [hb, ← hs.2.1]
  · rintro ⟨hp, f, s', hs⟩
    refine ⟨f, s', ?_⟩
    rw [e1, e2, hp, hs]

private theorem measurable_pick (lo n p : ℕ) : MeasurableSet {u : ℝ | pickPos lo n u = p} := by
  have : Measurable (fun u : ℝ => pickPos lo n u) := by
    unfold pickPos
    exact (measurable_from_top (f := fun z : ℤ => lo + z.toNat)).comp
      (Int.measurable_floor.comp (measurable_const.mul measurable_id))
  exact this (measurableSet_singleton p)

/-- Box event of the first `k` draws of the loop being equal to the first pick. -/
private theorem box_measure (lo n i j k : ℕ) (hi : i < n) (hj : j < n) :
    iidUnif {s | pickPos lo n (s 0) = lo + i ∧ (∀ t < k, pickPos lo n (s (t + 1)) = lo + i) ∧
      pickPos lo n (s (k + 1)) = lo + j} = ENNReal.ofReal ((1 / n) ^ (k + 2)) := by
  have hset : {s : ℕ → ℝ | pickPos lo n (s 0) = lo + i ∧
      (∀ t < k, pickPos lo n (s (t + 1)) = lo + i) ∧ pickPos lo n (s (k + 1)) = lo + j} =
      Set.pi (Finset.range (k + 2)) (fun t => {u | pickPos lo n u = lo + if t = k + 1 then j else i}) := by
    ext s
    simp only [Set.mem_ofPred_eq, Set.mem_pi, Finset.coe_range, Set.mem_Iio]
    constructor
    · rintro ⟨h0, h1, h2⟩ t ht
      by_cases hk : t = k + 1
      · subst hk; simpa using h2
      · rw [if_neg hk]
        cases t with
        | zero => exact h0
        | succ t => exact h1 t (by omega)
    · intro h
      refine ⟨by simpa using h 0 (by omega), ?_, by simpa using h (k + 1) (by omega)⟩
      intro t ht
      have := h (t + 1) (by omega)
      rw [if_neg (by omega)] at this
      exact this
  rw [hset, iidUnif, Measure.infinitePi_pi _ (fun t _ => measurable_pick _ _ _)]
  have : ∀ t ∈ Finset.range (k + 2),
      unif {u | pickPos lo n u = lo + if t = k + 1 then j else i} = ENNReal.ofReal (1 / n) := by
    intro t _
    refine C36_single_pick lo n _ ?_
    split <;> assumption
  rw [Finset.prod_congr rfl this, Finset.prod_const, Finset.card_range, ENNReal.ofReal_pow (by positivity)]

/-- **C36**  Selecting from one species with `n ≥ 2` particles using independent uniform draws, every
ordered pair of different particles is selected with probability `1 / (n (n-1))`. -/
theorem C36_same_species_uniform (lo n i j : ℕ) (hi : i < n) (hj : j < n) (hij : i ≠ j) :
    iidUnif {s | Selects (lo, lo + n) (lo, lo + n) s (lo + i) (lo + j)} =
      ENNReal.ofReal (1 / (n * (n - 1))) := by
  have hn : 2 ≤ n := by omega
  have hnK : (2 : ℝ) ≤ n := by exact_mod_cast hn
  have hset : {s | Selects (lo, lo + n) (lo, lo + n) s (lo + i) (lo + j)} =
      ⋃ k, {s : ℕ → ℝ | pickPos lo n (s 0) = lo + i ∧
        (∀ t < k, pickPos lo n (s (t + 1)) = lo + i) ∧ pickPos lo n (s (k + 1)) = lo + j} := by
    ext s
    simp only [Set.mem_ofPred_eq, Set.mem_iUnion, selects_iff, rsize]
    simp only [add_tsub_cancel_left]
    constructor
    · rintro ⟨h0, k, h1, h2, -⟩; exact ⟨k, h0, h1, h2⟩
    · rintro ⟨k, h0, h1, h2⟩; exact ⟨h0, k, h1, h2, by omega⟩
  rw [hset, measure_iUnion]
  · rw [tsum_congr (fun k => box_measure lo n i j k hi hj)]
    have hr : (1 / n : ℝ) < 1 := by rw [div_lt_one (by linarith)]; linarith
    have hs : Summable (fun k => (1 / n : ℝ) ^ (k + 2)) := by
      have := summable_geometric_of_lt_one (r := (1 / n : ℝ)) (by positivity) hr
      exact (summable_nat_add_iff 2).2 this
    rw [← ENNReal.ofReal_tsum_of_nonneg (fun k => by positivity) hs]
    congr 1
    have : (fun k => (1 / n : ℝ) ^ (k + 2)) = fun k => (1 / n : ℝ) ^ 2 * (1 / n : ℝ) ^ k := by
      funext k; ring
    rw [this, tsum_mul_left, tsum_geometric_of_lt_one (by positivity) hr]
    have h1 : (n : ℝ) ≠ 0 := by linarith
    have h2 : (n : ℝ) - 1 ≠ 0 := by linarith
    have h3 : (1 : ℝ) - 1 / n ≠ 0 := by
      intro hc; apply h2; field_simp at hc; linarith
    field_simp
  · intro k k' hkk
    rw [Function.onFun, Set.disjoint_left]
    rintro s ⟨_, h1, h2⟩ ⟨_, h1', h2'⟩
    rcases lt_or_gt_of_ne hkk with h | h
    · have := h1' k h; omega
    · have := h1 k' h; omega
  · intro k
    have e : {s : ℕ → ℝ | pickPos lo n (s 0) = lo + i ∧
        (∀ t < k, pickPos lo n (s (t + 1)) = lo + i) ∧ pickPos lo n (s (k + 1)) = lo + j} =
        (fun s : ℕ → ℝ => s 0) ⁻¹' {u | pickPos lo n u = lo + i} ∩
        ((⋂ t, ⋂ (_ : t < k), (fun s : ℕ → ℝ => s (t + 1)) ⁻¹' {u | pickPos lo n u = lo + i}) ∩
        (fun s : ℕ → ℝ => s (k + 1)) ⁻¹' {u | pickPos lo n u = lo + j}) := by
      ext s; simp
    rw [e]
    refine ((measurable_pick _ _ _).preimage (measurable_pi_apply 0)).inter
      (MeasurableSet.inter ?_ ((measurable_pick _ _ _).preimage (measurable_pi_apply (k + 1))))
    exact MeasurableSet.iInter fun t => MeasurableSet.iInter fun _ =>
      (measurable_pick _ _ _).preimage (measurable_pi_apply (t + 1))

/-- **C36**  Selecting from two different species, every pair is selected with probability `1 / (m n)`. -/
theorem C36_two_species_uniform (lo m lo' n i j : ℕ) (hi : i < m) (hj : j < n)
    (hd : lo + m ≤ lo' ∨ lo' + n ≤ lo) :
    iidUnif {s | Selects (lo, lo + m) (lo', lo' + n) s (lo + i) (lo' + j)} =
      ENNReal.ofReal (1 / (m * n)) := by
  have hn : 0 < n := by omega
  set box : Set (ℕ → ℝ) := Set.pi (Finset.range 2)
    (fun t => if t = 0 then {u | pickPos lo m u = lo + i} else {u | pickPos lo' n u = lo' + j}) with hbox
  have hmem : ∀ s : ℕ → ℝ, s ∈ box ↔ pickPos lo m (s 0) = lo + i ∧ pickPos lo' n (s 1) = lo' + j := by
    intro s
    simp only [hbox, Set.mem_pi, Finset.coe_range, Set.mem_Iio]
    constructor
    · intro h; exact ⟨by simpa using h 0 (by omega), by simpa using h 1 (by omega)⟩
    · rintro ⟨h0, h1⟩ t ht
      have : t = 0 ∨ t = 1 := by omega
      rcases this with rfl | rfl
      · simpa using h0
      · simpa using h1
  -- all draws are in `[0,1)` almost surely, so the loop body runs once
  have hae : ∀ᵐ s ∂iidUnif, ∀ t, 0 ≤ s t ∧ s t < 1 := by
    rw [ae_all_iff]
    intro t
    have h1 : ∀ᵐ u ∂unif, 0 ≤ u ∧ u < 1 := by
      unfold unif
      filter_upwards [ae_restrict_mem measurableSet_Ico] with u hu using hu
    exact (measurePreserving_eval_infinitePi (fun _ : ℕ => unif) t).quasiMeasurePreserving.ae h1
  have hmeas : iidUnif {s | Selects (lo, lo + m) (lo', lo' + n) s (lo + i) (lo' + j)} = iidUnif box := by
    apply measure_congr
    filter_upwards [hae] with s hs
    apply propext
    change Selects _ _ s _ _ ↔ s ∈ box
    rw [hmem, selects_iff]
    simp only [rsize, add_tsub_cancel_left]
    constructor
    · rintro ⟨h0, k, h1, h2, -⟩
      refine ⟨h0, ?_⟩
      cases k with
      | zero => exact h2
      | succ k =>
        have h3 := h1 0 (by omega)
        have h4 := pickPos_range lo' n (s 1) (hs 1).1 (hs 1).2 hn
        rw [h3] at h4
        omega
    · rintro ⟨h0, h1⟩
      exact ⟨h0, 0, by simp, h1, by omega⟩
  rw [hmeas, hbox, iidUnif, Measure.infinitePi_pi _ (by
    intro t _; split
    · exact measurable_pick _ _ _
    · exact measurable_pick _ _ _)]
  rw [Finset.prod_range_succ, Finset.prod_range_one, if_pos rfl, if_neg (by norm_num),
    C36_single_pick _ _ _ hi, C36_single_pick _ _ _ hj, ← ENNReal.ofReal_mul (by positivity)]
  congr 1
  rw [one_div_mul_one_div]

/-- Three particles: the pair (first, third) has probability 1/6. -/
example : iidUnif {s | Selects (4, 7) (4, 7) s 4 6} = ENNReal.ofReal (1 / 6) := by
  have := C36_same_species_uniform 4 3 0 2 (by norm_num) (by norm_num) (by norm_num)
  norm_num at this ⊢
  exact this

end Chimp
