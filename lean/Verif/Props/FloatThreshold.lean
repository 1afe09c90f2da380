import Verif.Lemmas.FloatKin
import Verif.Props.FloatSelect

/-!
# Property C97: thresholds in floating-point arithmetic

Whether an interaction has the energy it needs is decided by the relative speed and the threshold speed, both rounded
roots; the interaction itself subtracts squares of speeds under a root.  In exact arithmetic the two agree (C65, C72).
-/

namespace Chimp

variable {S : Type} {p : ℕ} (R : Rounding p)

/-! ## Specification -/

/-- The kinetic energy of the relative motion, exactly. -/
noncomputable def relEnergy (mu : ℝ) (v1 v2 : Vec) : ℝ := 1 / 2 * mu * (v1 - v2).normSq

/-- Rounding does not depend on the sign, as with ties to even. -/
def Rounding.Symm (R : Rounding p) : Prop := ∀ x, R.rd (-x) = -R.rd x

/-- The velocities after an inelastic interaction with energy change `dE` are numbers: for two and for three products,
whatever the masses of the products and the random numbers. -/
def VelocitiesDefined (ar : Arith) (mu : ReducedMass ℝ) (dE : ℝ) (v1 v2 : Vec) : Prop :=
  (∀ {S : Type} (rng : RNG S ℝ), rng.Valid → ∀ mu1 sc s,
    split2R ar rng mu mu1 sc true (dV2relR ar.rd dE mu.value) v1 v2 s ≠ none) ∧
  (∀ {S : Type} (rng : RNG S ℝ), rng.Valid → ∀ mu1 mu2 sc1 sc2 s,
    split3R ar rng mu mu1 mu2 sc1 sc2 true (dV2relR ar.rd dE mu.value) v1 v2 s ≠ none)

/-- They are not numbers, for any masses of the products and any random numbers. -/
def VelocitiesNaN (ar : Arith) (mu : ReducedMass ℝ) (dE : ℝ) (v1 v2 : Vec) : Prop :=
  (∀ {S : Type} (rng : RNG S ℝ), rng.Valid → ∀ mu1 sc s,
    split2R ar rng mu mu1 sc true (dV2relR ar.rd dE mu.value) v1 v2 s = none) ∧
  (∀ {S : Type} (rng : RNG S ℝ), rng.Valid → ∀ mu1 mu2 sc1 sc2 s,
    split3R ar rng mu mu1 mu2 sc1 sc2 true (dV2relR ar.rd dE mu.value) v1 v2 s = none)

/-! ### Lemmas -/

private theorem defined_iff (hp : 0 < p) (ar : Arith) (har : ar.rd = R.rd) (mu : ReducedMass ℝ) (dE : ℝ) (v1 v2 : Vec) :
    VelocitiesDefined ar mu dE v1 v2 ↔
      0 ≤ normSqR R.rd (vSub R.rd v1 v2) + R.rd (dE / R.rd (1 / 2 * mu.value)) := by
  rw [← calcVRelR_true_iff R hp]
  constructor
  · intro h
    have := h.1 twoPointRNG ⟨twoPointRNG_valid.rand_mem, twoPointRNG_valid.randExc_mem⟩ mu 0 false
    rw [split2R_some_iff R ar har _ ⟨twoPointRNG_valid.rand_mem, twoPointRNG_valid.randExc_mem⟩] at this
    rwa [dV2relR, har] at this
  · intro h
    refine ⟨fun {S} rng hv mu1 sc s => ?_, fun {S} rng hv mu1 mu2 sc1 sc2 s => ?_⟩
    · rw [split2R_some_iff R ar har rng hv, dV2relR, har]; exact h
    · rw [split3R_some_iff R ar har rng hv, dV2relR, har]; exact h

private theorem nan_iff (hp : 0 < p) (ar : Arith) (har : ar.rd = R.rd) (mu : ReducedMass ℝ) (dE : ℝ) (v1 v2 : Vec) :
    VelocitiesNaN ar mu dE v1 v2 ↔
      normSqR R.rd (vSub R.rd v1 v2) + R.rd (dE / R.rd (1 / 2 * mu.value)) < 0 := by
  rw [← not_le, ← calcVRelR_true_iff R hp, not_not]
  constructor
  · intro h
    have := h.1 twoPointRNG ⟨twoPointRNG_valid.rand_mem, twoPointRNG_valid.randExc_mem⟩ mu 0 false
    by_contra hc
    rw [dV2relR, har] at this
    exact (split2R_some_iff R ar har _ ⟨twoPointRNG_valid.rand_mem, twoPointRNG_valid.randExc_mem⟩ mu mu 0 true _ v1 v2
      false).2 hc this
  · intro h
    refine ⟨fun {S} rng hv mu1 sc s => ?_, fun {S} rng hv mu1 mu2 sc1 sc2 s => ?_⟩
    · by_contra hc
      exact (split2R_some_iff R ar har rng hv _ _ _ _ _ _ _ _).1 hc (by rw [dV2relR, har]; exact h)
    · by_contra hc
      exact (split3R_some_iff R ar har rng hv _ _ _ _ _ _ _ _ _ _).1 hc (by rw [dV2relR, har]; exact h)

private theorem symm_div (hs : R.Symm) (E h : ℝ) : R.rd (-E / h) = -R.rd (E / h) := by rw [neg_div, hs]

/-! ## Elastic and exothermic interactions -/

/-- **C97**  Elastic collisions always give numbers, whatever the velocities. -/
theorem C97_elastic (ar : Arith) (har : ar.rd = R.rd) (rng : RNG S ℝ) (hv : rng.Valid) (mu : ReducedMass ℝ)
    (v1 v2 : Vec) (s : S) : ∃ r, elasticCollideR ar rng mu v1 v2 s = some r := by
  obtain ⟨v, s', h⟩ := isoVecR_some R ar har rng hv (relSpeedR ar.rd v1 v2) s
  rw [elasticCollideR, h]
  exact ⟨_, rfl⟩

/-- **C97**  So do inelastic interactions without an energy change. -/
theorem C97_no_energy_change (ar : Arith) (har : ar.rd = R.rd) (rng : RNG S ℝ) (hv : rng.Valid)
    (mu mu1 mu2 : ReducedMass ℝ) (sc1 sc2 dV2 : ℝ) (v1 v2 : Vec) (s : S) :
    split2R ar rng mu mu1 sc1 false dV2 v1 v2 s ≠ none ∧ split3R ar rng mu mu1 mu2 sc1 sc2 false dV2 v1 v2 s ≠ none := by
  rw [split2R_some_iff R ar har rng hv, split3R_some_iff R ar har rng hv]
  simp [calcVRelR]

/-- **C97**  So do those that set energy free. -/
theorem C97_exothermic (hp : 0 < p) (ar : Arith) (har : ar.rd = R.rd) (mu : ReducedMass ℝ) (hmu : 0 ≤ mu.value) {dE : ℝ}
    (hE : 0 ≤ dE) (v1 v2 : Vec) : VelocitiesDefined ar mu dE v1 v2 := by
  rw [defined_iff R hp ar har]
  exact add_nonneg (normSqR_nonneg R _) (R.nonneg (div_nonneg hE (R.nonneg (by positivity))))

/-! ## Cross sections with a given threshold energy -/

/-- **C97**  `constant` cross sections (and `vhs`, which compares in the same way): above the threshold by more than the
rounding errors the channel is open and the interaction defined; below it by more than these the channel is closed. -/
theorem C97_constant_far (hp : 0 < p) (hs : R.Symm) (ar : Arith) (har : ar.rd = R.rd) (mu : ReducedMass ℝ)
    (hmu : 0 < mu.value) {E : ℝ} (hE : 0 ≤ E) (value : ℝ) (v1 v2 : Vec) :
    (growth p 7 * E ≤ relEnergy mu.value v1 v2 →
      constantSigmaR R.rd value E mu.value (relSpeedR R.rd v1 v2) = value ∧ VelocitiesDefined ar mu (-E) v1 v2) ∧
    (growth p 11 * relEnergy mu.value v1 v2 < E →
      constantSigmaR R.rd value E mu.value (relSpeedR R.rd v1 v2) = 0) := by
  have hq := normSqR_rel R v1 v2
  have ht := threshold_rel R hE hmu
  set q := normSqR R.rd (vSub R.rd v1 v2) with hqd
  set t := R.rd (E / R.rd (1 / 2 * mu.value)) with htd
  set D := (v1 - v2).normSq
  have hh : 0 < 1 / 2 * mu.value := by positivity
  have hrel : relEnergy mu.value v1 v2 = 1 / 2 * mu.value * D := rfl
  constructor
  · intro h
    have htq : t ≤ q := by
      have h1 := ht.le
      have h2 := hq.ge
      rw [← mul_div_assoc, le_div_iff₀ hh] at h1
      rw [hrel, show (7 : ℕ) = 5 + 2 from rfl, growth_add] at h
      have h3 : growth p 5 * (t * (1 / 2 * mu.value)) ≤ growth p 5 * (q * (1 / 2 * mu.value)) := by
        calc growth p 5 * (t * (1 / 2 * mu.value)) ≤ growth p 5 * (growth p 2 * E) :=
              mul_le_mul_of_nonneg_left h1 (growth_pos 5).le
          _ ≤ 1 / 2 * mu.value * D := by rw [← mul_assoc]; exact h
          _ ≤ 1 / 2 * mu.value * (growth p 5 * q) := mul_le_mul_of_nonneg_left h2 hh.le
          _ = growth p 5 * (q * (1 / 2 * mu.value)) := by ring
      exact le_of_mul_le_mul_right (le_of_mul_le_mul_left h3 (growth_pos 5)) hh
    constructor
    · rw [constantSigmaR, if_pos]
      exact R.mono (Real.sqrt_le_sqrt htq)
    · rw [defined_iff R hp ar har, symm_div R hs]
      linarith
  · intro h
    rw [constantSigmaR, if_neg]
    intro hc
    have hc' : R.rd (Real.sqrt t) ≤ R.rd (Real.sqrt q) := hc
    have h1 := (R.rel (Real.sqrt_nonneg t)).ge
    have h2 := (R.rel (Real.sqrt_nonneg q)).le
    have h3 : Real.sqrt t ≤ growth p 2 * Real.sqrt q := by
      rw [show (2 : ℕ) = 1 + 1 from rfl, growth_add, mul_assoc]
      exact h1.trans (mul_le_mul_of_nonneg_left (hc'.trans h2) (growth_pos 1).le)
    have h4 : t ≤ growth p 4 * q := by
      have := mul_self_le_mul_self (Real.sqrt_nonneg t) h3
      rw [Real.mul_self_sqrt ht.left_nonneg] at this
      calc t ≤ growth p 2 * √q * (growth p 2 * √q) := this
        _ = growth p (2 + 2) * (√q * √q) := by rw [growth_add]; ring
        _ = growth p 4 * q := by rw [Real.mul_self_sqrt hq.left_nonneg]
    have h5 : E / (1 / 2 * mu.value) ≤ growth p 11 * D := by
      calc E / (1 / 2 * mu.value) ≤ growth p 2 * t := ht.ge
        _ ≤ growth p 2 * (growth p 4 * (growth p 5 * D)) :=
          mul_le_mul_of_nonneg_left (h4.trans (mul_le_mul_of_nonneg_left hq.le (growth_pos 4).le)) (growth_pos 2).le
        _ = growth p (2 + (4 + 5)) * D := by rw [growth_add, growth_add]; ring
    rw [div_le_iff₀ hh] at h5
    rw [hrel] at h
    linarith

/-- There is such a rounding. -/
theorem exists_symm (hp : 0 < p) : ∃ R : Rounding p, R.Symm := by
  obtain ⟨R⟩ := Rounding.exists_rounding hp
  refine ⟨⟨fun x => if x < 0 then -R.rd (-x) else R.rd x, fun x => ?_, fun x z hz => ?_⟩, fun x => ?_⟩
  · split_ifs
    exacts [fp_neg (R.mem _), R.mem x]
  · split_ifs
    · have := R.near (-x) (-z) (fp_neg hz)
      rwa [show -x - R.rd (-x) = -(x - -R.rd (-x)) by ring, abs_neg, show -x - -z = -(x - z) by ring, abs_neg] at this
    · exact R.near x z hz
  · rcases lt_trichotomy x 0 with h | rfl | h
    · simp [h, not_lt.2 h.le]
    · simp [R.rd_zero]
    · simp [h, not_lt.2 h.le]

/-- **C97**  The same for `double`, with the errors in numbers. -/
theorem C97_constant_double (R : Rounding 53) (hs : R.Symm) (ar : Arith) (har : ar.rd = R.rd) (mu : ReducedMass ℝ)
    (hmu : 0 < mu.value) {E : ℝ} (hE : 0 ≤ E) (value : ℝ) (v1 v2 : Vec) :
    ((1 + 8 / 2 ^ 53) * E ≤ relEnergy mu.value v1 v2 →
      constantSigmaR R.rd value E mu.value (relSpeedR R.rd v1 v2) = value ∧ VelocitiesDefined ar mu (-E) v1 v2) ∧
    ((1 + 12 / 2 ^ 53) * relEnergy mu.value v1 v2 < E →
      constantSigmaR R.rd value E mu.value (relSpeedR R.rd v1 v2) = 0) := by
  have hu : unitError 53 = 1 / 2 ^ 53 := by rw [unitError, zpow_neg, one_div]; norm_cast
  have h7 : growth 53 7 ≤ 1 + 8 / 2 ^ 53 := by
    have := growth_sub_one_le (p := 53) 7 (by rw [hu]; norm_num)
    rw [hu] at this
    norm_num at this ⊢
    linarith
  have h11 : growth 53 11 ≤ 1 + 12 / 2 ^ 53 := by
    have := growth_sub_one_le (p := 53) 11 (by rw [hu]; norm_num)
    rw [hu] at this
    norm_num at this ⊢
    linarith
  have hK : 0 ≤ relEnergy mu.value v1 v2 := by
    have := (normSqR_rel R v1 v2).nonneg
    unfold relEnergy
    positivity
  have far := C97_constant_far R (by norm_num) hs ar har mu hmu hE value v1 v2
  exact ⟨fun h => far.1 ((mul_le_mul_of_nonneg_right h7 hE).trans h),
    fun h => far.2 ((mul_le_mul_of_nonneg_right h11 hK).trans_lt h)⟩

/-- Both cases occur: reduced mass 2, threshold 1, and the relative speeds 2 and 1/2. -/
example : ∃ R : Rounding 53, R.Symm ∧
    (1 + 8 / 2 ^ 53) * (1 : ℝ) ≤ relEnergy (reducedMassR R.rd 4 4).value ⟨2, 0, 0⟩ ⟨0, 0, 0⟩ ∧
    (1 + 12 / 2 ^ 53) * relEnergy (reducedMassR R.rd 4 4).value ⟨1 / 2, 0, 0⟩ ⟨0, 0, 0⟩ < 1 := by
  obtain ⟨R, hR⟩ := exists_symm (p := 53) (by norm_num)
  have h16 : R.rd (4 * 4) = 16 := by
    rw [show (4 * 4 : ℝ) = 2 ^ (4 : ℤ) by norm_num, R.rd_of_mem (fp_pow 4)]; norm_num
  have h8 : R.rd (4 + 4) = 8 := by
    rw [show (4 + 4 : ℝ) = 2 ^ (3 : ℤ) by norm_num, R.rd_of_mem (fp_pow 3)]; norm_num
  have hmu : (reducedMassR R.rd 4 4).value = 2 := by
    show R.rd (R.rd (4 * 4) / R.rd (4 + 4)) = 2
    rw [h16, h8, show (16 / 8 : ℝ) = 2 by norm_num, R.rd_of_mem fp_two]
  have hn : ∀ x : ℝ, (⟨x, 0, 0⟩ - ⟨0, 0, 0⟩ : Vec).normSq = x ^ 2 := fun x => by
    show (x - 0) ^ 2 + (0 - 0) ^ 2 + (0 - 0) ^ 2 = x ^ 2
    ring
  refine ⟨R, hR, ?_, ?_⟩ <;> rw [hmu, relEnergy, hn] <;> norm_num

/-- **C97**  If the relative speed is above the threshold speed, not equal to it, the interaction is defined. -/
theorem C97_constant_above (hp : 0 < p) (hs : R.Symm) (ar : Arith) (har : ar.rd = R.rd) (mu : ReducedMass ℝ) (E : ℝ)
    (v1 v2 : Vec) (h : thresholdVR R.rd E mu.value < relSpeedR R.rd v1 v2) : VelocitiesDefined ar mu (-E) v1 v2 := by
  rw [defined_iff R hp ar har, symm_div R hs]
  by_contra hc
  push Not at hc
  have : relSpeedR R.rd v1 v2 ≤ thresholdVR R.rd E mu.value := R.mono (Real.sqrt_le_sqrt (by linarith))
  linarith

/-- **C97**  An open channel whose interaction gives NaN: the relative energy and the threshold agree up to the rounding
errors, and the two speeds are the same number. -/
theorem C97_constant_nan (hp : 0 < p) (hs : R.Symm) (ar : Arith) (har : ar.rd = R.rd) (mu : ReducedMass ℝ)
    (hmu : 0 < mu.value) {E : ℝ} (hE : 0 ≤ E) (value : ℝ) (v1 v2 : Vec)
    (hopen : constantSigmaR R.rd value E mu.value (relSpeedR R.rd v1 v2) ≠ 0) (hnan : ¬ VelocitiesDefined ar mu (-E) v1 v2) :
    relSpeedR R.rd v1 v2 = thresholdVR R.rd E mu.value ∧
      relEnergy mu.value v1 v2 < growth p 7 * E ∧ E ≤ growth p 11 * relEnergy mu.value v1 v2 := by
  have hfar := C97_constant_far R hp hs ar har mu hmu hE value v1 v2
  refine ⟨le_antisymm ?_ ?_, ?_, ?_⟩
  · exact not_lt.1 fun h => hnan (C97_constant_above R hp hs ar har mu E v1 v2 h)
  · by_contra hc
    rw [constantSigmaR, if_neg (by exact hc)] at hopen
    exact hopen rfl
  · exact not_le.1 fun h => hnan (hfar.1 h).2
  · exact not_lt.1 fun h => hopen (hfar.2 h)

/-- The masses 4 and 4 have the reduced mass 2, in any precision. -/
theorem reducedMassR_four : (reducedMassR R.rd 4 4).value = 2 := by
  have h16 : R.rd (4 * 4) = 16 := by
    rw [show (4 * 4 : ℝ) = 2 ^ (4 : ℤ) by norm_num, R.rd_of_mem (fp_pow 4)]; norm_num
  have h8 : R.rd (4 + 4) = 8 := by
    rw [show (4 + 4 : ℝ) = 2 ^ (3 : ℤ) by norm_num, R.rd_of_mem (fp_pow 3)]; norm_num
  show R.rd (R.rd (4 * 4) / R.rd (4 + 4)) = 2
  rw [h16, h8, show (16 / 8 : ℝ) = 2 by norm_num, R.rd_of_mem fp_two]

/-- **C97**  The finding: in every precision of at least two digits and with every rule for ties there are masses, a
threshold, and velocities, all of them numbers of that precision, with an open channel that gives NaN. -/
theorem C97_constant_finding (hp : 2 ≤ p) (ar : Arith) (har : ar.rd = R.rd) :
    ∃ m1 ∈ FP p, ∃ m2 ∈ FP p, ∃ E ∈ FP p, ∃ x ∈ FP p, 0 < m1 ∧ 0 < m2 ∧ 0 < E ∧
      let mu := reducedMassR R.rd m1 m2
      let v1 : Vec := ⟨x, 0, 0⟩
      let v2 : Vec := ⟨0, 0, 0⟩
      (∀ value, constantSigmaR R.rd value E mu.value (relSpeedR R.rd v1 v2) = value) ∧
      VelocitiesNaN ar mu (-E) v1 v2 := by
  have h4 : (4 : ℝ) ∈ FP p := by
    have := fp_pow (p := p) 2
    norm_num at this
    exact this
  set d : ℝ := 2 ^ (2 - (p : ℤ)) with hd
  have hd0 : 0 < d := by positivity
  have hpd : (2 : ℝ) ^ (p - 1 : ℕ) * d = 2 := by
    rw [hd, ← zpow_natCast, ← zpow_add₀ (by norm_num)]
    rw [show ((p - 1 : ℕ) : ℤ) + (2 - (p : ℤ)) = 1 by omega]
    norm_num
  have hE : 4 + 2 * d ∈ FP p := by
    refine ⟨2 ^ (p - 1) + 1, 3 - p, ?_, ?_⟩
    · rw [abs_of_pos (by positivity)]
      obtain ⟨n, rfl⟩ : ∃ n, p = n + 1 := ⟨p - 1, by omega⟩
      have : (1 : ℤ) ≤ 2 ^ n := one_le_pow₀ (by norm_num)
      rw [Nat.add_sub_cancel, pow_succ]
      omega
    · have : (2 : ℝ) ^ (3 - (p : ℤ)) = 2 * d := by
        rw [hd, show (3 - (p : ℤ)) = 1 + (2 - p) by ring, zpow_add₀ (by norm_num)]; norm_num
      rw [this]
      push_cast
      linear_combination -2 * hpd
  refine ⟨4, h4, 4, h4, 4 + 2 * d, hE, 2, fp_two, by norm_num, by norm_num, by positivity, ?_⟩
  simp only
  have hmu := reducedMassR_four R
  have h1 : R.rd (1 / 2 * 2) = 1 := by norm_num; exact R.rd_of_mem fp_one
  have hq : normSqR R.rd (vSub R.rd ⟨2, 0, 0⟩ ⟨0, 0, 0⟩) = 4 := by
    simp only [normSqR, vSub, sub_zero, R.rd_zero, mul_zero, add_zero]
    rw [R.rd_of_mem fp_two, show (2 * 2 : ℝ) = 4 by norm_num]
    simp [R.rd_of_mem h4]
  have ht : R.rd ((4 + 2 * d) / 1) = 4 + 2 * d := by rw [div_one, R.rd_of_mem hE]
  -- the root of the threshold rounds to 2
  have hroot : R.rd (Real.sqrt (4 + 2 * d)) = 2 := by
    have hlo : 2 ≤ Real.sqrt (4 + 2 * d) := Real.le_sqrt_of_sq_le (by linarith)
    have hhi : Real.sqrt (4 + 2 * d) < 2 + d / 2 := by
      rw [Real.sqrt_lt' (by positivity)]; nlinarith
    apply le_antisymm _ (R.ge_of_ge fp_two hlo)
    have hnear := R.near (Real.sqrt (4 + 2 * d)) 2 fp_two
    rw [abs_of_nonneg (by linarith : 0 ≤ Real.sqrt (4 + 2 * d) - 2)] at hnear
    have hlt : R.rd (Real.sqrt (4 + 2 * d)) < 2 + d := by
      have := (abs_le.1 hnear).1
      linarith
    have := fp_gap (by omega : 0 < p) (M := 2 ^ (p - 1) + 1) (k := 2 - p) (z := R.rd (Real.sqrt (4 + 2 * d))) (by
      obtain ⟨n, rfl⟩ : ∃ n, p = n + 1 := ⟨p - 1, by omega⟩
      rw [Nat.add_sub_cancel, pow_succ]; omega) (R.mem _) (by
        push_cast
        rw [← hd]
        linarith)
    push_cast at this
    rw [← hd] at this
    linarith
  constructor
  · intro value
    rw [hmu, constantSigmaR, if_pos]
    show thresholdVR R.rd (4 + 2 * d) 2 ≤ relSpeedR R.rd ⟨2, 0, 0⟩ ⟨0, 0, 0⟩
    have : Real.sqrt 4 = 2 := by
      rw [show (4 : ℝ) = 2 ^ 2 by norm_num, Real.sqrt_sq (by norm_num)]
    rw [thresholdVR, relSpeedR, hq, h1, ht, hroot, this, R.rd_of_mem fp_two]
  · rw [nan_iff R (by omega) ar har, hmu, hq, h1, div_one, R.rd_of_mem (by
      have := fp_neg hE; exact this)]
    linarith

/-- So the hypotheses of `C97_constant_nan` are met. -/
example : ∃ (R : Rounding 53) (mu : ReducedMass ℝ) (E : ℝ) (v1 v2 : Vec), R.Symm ∧ 0 ≤ E ∧
    constantSigmaR R.rd 1 E mu.value (relSpeedR R.rd v1 v2) ≠ 0 ∧ ¬ VelocitiesDefined ⟨R.rd, id, id, 3⟩ mu (-E) v1 v2 := by
  obtain ⟨R, hR⟩ := exists_symm (p := 53) (by norm_num)
  obtain ⟨m1, -, m2, -, E, -, x, -, -, -, hE, h1, h2⟩ := C97_constant_finding R (by norm_num) ⟨R.rd, id, id, 3⟩ rfl
  refine ⟨R, _, E, _, _, hR, hE.le, by rw [h1]; norm_num, fun h => ?_⟩
  exact h.1 twoPointRNG ⟨twoPointRNG_valid.rand_mem, twoPointRNG_valid.randExc_mem⟩ (reducedMassR R.rd m1 m2) 0 false
    (h2.1 twoPointRNG ⟨twoPointRNG_valid.rand_mem, twoPointRNG_valid.randExc_mem⟩ (reducedMassR R.rd m1 m2) 0 false)

/-! ## Cross sections given as tables -/

private theorem gap_above (hp : 0 < p) {M k : ℤ} (hM : 2 ^ p < 2 * M) {z : ℝ} (hz : z ∈ FP p) (hlt : M * (2 : ℝ) ^ k < z) :
    (M + 1) * (2 : ℝ) ^ k ≤ z := by
  by_contra hc
  push Not at hc
  have := fp_gap hp (M := M + 1) (k := k) (by omega) hz (by push_cast; exact hc)
  push_cast at this
  linarith

/-- A square above the square of a number, by the distance to the next number, is above the rounded square. -/
private theorem rd_sq_lt (hp : 0 < p) {v0 q : ℝ} (h0 : 0 < v0) (hv0 : v0 ∈ FP p) (hq : q ∈ FP p) (hq0 : 0 ≤ q)
    (h : v0 < R.rd (Real.sqrt q)) : ∀ h' : ℝ, 0 < h' → R.rd (h' * R.rd (v0 * v0)) / h' ≤ q := by
  set r := Real.sqrt q with hr
  have hrq : r * r = q := Real.mul_self_sqrt hq0
  obtain ⟨m, j, hm1, hm2, hv⟩ := fp_normal hv0 h0
  have hj : (0 : ℝ) < 2 ^ j := by positivity
  have hmr : (m : ℝ) ≤ 2 ^ p := by exact_mod_cast hm2
  -- the root is at least halfway to the next number
  have hhalf : v0 + 2 ^ j / 2 ≤ r := by
    by_contra hc
    push Not at hc
    have hge : v0 ≤ r := by
      by_contra hlt
      push Not at hlt
      exact absurd (R.le_of_le hv0 hlt.le) (not_le.2 h)
    have hnear := R.near r v0 hv0
    rw [abs_of_nonneg (by linarith : 0 ≤ r - v0)] at hnear
    have h1 := (abs_le.1 hnear).1
    have := gap_above hp hm1 (R.mem r) (by rw [← hv]; exact h)
    have h2 : ((m : ℝ) + 1) * 2 ^ j = v0 + 2 ^ j := by rw [hv]; ring
    rw [h2] at this
    linarith
  have hqv : v0 * v0 + v0 * 2 ^ j < q := by nlinarith
  -- the rounded square
  have hs0 : 0 < R.rd (v0 * v0) := R.pos hp (by positivity)
  obtain ⟨M, k, hM1, hM2, hs⟩ := fp_normal (R.mem (v0 * v0)) hs0
  have hk : (0 : ℝ) < 2 ^ k := by positivity
  have hη : unitError p * 2 ^ p = 1 := by
    rw [unitError, zpow_neg, zpow_natCast]; exact inv_mul_cancel₀ (by positivity)
  have hη0 := unitError_pos (p := p)
  have hMr : (2 : ℝ) ^ p + 1 ≤ 2 * M := by exact_mod_cast hM1
  have hMr' : (M : ℝ) ≤ 2 ^ p := by exact_mod_cast hM2
  have hsle : R.rd (v0 * v0) ≤ v0 * v0 + 2 ^ k / 2 := by
    by_contra hc
    push Not at hc
    have hnear := R.near (v0 * v0) (((M - 1 : ℤ) : ℝ) * 2 ^ k) ⟨M - 1, k, by
      have : (0 : ℤ) < 2 ^ p := by positivity
      rw [abs_of_nonneg (by omega)]; omega, rfl⟩
    push_cast at hnear
    have e : ((M : ℝ) - 1) * 2 ^ k = R.rd (v0 * v0) - 2 ^ k := by rw [hs]; ring
    rw [e] at hnear
    rcases abs_cases (v0 * v0 - R.rd (v0 * v0)) with ⟨a, _⟩ | ⟨a, _⟩ <;>
    rcases abs_cases (v0 * v0 - (R.rd (v0 * v0) - 2 ^ k)) with ⟨b, _⟩ | ⟨b, _⟩ <;> linarith
  have hg : (2 : ℝ) ^ k / 2 ≤ v0 * 2 ^ j := by
    have h1 : R.rd (v0 * v0) ≤ (1 + unitError p) * (v0 * v0) := (R.bounds (by positivity)).2
    have h2 : ((2 : ℝ) ^ p + 1) * 2 ^ k ≤ 2 * ((1 + unitError p) * (v0 * v0)) := by
      calc ((2 : ℝ) ^ p + 1) * 2 ^ k ≤ 2 * M * 2 ^ k := mul_le_mul_of_nonneg_right hMr hk.le
        _ = 2 * R.rd (v0 * v0) := by rw [hs]; ring
        _ ≤ _ := by linarith
    have h3 : unitError p * (((2 : ℝ) ^ p + 1) * 2 ^ k) = (1 + unitError p) * 2 ^ k := by
      linear_combination (2 : ℝ) ^ k * hη
    have h4 : (1 + unitError p) * 2 ^ k ≤ (1 + unitError p) * (2 * (unitError p * (v0 * v0))) := by
      rw [← h3]
      calc _ ≤ unitError p * (2 * ((1 + unitError p) * (v0 * v0))) := mul_le_mul_of_nonneg_left h2 hη0.le
        _ = _ := by ring
    have h5 := le_of_mul_le_mul_left h4 (by linarith : 0 < 1 + unitError p)
    have h6 : unitError p * v0 ≤ 2 ^ j := by
      calc unitError p * v0 = unitError p * m * 2 ^ j := by rw [hv]; ring
        _ ≤ unitError p * 2 ^ p * 2 ^ j := by gcongr
        _ = 2 ^ j := by rw [hη, one_mul]
    nlinarith
  have hsq : R.rd (v0 * v0) < q := by linarith
  have hnext : R.rd (v0 * v0) + 2 ^ k ≤ q := by
    have := gap_above hp hM1 hq (by rw [← hs]; exact hsq)
    rw [hs]
    linarith
  intro h' hh'
  rw [div_le_iff₀ hh']
  have h1 : R.rd (h' * R.rd (v0 * v0)) ≤ (1 + unitError p) * (h' * R.rd (v0 * v0)) :=
    (R.bounds (by positivity)).2
  have h2 : unitError p * R.rd (v0 * v0) ≤ 2 ^ k := by
    calc unitError p * R.rd (v0 * v0) = unitError p * M * 2 ^ k := by rw [hs]; ring
      _ ≤ unitError p * 2 ^ p * 2 ^ k := by gcongr
      _ = 2 ^ k := by rw [hη, one_mul]
  nlinarith

/-- **C97**  A relative speed above the first speed of the table: the interaction is defined. -/
theorem C97_data_above (hp : 0 < p) (ar : Arith) (har : ar.rd = R.rd) (mu : ReducedMass ℝ) (hmu : 0 < mu.value) {v0 : ℝ}
    (h0 : 0 ≤ v0) (hv0 : v0 ∈ FP p) (v1 v2 : Vec) (h : v0 < relSpeedR R.rd v1 v2) :
    VelocitiesDefined ar mu (-dataThresholdR R.rd mu.value v0) v1 v2 := by
  rw [defined_iff R hp ar har]
  have hh : 0 < R.rd (1 / 2 * mu.value) := R.pos hp (by positivity)
  have hq : normSqR R.rd (vSub R.rd v1 v2) ∈ FP p := R.mem _
  have hq0 := normSqR_nonneg R (vSub R.rd v1 v2)
  have key : dataThresholdR R.rd mu.value v0 / R.rd (1 / 2 * mu.value) ≤ normSqR R.rd (vSub R.rd v1 v2) := by
    rcases h0.eq_or_lt with rfl | h0
    · simp only [dataThresholdR, mul_zero, R.rd_zero, zero_div]; exact hq0
    · exact rd_sq_lt R hp h0 hv0 hq hq0 h _ hh
  have := R.ge_of_ge (x := -dataThresholdR R.rd mu.value v0 / R.rd (1 / 2 * mu.value)) (fp_neg hq)
    (by rw [neg_div]; linarith)
  linarith

/-- **C97**  An open channel with a table: the interaction is defined, or the relative speed is the first of the table and
the cross section the first value. -/
theorem C97_data (hp : 0 < p) (ar : Arith) (har : ar.rd = R.rd) (mu : ReducedMass ℝ) (hmu : 0 < mu.value)
    (ext : Option (ℝ → ℝ)) (d : ℝ × ℝ) (t : XTable) (h0 : 0 ≤ d.1) (hd : d.1 ∈ FP p) (v1 v2 : Vec) {c : ℝ} (hc : c ≠ 0)
    (hopen : dataSigmaR R.rd ext (d :: t) (relSpeedR R.rd v1 v2) = .ok c) :
    VelocitiesDefined ar mu (-dataThresholdR R.rd mu.value d.1) v1 v2 ∨ (relSpeedR R.rd v1 v2 = d.1 ∧ c = d.2) := by
  rcases lt_or_ge d.1 (relSpeedR R.rd v1 v2) with h | h
  · exact .inl (C97_data_above R hp ar har mu hmu h0 hd v1 v2 h)
  · right
    rw [dataSigmaR, belowOf, aboveOf, List.takeWhile_cons, List.dropWhile_cons, if_neg (by simpa using h),
      if_neg (by simpa using h)] at hopen
    simp only [evalSplitR, List.getLast?_nil, Except.ok.injEq] at hopen
    split_ifs at hopen with he
    · exact ⟨he.symm, hopen.symm⟩
    · exact absurd hopen.symm hc

/-- A table with the speeds 1 and 3 and a relative speed of 2 between them. -/
example (R : Rounding 53) : ∃ c, c ≠ 0 ∧
    dataSigmaR R.rd none [(1, 0), (3, 4)] (relSpeedR R.rd ⟨2, 0, 0⟩ ⟨0, 0, 0⟩) = .ok c := by
  have h4 : (4 : ℝ) ∈ FP 53 := by
    have := fp_pow (p := 53) 2
    norm_num at this
    exact this
  have hv : relSpeedR R.rd ⟨2, 0, 0⟩ ⟨0, 0, 0⟩ = 2 := by
    have : Real.sqrt 4 = 2 := by rw [show (4 : ℝ) = 2 ^ 2 by norm_num, Real.sqrt_sq (by norm_num)]
    simp only [relSpeedR, normSqR, vSub, sub_zero, R.rd_zero, mul_zero, add_zero]
    rw [R.rd_of_mem fp_two, show (2 * 2 : ℝ) = 4 by norm_num]
    simp [R.rd_of_mem h4, this, R.rd_of_mem fp_two]
  refine ⟨2, by norm_num, ?_⟩
  have hh : (1 / 2 : ℝ) ∈ FP 53 := by
    have := fp_pow (p := 53) (-1)
    norm_num at this ⊢
    exact this
  rw [hv]
  simp only [dataSigmaR, belowOf, aboveOf, List.takeWhile_cons, List.dropWhile_cons]
  norm_num [evalSplitR, leverR]
  rw [R.rd_of_mem fp_two, R.rd_of_mem fp_one]
  norm_num [R.rd_zero]
  rw [R.rd_of_mem hh]
  norm_num [R.rd_of_mem fp_two]

/-- **C97**  A table whose first value is zero, as the threshold asks for: every open channel is defined. -/
theorem C97_data_zero_start (hp : 0 < p) (ar : Arith) (har : ar.rd = R.rd) (mu : ReducedMass ℝ) (hmu : 0 < mu.value)
    (ext : Option (ℝ → ℝ)) (v0 : ℝ) (t : XTable) (h0 : 0 ≤ v0) (hd : v0 ∈ FP p) (v1 v2 : Vec) {c : ℝ} (hc : c ≠ 0)
    (hopen : dataSigmaR R.rd ext ((v0, 0) :: t) (relSpeedR R.rd v1 v2) = .ok c) :
    VelocitiesDefined ar mu (-dataThresholdR R.rd mu.value v0) v1 v2 := by
  rcases C97_data R hp ar har mu hmu ext (v0, 0) t h0 hd v1 v2 hc hopen with h | ⟨-, h⟩
  · exact h
  · exact absurd h hc

/-- **C97**  The finding for `double`: a table that begins with a value above zero, and velocities at whose relative speed
the channel is open with NaN as the result. -/
theorem C97_data_finding (R : Rounding 53) (ar : Arith) (har : ar.rd = R.rd) :
    ∃ m1 ∈ FP 53, ∃ m2 ∈ FP 53, ∃ v0 ∈ FP 53, ∃ x ∈ FP 53, ∃ y ∈ FP 53, 0 < m1 ∧ 0 < m2 ∧ 0 < v0 ∧
      let mu := reducedMassR R.rd m1 m2
      let v1 : Vec := ⟨x, y, 0⟩
      let v2 : Vec := ⟨0, 0, 0⟩
      (∀ ext c t, dataSigmaR R.rd ext ((v0, c) :: t) (relSpeedR R.rd v1 v2) = .ok c) ∧
      VelocitiesNaN ar mu (-dataThresholdR R.rd mu.value v0) v1 v2 := by
  have h4 : (4 : ℝ) ∈ FP 53 := by
    have := fp_pow (p := 53) 2
    norm_num at this
    exact this
  have hx : (7152092847631112 : ℝ) * 2 ^ (-52 : ℤ) ∈ FP 53 := ⟨7152092847631112, -52, by norm_num, by norm_num⟩
  have hv : (7157629514277082 : ℝ) * 2 ^ (-52 : ℤ) ∈ FP 53 := ⟨7157629514277082, -52, by norm_num, by norm_num⟩
  have hy : (1 / 16 : ℝ) ∈ FP 53 := by
    have := fp_pow (p := 53) (-4)
    norm_num at this ⊢
    exact this
  refine ⟨4, h4, 4, h4, 7157629514277082 * 2 ^ (-52 : ℤ), hv, 7152092847631112 * 2 ^ (-52 : ℤ), hx, 1 / 16, hy,
    by norm_num, by norm_num, by positivity, ?_⟩
  have hmu := reducedMassR_four R
  have h1 : R.rd (1 / 2 * 2) = 1 := by norm_num; exact R.rd_of_mem fp_one
  have hxx : R.rd (7152092847631112 * 2 ^ (-52 : ℤ) * (7152092847631112 * 2 ^ (-52 : ℤ))) = (5679060788425628 : ℤ) * 2 ^ (-51 : ℤ) :=
    R.rd_eq (by norm_num) (by norm_num) (by norm_num) (by
      rw [abs_lt]; constructor <;> norm_num)
  have hyy : R.rd (1 / 16 * (1 / 16)) = 1 / 256 := by
    rw [show (1 / 16 * (1 / 16) : ℝ) = 2 ^ (-8 : ℤ) by norm_num, R.rd_of_mem (fp_pow (-8))]; norm_num
  have hsum : R.rd ((5679060788425628 : ℤ) * 2 ^ (-51 : ℤ) + 1 / 256) = (5687856881447836 : ℤ) * 2 ^ (-51 : ℤ) :=
    R.rd_eq (by norm_num) (by norm_num) (by norm_num) (by
      rw [abs_lt]; constructor <;> norm_num)
  have hq : normSqR R.rd (vSub R.rd ⟨7152092847631112 * 2 ^ (-52 : ℤ), 1 / 16, 0⟩ ⟨0, 0, 0⟩) =
      (5687856881447836 : ℤ) * 2 ^ (-51 : ℤ) := by
    simp only [normSqR, vSub, sub_zero]
    rw [R.rd_of_mem hx, R.rd_of_mem hy, R.rd_zero, hxx, hyy, hsum, mul_zero, R.rd_zero, add_zero,
      R.rd_of_mem ⟨5687856881447836, -51, by norm_num, rfl⟩]
  have hs : R.rd (7157629514277082 * 2 ^ (-52 : ℤ) * (7157629514277082 * 2 ^ (-52 : ℤ))) = (5687856881447837 : ℤ) * 2 ^ (-51 : ℤ) :=
    R.rd_eq (by norm_num) (by norm_num) (by norm_num) (by
      rw [abs_lt]; constructor <;> norm_num)
  have hroot : R.rd (Real.sqrt ((5687856881447836 : ℤ) * 2 ^ (-51 : ℤ))) = (7157629514277082 : ℤ) * 2 ^ (-52 : ℤ) := by
    apply R.rd_eq (by norm_num) (by norm_num) (by norm_num)
    rw [abs_lt]
    constructor
    · rw [lt_sub_iff_add_lt, Real.lt_sqrt (by norm_num)]; norm_num
    · rw [sub_lt_iff_lt_add, Real.sqrt_lt' (by positivity)]; norm_num
  have hspeed : relSpeedR R.rd ⟨7152092847631112 * 2 ^ (-52 : ℤ), 1 / 16, 0⟩ ⟨0, 0, 0⟩ =
      7157629514277082 * 2 ^ (-52 : ℤ) := by
    rw [relSpeedR, hq, hroot]; norm_num
  simp only
  constructor
  · intro ext c t
    rw [hspeed, dataSigmaR, belowOf, aboveOf, List.takeWhile_cons, List.dropWhile_cons, if_neg (by simp), if_neg (by simp)]
    simp [evalSplitR]
  · rw [nan_iff R (by norm_num) ar har, hmu, hq, h1, div_one, dataThresholdR, h1, one_mul, hs,
      R.rd_of_mem ⟨5687856881447837, -51, by norm_num, rfl⟩,
      R.rd_of_mem (fp_neg ⟨5687856881447837, -51, by norm_num, rfl⟩)]
    norm_num

end Chimp
