import Verif.Model.SimTest
import Mathlib.Tactic.NormNum
import Mathlib.Tactic.Linarith
import Mathlib.Tactic.Positivity

/-!
# C68: the example cell's estimate
-/

namespace Chimp

/-- The measured box contains zero and every particle. -/
def InBox (r : Vec × Vec) (v : Vec) : Prop :=
  (r.1.x ≤ v.x ∧ v.x ≤ r.2.x) ∧ (r.1.y ≤ v.y ∧ v.y ≤ r.2.y) ∧ (r.1.z ≤ v.z ∧ v.z ≤ r.2.z)

theorem cellMeasure_box (vs : List Vec) : InBox (cellMeasure vs) 0 ∧ ∀ v ∈ vs, InBox (cellMeasure vs) v := by
  have key : ∀ (vs : List Vec) (r : Vec × Vec) (w : Vec), (InBox r w ∨ w ∈ vs) →
      InBox (vs.foldl (fun r v => (⟨min r.1.x v.x, min r.1.y v.y, min r.1.z v.z⟩,
        ⟨max r.2.x v.x, max r.2.y v.y, max r.2.z v.z⟩)) r) w := by
    intro vs
    induction vs with
    | nil => intro r w h; simpa using h
    | cons a vs ih =>
      intro r w h
      rw [List.foldl_cons]
      apply ih
      rcases h with h | h
      · left
        obtain ⟨⟨h1, h2⟩, ⟨h3, h4⟩, ⟨h5, h6⟩⟩ := h
        exact ⟨⟨min_le_of_left_le h1, le_max_of_le_left h2⟩, ⟨min_le_of_left_le h3, le_max_of_le_left h4⟩,
          ⟨min_le_of_left_le h5, le_max_of_le_left h6⟩⟩
      · rcases List.mem_cons.1 h with rfl | h
        · left
          exact ⟨⟨min_le_right _ _, le_max_right _ _⟩, ⟨min_le_right _ _, le_max_right _ _⟩,
            ⟨min_le_right _ _, le_max_right _ _⟩⟩
        · exact .inr h
  exact ⟨key vs (0, 0) 0 (.inl ⟨⟨le_rfl, le_rfl⟩, ⟨le_rfl, le_rfl⟩, ⟨le_rfl, le_rfl⟩⟩),
    fun v hv => key vs (0, 0) v (.inr hv)⟩

/-- One component: a difference is covered by one of the two extreme differences. -/
theorem box_component {a b amin amax bmin bmax : ℝ} (h1 : amin ≤ a) (h2 : a ≤ amax) (h3 : bmin ≤ b) (h4 : b ≤ bmax)
    (z1 : amin ≤ 0) (z2 : 0 ≤ amax) (z3 : bmin ≤ 0) (z4 : 0 ≤ bmax) :
    (a - b) ^ 2 ≤ (amax - bmin) ^ 2 + (bmax - amin) ^ 2 := by
  rcases le_total b a with h | h
  · have : (a - b) ^ 2 ≤ (amax - bmin) ^ 2 := by
      apply pow_le_pow_left₀ (by linarith) (by linarith)
    nlinarith [sq_nonneg (bmax - amin)]
  · have : (b - a) ^ 2 ≤ (bmax - amin) ^ 2 := by
      apply pow_le_pow_left₀ (by linarith) (by linarith)
    nlinarith [sq_nonneg (amax - bmin)]

theorem normSq_sub (a b : Vec) : (a - b).normSq = (a.x - b.x) ^ 2 + (a.y - b.y) ^ 2 + (a.z - b.z) ^ 2 := rfl

/-- **C68**: the relative speed of any pair from the two species is at most `sqrt 2` times the estimate. -/
theorem C68_factor (A B : List Vec) {a b : Vec} (ha : a ∈ A) (hb : b ∈ B) :
    (a - b).abs ≤ Real.sqrt 2 * maxRelativeVelocity A B := by
  obtain ⟨⟨⟨p1, p2⟩, ⟨p3, p4⟩, ⟨p5, p6⟩⟩, hA⟩ := cellMeasure_box A
  obtain ⟨⟨⟨q1, q2⟩, ⟨q3, q4⟩, ⟨q5, q6⟩⟩, hB⟩ := cellMeasure_box B
  obtain ⟨⟨a1, a2⟩, ⟨a3, a4⟩, ⟨a5, a6⟩⟩ := hA a ha
  obtain ⟨⟨b1, b2⟩, ⟨b3, b4⟩, ⟨b5, b6⟩⟩ := hB b hb
  unfold maxRelativeVelocity
  set X := ((cellMeasure A).2 - (cellMeasure B).1)
  set Y := ((cellMeasure B).2 - (cellMeasure A).1)
  have hX : 0 ≤ X.normSq := by unfold Vec.normSq; positivity
  have hY : 0 ≤ Y.normSq := by unfold Vec.normSq; positivity
  have hsum : (a - b).normSq ≤ X.normSq + Y.normSq := by
    have c1 := box_component a1 a2 b1 b2 p1 p2 q1 q2
    have c2 := box_component a3 a4 b3 b4 p3 p4 q3 q4
    have c3 := box_component a5 a6 b5 b6 p5 p6 q5 q6
    rw [normSq_sub, normSq_sub, normSq_sub]
    linarith
  have hXa : X.abs ^ 2 = X.normSq := Real.sq_sqrt hX
  have hYa : Y.abs ^ 2 = Y.normSq := Real.sq_sqrt hY
  have hX0 : 0 ≤ X.abs := Real.sqrt_nonneg _
  have hY0 : 0 ≤ Y.abs := Real.sqrt_nonneg _
  have m1 : X.abs ^ 2 ≤ (max X.abs Y.abs) ^ 2 := pow_le_pow_left₀ hX0 (le_max_left _ _) 2
  have m2 : Y.abs ^ 2 ≤ (max X.abs Y.abs) ^ 2 := pow_le_pow_left₀ hY0 (le_max_right _ _) 2
  have hm : 0 ≤ max X.abs Y.abs := hX0.trans (le_max_left _ _)
  show Real.sqrt (a - b).normSq ≤ _
  rw [← Real.sqrt_sq hm, ← Real.sqrt_mul (by norm_num)]
  apply Real.sqrt_le_sqrt
  linarith

/-- **C68**: within one species the estimate is an upper bound. -/
theorem C68_same_species (A : List Vec) {a b : Vec} (ha : a ∈ A) (hb : b ∈ A) :
    (a - b).abs ≤ maxRelativeVelocity A A := by
  obtain ⟨-, hA⟩ := cellMeasure_box A
  obtain ⟨⟨a1, a2⟩, ⟨a3, a4⟩, ⟨a5, a6⟩⟩ := hA a ha
  obtain ⟨⟨b1, b2⟩, ⟨b3, b4⟩, ⟨b5, b6⟩⟩ := hA b hb
  unfold maxRelativeVelocity
  rw [max_self]
  apply Real.sqrt_le_sqrt
  rw [normSq_sub, normSq_sub]
  have comp : ∀ {x y lo hi : ℝ}, lo ≤ x → x ≤ hi → lo ≤ y → y ≤ hi → (x - y) ^ 2 ≤ (hi - lo) ^ 2 := by
    intro x y lo hi h1 h2 h3 h4
    apply sq_le_sq'
    · linarith
    · linarith
  have c1 := comp a1 a2 b1 b2
  have c2 := comp a3 a4 b3 b4
  have c3 := comp a5 a6 b5 b6
  linarith

/-- **C68**: exchanging the species does not change the estimate. -/
theorem C68_symmetric (A B : List Vec) : maxRelativeVelocity A B = maxRelativeVelocity B A := max_comm _ _

/-- **C68**: between two species it is not an upper bound, and the factor `sqrt 2` is reached: a particle with velocity
`(c, -c, 0)` and one at rest. -/
theorem C68_not_a_bound {c : ℝ} (hc : 0 < c) :
    ∃ A B : List Vec, ∃ a ∈ A, ∃ b ∈ B, maxRelativeVelocity A B = c ∧ (a - b).abs = Real.sqrt 2 * c ∧
      maxRelativeVelocity A B < (a - b).abs := by
  have h0 : (0 : Vec) = ⟨0, 0, 0⟩ := rfl
  have sub : ∀ a b : Vec, a - b = ⟨a.x - b.x, a.y - b.y, a.z - b.z⟩ := fun _ _ => rfl
  have hmA : cellMeasure [⟨c, -c, 0⟩] = (⟨0, -c, 0⟩, ⟨c, 0, 0⟩) := by
    simp [cellMeasure, h0, hc.le]
  have hmB : cellMeasure [⟨0, 0, 0⟩] = (⟨0, 0, 0⟩, ⟨0, 0, 0⟩) := by
    simp [cellMeasure, h0]
  have hest : maxRelativeVelocity [⟨c, -c, 0⟩] [⟨0, 0, 0⟩] = c := by
    unfold maxRelativeVelocity
    rw [hmA, hmB]
    simp [sub, Vec.abs, Vec.normSq, Real.sqrt_sq hc.le]
  have htrue : ((⟨c, -c, 0⟩ : Vec) - ⟨0, 0, 0⟩).abs = Real.sqrt 2 * c := by
    rw [sub]
    unfold Vec.abs Vec.normSq
    have : (c - 0) ^ 2 + (-c - 0) ^ 2 + (0 - 0) ^ 2 = 2 * c ^ 2 := by ring
    rw [this, Real.sqrt_mul (by norm_num), Real.sqrt_sq hc.le]
  refine ⟨[⟨c, -c, 0⟩], [⟨0, 0, 0⟩], _, List.mem_singleton_self _, _, List.mem_singleton_self _, hest, htrue, ?_⟩
  rw [hest, htrue]
  have : (1 : ℝ) < Real.sqrt 2 := by
    rw [Real.lt_sqrt (by norm_num)]; norm_num
  nlinarith

/-- Non-vacuity: two particles of the same species. -/
example : ((⟨3, 0, 0⟩ : Vec) - ⟨0, 4, 0⟩).abs ≤ maxRelativeVelocity [⟨3, 0, 0⟩, ⟨0, 4, 0⟩] [⟨3, 0, 0⟩, ⟨0, 4, 0⟩] :=
  C68_same_species _ (by simp) (by simp)

end Chimp
