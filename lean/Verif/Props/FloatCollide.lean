import Verif.Lemmas.FloatDirection
import Verif.Props.FloatThreshold
import Verif.Props.Kinematics

/-!
# Property C98: conservation laws and directions in floating-point arithmetic

C45, C47 and C48 for exact numbers, here with every operation rounded.
-/

namespace Chimp

variable {S W : Type} {p : ℕ} (R : Rounding p)

/-! ## With exact operations -/

/-- **C98**  The functions are those of the exact model if operations are exact. -/
theorem C98_exact_operations :
    (∀ m1 m2, reducedMassR id m1 m2 = ReducedMass.mk' m1 m2) ∧
    (∀ (rng : RNG S ℝ), rng.Valid → ∀ mu v1 v2 s,
      elasticCollideR Arith.exact rng mu v1 v2 s = some (elasticCollide rng mu v1 v2 s)) ∧
    (∀ (rng : RNG S ℝ), rng.Valid → ∀ (m : InElastic W) (p q : Part W) s r1 r2 s', (∀ o ∈ m.ops, o = none) →
      m.interact2 rng p q s = some ([r1, r2], s') →
        split2R Arith.exact rng m.mu m.mu1 m.mu1Scale m.hasE m.dV2rel p.vel q.vel s = some (r1.vel, r2.vel, s')) ∧
    (∀ (rng : RNG S ℝ), rng.Valid → ∀ (m : InElastic W) (p q : Part W) s r1 r2 r3 s', (∀ o ∈ m.ops, o = none) →
      m.interact3 rng p q s = some ([r1, r2, r3], s') →
        split3R Arith.exact rng m.mu m.mu1 m.mu2 m.mu1Scale m.mu2Scale m.hasE m.dV2rel p.vel q.vel s =
          some (r1.vel, r2.vel, r3.vel, s')) := by
  have hadd : ∀ a b : Vec, vAdd id a b = a + b := fun _ _ => rfl
  have hsub : ∀ a b : Vec, vSub id a b = a - b := fun _ _ => rfl
  have hsm : ∀ (c : ℝ) (a : Vec), vScale id c a = c • a := fun _ _ => rfl
  have hn : ∀ a : Vec, normSqR id a = a.normSq := fun a => by
    simp only [normSqR, id, Vec.normSq]; ring
  have hrel : ∀ v1 v2 : Vec, relSpeedR id v1 v2 = (v1 - v2).abs := fun v1 v2 => by
    simp only [relSpeedR, hn, hsub, id, Vec.abs]
  have hiso : ∀ (rng : RNG S ℝ), rng.Valid → ∀ sp s, isoVecR Arith.exact rng sp s = some (isoVec rng sp s) := by
    intro rng hv sp s
    obtain ⟨u0, u1⟩ := hv.rand_mem s
    have hs : ∀ x : ℝ, 0 ≤ x → sqrtR id x = some (Real.sqrt x) := fun x hx => if_pos hx
    have h0 : 0 ≤ 1 - (2 * (rng.rand s).1 - 1) * (2 * (rng.rand s).1 - 1) := by nlinarith
    simp only [isoVecR, isoVec, Arith.exact, id_eq]
    rw [hs _ h0]
    simp only [← pow_two]
  have hcm : ∀ mu v1 v2, velCMR id mu v1 v2 = velCM mu v1 v2 := fun _ _ _ => rfl
  have hcalc : ∀ b v1 v2 d, calcVRelR id b v1 v2 d = calcVRel b v1 v2 d := by
    intro b v1 v2 d
    cases b
    · simp [calcVRelR, calcVRel, hrel]
    · simp only [calcVRelR, calcVRel, hn, hsub, id, if_true]
      rfl
  have hex : Arith.exact.rd = id := rfl
  refine ⟨fun m1 m2 => rfl, fun rng hv mu v1 v2 s => ?_, fun rng hv m p q s r1 r2 s' ho h => ?_,
    fun rng hv m p q s r1 r2 r3 s' ho h => ?_⟩
  · simp only [elasticCollideR, elasticCollide, hex, hrel, hiso rng hv, hadd, hsub, hsm, hcm]
  · unfold InElastic.interact2 at h
    split at h
    swap
    · cases h
    rename_i f1 f2 o1 o2 hf hops
    have k1 : o1 = none := ho _ (by rw [hops]; simp)
    have k2 : o2 = none := ho _ (by rw [hops]; simp)
    subst k1 k2
    simp only at h
    split at h
    swap
    · cases h
    rename_i x1 x2 speed hx1 hx2 hsp
    simp only [Option.some.injEq, Prod.mk.injEq, List.cons.injEq, and_true, applyOps] at h
    obtain ⟨⟨e1, e2⟩, e3⟩ := h
    simp only [split2R, hex, hcalc, hsp, hiso rng hv, hadd, hsub, hsm, hcm, id]
    rw [← e1, ← e2, ← e3]
  · unfold InElastic.interact3 at h
    split at h
    swap
    · cases h
    rename_i f1 f2 f3 o1 o2 o3 hf hops
    have k1 : o1 = none := ho _ (by rw [hops]; simp)
    have k2 : o2 = none := ho _ (by rw [hops]; simp)
    have k3 : o3 = none := ho _ (by rw [hops]; simp)
    subst k1 k2 k3
    simp only at h
    split at h
    swap
    · cases h
    rename_i x1 x2 x3 speed hx1 hx2 hx3 hsp
    simp only [Option.some.injEq, Prod.mk.injEq, List.cons.injEq, and_true, applyOps] at h
    obtain ⟨⟨e1, e2, e3⟩, e4⟩ := h
    obtain ⟨u0, u1⟩ := hv.rand_mem s
    simp only [split3R, hex, hcalc, hsp, hiso rng hv, hadd, hsub, hsm, hcm, id, sqrtR, if_pos u0,
      if_pos (by linarith : 0 ≤ 1 - (rng.rand s).1)]
    rw [← e1, ← e2, ← e3, ← e4]

/-! ## Conservation -/

/-- **C98**  Elastic collisions conserve momentum and energy up to the rounding errors. -/
theorem C98_elastic {κ : ℝ} (ar : Arith) (har : ar.rd = R.rd) (hl : ar.Lib κ) (rng : RNG S ℝ) (hv : rng.Valid)
    {m1 m2 : ℝ} (h1 : 0 < m1) (h2 : 0 < m2) (v1 v2 : Vec) (s : S) :
    ∃ a b, elasticCollideR ar rng (reducedMassR R.rd m1 m2) v1 v2 s = some (a, b, (rng.rand (rng.rand s).2).2) ∧
      Vec.Within (2 * (growth p 21 * (1 + 4 * κ) - 1) * Real.sqrt (2 * (m1 + m2) * (ke m1 v1 + ke m2 v2)))
        (m1 • a + m2 • b) (m1 • v1 + m2 • v2) ∧
      |ke m1 a + ke m2 b - (ke m1 v1 + ke m2 v2)| ≤ (growth p 63 * (1 + 4 * κ) - 1) * (ke m1 v1 + ke m2 v2) := by
  have hs : 0 < m1 + m2 := by positivity
  have hκ := hl.nonneg
  obtain ⟨r1, r2, -⟩ := reducedMassR_rel R h1 h2
  have hsp := relSpeedR_rel R v1 v2
  obtain ⟨w, s', hw, -, -, -, θ, t0, t1, t2, hθ⟩ :=
    isoVecR_spec R ar har hl.trig rng hv hsp.left_nonneg (R.mem _ : relSpeedR R.rd v1 v2 ∈ FP p) s
  have hs' : s' = (rng.rand (rng.rand s).2).2 := by
    have := (isoVecR_eq R ar har rng hv (relSpeedR R.rd v1 v2) s).1
    rw [hw] at this
    simp only [Option.some.injEq, Prod.mk.injEq] at this
    exact this.2
  have hlen := length_err t0 t1 t2 (Err.of_rel (relSpeedR_sq R v1 v2)) hθ
  have hG : 1 ≤ growth p 15 * (1 + 4 * κ) := by nlinarith [growth_one_le (p := p) 15]
  have hD0 : 0 ≤ (v1 - v2).normSq := (normSqR_rel R v1 v2).nonneg
  have := two_products R (dE := 0) (K := 6) (G := growth p 15 * (1 + 4 * κ)) h1 h2 h1 h2 rfl rfl
    (α := m2 / (m1 + m2)) (β := m1 / (m1 + m2)) (ρ := m1 * m2 / (m1 + m2)) (by ring) (by ring)
    (by field_simp; ring) (r1.mono (by omega : 3 ≤ 3)) (r2.mono (by omega : 3 ≤ 3)) r1 r2 le_rfl (by omega) hG v1 v2 w (by
      rw [zero_div, abs_zero, zero_div, add_zero]
      refine hlen.trans (mul_le_mul_of_nonneg_right ?_ hD0)
      have := mul_le_mul_of_nonneg_right (growth_mono (p := p) (by omega : 7 + 7 ≤ 15)) (by linarith : 0 ≤ 1 + 4 * κ)
      linarith)
  simp only [abs_zero, add_zero] at this
  rw [← mul_assoc, ← growth_add, ← mul_assoc, ← growth_add] at this
  refine ⟨_, _, ?_, this⟩
  rw [elasticCollideR, har, hw, hs']
  rfl

private theorem scale_facts {m3 m4 mu : ℝ} (h3 : 0 < m3) (h4 : 0 < m4) (hmu : 0 < mu) :
    let sc := Real.sqrt (mu / (m3 * m4 / (m3 + m4)))
    m3 * (m4 / (m3 + m4) * sc) = m3 * m4 / (m3 + m4) * sc ∧ m4 * (m3 / (m3 + m4) * sc) = m3 * m4 / (m3 + m4) * sc ∧
      m3 * (m4 / (m3 + m4) * sc) ^ 2 + m4 * (m3 / (m3 + m4) * sc) ^ 2 = mu := by
  intro sc
  have hs : 0 < m3 + m4 := by positivity
  refine ⟨by ring, by ring, ?_⟩
  have hsq : sc ^ 2 = mu / (m3 * m4 / (m3 + m4)) := Real.sq_sqrt (by positivity)
  rw [mul_pow, mul_pow, hsq]
  field_simp
  ring

/-- **C98**  Interactions with two products conserve momentum, and change the energy by `dE`, up to the rounding
errors. -/
theorem C98_two_products {κ : ℝ} (ar : Arith) (har : ar.rd = R.rd) (hl : ar.Lib κ) (rng : RNG S ℝ) (hv : rng.Valid)
    {m1 m2 m3 m4 : ℝ} (h1 : 0 < m1) (h2 : 0 < m2) (h3 : 0 < m3) (h4 : 0 < m4) (hM : m3 + m4 = m1 + m2) (dE : ℝ)
    (v1 v2 : Vec) (s s' : S) (a b : Vec)
    (h : let mu := reducedMassR R.rd m1 m2
      let mu1 := reducedMassR R.rd m3 m4
      split2R ar rng mu mu1 (scaleR R.rd mu.value mu1.value) (decide (dE ≠ 0)) (dV2relR R.rd dE mu.value) v1 v2 s =
        some (a, b, s')) :
    let F := ke m1 v1 + ke m2 v2 + |dE|
    s' = (rng.rand (rng.rand s).2).2 ∧
    Vec.Within (2 * (growth p 26 * (1 + 4 * κ) - 1) * Real.sqrt (2 * (m1 + m2) * F)) (m3 • a + m4 • b)
      (m1 • v1 + m2 • v2) ∧
    |ke m3 a + ke m4 b - (ke m1 v1 + ke m2 v2 + dE)| ≤ (growth p 103 * (1 + 4 * κ) - 1) * F := by
  intro F
  have hκ := hl.nonneg
  obtain ⟨r1, r2, r3⟩ := reducedMassR_rel R h1 h2
  obtain ⟨q1, q2, q3⟩ := reducedMassR_rel R h3 h4
  have hmu : 0 < m1 * m2 / (m1 + m2) := by positivity
  have hsc : Rel p 5 (scaleR R.rd (reducedMassR R.rd m1 m2).value (reducedMassR R.rd m3 m4).value)
      (Real.sqrt (m1 * m2 / (m1 + m2) / (m3 * m4 / (m3 + m4)))) :=
    R.rel_rd (((R.rel_rd (r3.div q3)).mono (by omega : 3 + 3 + 1 ≤ 2 * 4)).sqrt)
  simp only [split2R, har] at h
  cases hc : calcVRelR R.rd (decide (dE ≠ 0)) v1 v2 (dV2relR R.rd dE (reducedMassR R.rd m1 m2).value) with
  | none => rw [hc] at h; cases h
  | some sp =>
    rw [hc] at h
    obtain ⟨s0, s1, s2⟩ := calcVRelR_spec R r3 v1 v2 hc
    obtain ⟨w, s'', hw, -, -, -, θ, t0, t1, t2, hθ⟩ := isoVecR_spec R ar har hl.trig rng hv s0 s1 s
    have hs'' : s'' = (rng.rand (rng.rand s).2).2 := by
      have := (isoVecR_eq R ar har rng hv sp s).1
      rw [hw] at this
      simp only [Option.some.injEq, Prod.mk.injEq] at this
      exact this.2
    simp only [hw, Option.some.injEq, Prod.mk.injEq] at h
    obtain ⟨e1, e2, e3⟩ := h
    have hlen := length_err t0 t1 t2 s2 hθ
    have hG : 1 ≤ growth p 15 * (1 + 4 * κ) := by nlinarith [growth_one_le (p := p) 15]
    obtain ⟨f1, f2, f3⟩ := scale_facts h3 h4 hmu
    have rα := R.rel_rd (q1.mul hsc)
    have rβ := R.rel_rd (q2.mul hsc)
    have := two_products R (dE := dE) (K := 11) h1 h2 h3 h4 hM rfl f1 f2 f3 rα rβ r1 r2 (by omega) (by omega) hG v1 v2 w hlen
    simp only at this
    rw [← mul_assoc, ← growth_add, ← mul_assoc, ← growth_add] at this
    refine ⟨by rw [← e3, hs''], ?_⟩
    rw [← e1, ← e2]
    exact this

private theorem reducedMassR_rel' {m3 M M' : ℝ} (h3 : 0 < m3) (hM : 0 < M) (h : Rel p 1 M' M) (hM' : 0 < M') :
    Rel p 4 (reducedMassR R.rd m3 M').over_m1 (M / (m3 + M)) ∧
    Rel p 4 (reducedMassR R.rd m3 M').over_m2 (m3 / (m3 + M)) ∧
    Rel p 4 (reducedMassR R.rd m3 M').value (m3 * M / (m3 + M)) := by
  obtain ⟨r1, r2, r3⟩ := reducedMassR_rel R h3 hM'
  have one : Rel p 0 (1 : ℝ) 1 := Rel.refl (by norm_num)
  have mm : Rel p 0 m3 m3 := Rel.refl h3.le
  have q1 : Rel p 1 (M' / (m3 + M')) (M / (m3 + M)) := by
    have := one.div ((one.mono (by omega : 0 ≤ 1)).add ((mm.div h)))
    rw [show M' / (m3 + M') = 1 / (1 + m3 / M') by field_simp; ring,
      show M / (m3 + M) = 1 / (1 + m3 / M) by field_simp; ring]
    exact this
  have q2 : Rel p 1 (m3 / (m3 + M')) (m3 / (m3 + M)) := mm.div ((mm.mono (by omega : 0 ≤ 1)).add h)
  have q3 : Rel p 1 (m3 * M' / (m3 + M')) (m3 * M / (m3 + M)) := by
    rw [mul_div_assoc, mul_div_assoc]; exact mm.mul q1
  exact ⟨r1.trans q1, r2.trans q2, r3.trans q3⟩

/-- **C98**  Interactions with three products conserve momentum, and change the energy by `dE`, up to the rounding
errors. -/
theorem C98_three_products {κ : ℝ} (ar : Arith) (har : ar.rd = R.rd) (hl : ar.Lib κ) (rng : RNG S ℝ)
    (hv : rng.Valid) {m1 m2 m3 m4 m5 : ℝ} (h1 : 0 < m1) (h2 : 0 < m2) (h3 : 0 < m3) (h4 : 0 < m4) (h5 : 0 < m5)
    (hM : m3 + (m4 + m5) = m1 + m2) (dE : ℝ) (v1 v2 : Vec) (s s' : S) (a b c : Vec)
    (h : let mu := reducedMassR R.rd m1 m2
      let mu1 := reducedMassR R.rd m3 (R.rd (m4 + m5))
      let mu2 := reducedMassR R.rd m4 m5
      split3R ar rng mu mu1 mu2 (scaleR R.rd mu.value mu1.value) (scaleR R.rd mu.value mu2.value) (decide (dE ≠ 0))
        (dV2relR R.rd dE mu.value) v1 v2 s = some (a, b, c, s')) :
    let F := ke m1 v1 + ke m2 v2 + |dE|
    Vec.Within (3 * (growth p 33 * (1 + 4 * κ) - 1) * Real.sqrt (2 * (m1 + m2) * F)) (m3 • a + m4 • b + m5 • c)
      (m1 • v1 + m2 • v2) ∧
    |ke m3 a + ke m4 b + ke m5 c - (ke m1 v1 + ke m2 v2 + dE)| ≤ (growth p 176 * (1 + 4 * κ) - 1) * F := by
  intro F
  have hκ := hl.nonneg
  have h45 : 0 < m4 + m5 := by positivity
  obtain ⟨r1, r2, r3⟩ := reducedMassR_rel R h1 h2
  obtain ⟨q1, q2, q3⟩ := reducedMassR_rel' R h3 h45 (R.rel h45.le) ((R.rel h45.le).pos h45)
  obtain ⟨t1, t2, t3⟩ := reducedMassR_rel R h4 h5
  have hmu : 0 < m1 * m2 / (m1 + m2) := by positivity
  have hsc : Rel p 5 (scaleR R.rd (reducedMassR R.rd m1 m2).value (reducedMassR R.rd m3 (R.rd (m4 + m5))).value)
      (Real.sqrt (m1 * m2 / (m1 + m2) / (m3 * (m4 + m5) / (m3 + (m4 + m5))))) :=
    R.rel_rd (((R.rel_rd (r3.div q3)).mono (by omega : 3 + 4 + 1 ≤ 2 * 4)).sqrt)
  have hsc2 : Rel p 5 (scaleR R.rd (reducedMassR R.rd m1 m2).value (reducedMassR R.rd m4 m5).value)
      (Real.sqrt (m1 * m2 / (m1 + m2) / (m4 * m5 / (m4 + m5)))) :=
    R.rel_rd (((R.rel_rd (r3.div t3)).mono (by omega : 3 + 3 + 1 ≤ 2 * 4)).sqrt)
  simp only [split3R, har] at h
  cases hc : calcVRelR R.rd (decide (dE ≠ 0)) v1 v2 (dV2relR R.rd dE (reducedMassR R.rd m1 m2).value) with
  | none => rw [hc] at h; cases h
  | some sp =>
    rw [hc] at h
    obtain ⟨s0, -, s2⟩ := calcVRelR_spec R r3 v1 v2 hc
    obtain ⟨u0, u1⟩ := hv.rand_mem s
    set r := (rng.rand s).1
    have u1' : 0 ≤ 1 - r := by linarith
    have ea : sqrtR R.rd r = some (R.rd (Real.sqrt r)) := if_pos u0
    have eb : sqrtR R.rd (R.rd (1 - r)) = some (R.rd (Real.sqrt (R.rd (1 - r)))) := if_pos (R.nonneg u1')
    simp only [ea, eb] at h
    have a0 : 0 ≤ R.rd (Real.sqrt r) := R.nonneg (Real.sqrt_nonneg _)
    have b0 : 0 ≤ R.rd (Real.sqrt (R.rd (1 - r))) := R.nonneg (Real.sqrt_nonneg _)
    have hsp : Rel p 0 (sp ^ 2) (sp ^ 2) := Rel.refl (sq_nonneg sp)
    have A : Rel p 4 (R.rd (sp * R.rd (Real.sqrt r)) ^ 2) (sp ^ 2 * r) := by
      have e1 := R.rel_sq (Real.sqrt r)
      rw [Real.sq_sqrt u0] at e1
      have e2 := R.rel_sq (sp * R.rd (Real.sqrt r))
      rw [mul_pow] at e2
      exact (e2.trans (hsp.mul e1)).mono (by omega)
    have B : Rel p 5 (R.rd (sp * R.rd (Real.sqrt (R.rd (1 - r)))) ^ 2) (sp ^ 2 * (1 - r)) := by
      have e1 := R.rel_sq (Real.sqrt (R.rd (1 - r)))
      rw [Real.sq_sqrt (R.nonneg u1')] at e1
      have e2 := R.rel_sq (sp * R.rd (Real.sqrt (R.rd (1 - r))))
      rw [mul_pow] at e2
      exact (e2.trans (hsp.mul (e1.trans (R.rel u1')))).mono (by omega)
    obtain ⟨w, z1, hw, -, -, -, θ, x0, x1, x2, hθ⟩ := isoVecR_spec R ar har hl.trig rng hv
      (R.nonneg (mul_nonneg s0 a0)) (R.mem (sp * R.rd (Real.sqrt r))) (rng.rand s).2
    obtain ⟨u, z2, hu, -, -, -, φ, y0, y1, y2, hφ⟩ := isoVecR_spec R ar har hl.trig rng hv
      (R.nonneg (mul_nonneg s0 b0)) (R.mem (sp * R.rd (Real.sqrt (R.rd (1 - r))))) z1
    simp only [hw, hu, Option.some.injEq, Prod.mk.injEq] at h
    obtain ⟨e1, e2, e3, -⟩ := h
    have hlen : |w.normSq + u.normSq - ((v1 - v2).normSq + dE / (1 / 2 * (m1 * m2 / (m1 + m2))))| ≤
        (growth p 20 * (1 + 4 * κ) - 1) * ((v1 - v2).normSq + |dE| / (1 / 2 * (m1 * m2 / (m1 + m2)))) := by
      have k1 : Rel p 12 w.normSq (θ * (sp ^ 2 * r)) :=
        (hθ.trans ((Rel.refl x0 : Rel p 0 θ θ).mul A)).mono (by omega)
      have k2 : Rel p 12 u.normSq (φ * (sp ^ 2 * (1 - r))) :=
        (hφ.trans ((Rel.refl y0 : Rel p 0 φ φ).mul B)).mono (by omega)
      have k3 := k1.add k2
      rw [show θ * (sp ^ 2 * r) + φ * (sp ^ 2 * (1 - r)) = (θ * r + φ * (1 - r)) * sp ^ 2 by ring] at k3
      refine length_err (k := 8) (j := 12) ?_ ?_ ?_ s2 k3
      · positivity
      · have := mul_le_mul_of_nonneg_right x1 u0
        have := mul_le_mul_of_nonneg_right y1 u1'
        linarith
      · have := mul_le_mul_of_nonneg_right x2 u0
        have := mul_le_mul_of_nonneg_right y2 u1'
        linarith
    have hG : 1 ≤ growth p 20 * (1 + 4 * κ) := by nlinarith [growth_one_le (p := p) 20]
    obtain ⟨f1, f2, f3⟩ := scale_facts h3 h45 hmu
    obtain ⟨g1, g2, g3⟩ := scale_facts h4 h5 hmu
    have := three_products R (dE := dE) (j := 10) (K := 13) h1 h2 h3 h4 h5 hM rfl f1 f2 g1 g2 f3 g3
      (R.rel_rd (q1.mul hsc)) (R.rel_rd (q2.mul hsc)) ((R.rel_rd (t1.mul hsc2)).mono (by omega))
      ((R.rel_rd (t2.mul hsc2)).mono (by omega)) r1 r2 (by omega) (by omega) hG v1 v2 w u hlen
    simp only at this
    rw [← mul_assoc, ← growth_add, ← mul_assoc, ← growth_add] at this
    rw [← e1, ← e2, ← e3]
    exact this

/-! ## In double precision -/

private theorem double_bound {k n : ℕ} {κ : ℝ} (hk : k ^ 2 ≤ 2 ^ 52) (hn : k + 6 ≤ n) (h0 : 0 ≤ κ) (hκ : κ ≤ 1 / 2 ^ 53) :
    growth 53 k * (1 + 4 * κ) - 1 ≤ n / 2 ^ 53 := by
  have hu : unitError 53 = 1 / 2 ^ 53 := by rw [unitError]; norm_num
  have hk' : (k : ℝ) ^ 2 ≤ 2 ^ 52 := by exact_mod_cast hk
  have hk1 : (k : ℝ) ≤ 2 ^ 26 := by nlinarith [(Nat.cast_nonneg k : (0 : ℝ) ≤ k)]
  have hg := growth_sub_one_le (p := 53) k (by rw [hu]; nlinarith)
  rw [hu] at hg
  have hn' : (k : ℝ) + 6 ≤ n := by exact_mod_cast hn
  have h1 : growth 53 k ≤ 1 + (k + 1) * (1 / 2 ^ 53) := by linarith
  have h2 := mul_le_mul h1 (by linarith : 1 + 4 * κ ≤ 1 + 4 * (1 / 2 ^ 53)) (by linarith) (by positivity)
  have h3 : (1 + ((k : ℝ) + 1) * (1 / 2 ^ 53)) * (1 + 4 * (1 / 2 ^ 53)) - 1 ≤ (k + 6) * (1 / 2 ^ 53) := by
    nlinarith
  have h4 := mul_le_mul_of_nonneg_right hn' (by norm_num : (0 : ℝ) ≤ 1 / 2 ^ 53)
  linarith

/-- **C98**  In double precision, with a library whose cosine, sine and `M_PI` are accurate to half a unit in the last
place: an elastic collision changes the energy by less than `70 · 2⁻⁵³` of itself. -/
theorem C98_elastic_double {κ : ℝ} (R : Rounding 53) (ar : Arith) (har : ar.rd = R.rd) (hl : ar.Lib κ)
    (hκ : κ ≤ 1 / 2 ^ 53) (rng : RNG S ℝ) (hv : rng.Valid) {m1 m2 : ℝ} (h1 : 0 < m1) (h2 : 0 < m2) (v1 v2 : Vec) (s : S) :
    ∃ a b, elasticCollideR ar rng (reducedMassR R.rd m1 m2) v1 v2 s = some (a, b, (rng.rand (rng.rand s).2).2) ∧
      Vec.Within (54 / 2 ^ 53 * Real.sqrt (2 * (m1 + m2) * (ke m1 v1 + ke m2 v2)))
        (m1 • a + m2 • b) (m1 • v1 + m2 • v2) ∧
      |ke m1 a + ke m2 b - (ke m1 v1 + ke m2 v2)| ≤ 69 / 2 ^ 53 * (ke m1 v1 + ke m2 v2) := by
  obtain ⟨a, b, h, ⟨x, y, z⟩, e⟩ := C98_elastic R ar har hl rng hv h1 h2 v1 v2 s
  have k1 := double_bound (k := 21) (n := 27) (by norm_num) le_rfl hl.nonneg hκ
  have k2 := double_bound (k := 63) (n := 69) (by norm_num) le_rfl hl.nonneg hκ
  have hE : 0 ≤ ke m1 v1 + ke m2 v2 := by
    simp only [ke, Vec.normSq]; positivity
  have k3 : 2 * (growth 53 21 * (1 + 4 * κ) - 1) * Real.sqrt (2 * (m1 + m2) * (ke m1 v1 + ke m2 v2)) ≤
      54 / 2 ^ 53 * Real.sqrt (2 * (m1 + m2) * (ke m1 v1 + ke m2 v2)) :=
    mul_le_mul_of_nonneg_right (by push_cast at k1; linarith) (Real.sqrt_nonneg _)
  exact ⟨a, b, h, ⟨x.trans k3, y.trans k3, z.trans k3⟩, e.trans (mul_le_mul_of_nonneg_right (by exact_mod_cast k2) hE)⟩

/-! ## Directions -/

/-- **C98**  The direction drawn is that of the exact model with the same random numbers, to about half the digits. -/
theorem C98_direction {κ : ℝ} (hp : 10 ≤ p) (ar : Arith) (har : ar.rd = R.rd) (hl : ar.Lib κ) (hκ : κ ≤ unitError p)
    (rng : RNG S ℝ) (hv : rng.Valid) {speed : ℝ} (h0 : 0 ≤ speed) (s : S) :
    ∃ w, isoVecR ar rng speed s = some (w, (isoVec rng speed s).2) ∧
      Vec.Within (4 * Real.sqrt (unitError p) * speed) w (isoVec rng speed s).1 :=
  isoVecR_near R hp ar har hl hκ rng hv h0 s

private theorem small_growth (hη : unitError p ≤ 1 / 1024) {k : ℕ} (hk : k ≤ 6) :
    growth p k - 1 ≤ (k + 1) * unitError p := by
  refine growth_sub_one_le k ?_
  have : (k : ℝ) ≤ 6 := by exact_mod_cast hk
  have hk0 : (0 : ℝ) ≤ k := Nat.cast_nonneg k
  nlinarith [unitError_pos (p := p)]

private theorem follow_coord (hη : unitError p ≤ 1 / 1024) {q D sp c c' g g' G w w0 w1 : ℝ} (q0 : 0 ≤ q)
    (hq : q * q = unitError p) (hg : Err p 5 g' g G) (hc : Rel p 3 c' c) (hsp : Rel p 4 sp D) (hw : |w| ≤ sp)
    (h1 : |w - w1| ≤ 4 * q * sp) (h2 : |w1 - w0| ≤ (growth p 4 - 1) * D) :
    |R.rd (g' + R.rd (c' * w)) - (g + c * w0)| ≤ 7 * unitError p * G + 5 * q * (c * D) ∧
    |R.rd (g' - R.rd (c' * w)) - (g - c * w0)| ≤ 7 * unitError p * G + 5 * q * (c * D) := by
  have η0 := unitError_pos (p := p)
  have hG : 0 ≤ G := (abs_nonneg _).trans hg.bound
  have hc0 := hc.nonneg
  have hD := hsp.nonneg
  have g6 := small_growth (p := p) hη (k := 6) le_rfl
  have g4 := small_growth (p := p) hη (k := 4) (by norm_num)
  have g60 := growth_one_le (p := p) 6
  push_cast at g6 g4
  set η := unitError p
  have q1 : q ≤ 1 / 32 := by nlinarith
  obtain ⟨e1, e2⟩ := err_post R hg hc (by omega : 5 + 1 ≤ 6) (by omega : 3 + 2 ≤ 6) w
  have hspD : sp ≤ 1.005 * D := by
    refine hsp.le.trans (mul_le_mul_of_nonneg_right ?_ hD)
    linarith
  have d : |w - w0| ≤ 4 * q * sp + (growth p 4 - 1) * D := abs_sub_le_add h1 h2
  have d2 : |w - w0| ≤ (4.02 * q + 5 * η) * D := by
    have k1 := mul_le_mul_of_nonneg_left hspD (by positivity : 0 ≤ 4 * q)
    have k2 := mul_le_mul_of_nonneg_right g4 hD
    linarith
  have d3 : |c * w - c * w0| ≤ c * ((4.02 * q + 5 * η) * D) := by
    rw [← mul_sub, abs_mul, abs_of_nonneg hc0]
    exact mul_le_mul_of_nonneg_left d2 hc0
  have d4 : (growth p 6 - 1) * (G + c * |w|) ≤ 7 * η * G + c * (7.1 * η * D) := by
    have k1 : G + c * |w| ≤ G + c * (1.005 * D) := by
      have := mul_le_mul_of_nonneg_left (hw.trans hspD) hc0
      linarith
    have k2 := mul_le_mul g6 k1 (by positivity) (by positivity)
    have k3 : 0 ≤ η * (c * D) := by positivity
    linarith
  have d5 : c * (7.1 * η * D) + c * ((4.02 * q + 5 * η) * D) ≤ 5 * q * (c * D) := by
    have k1 : 12.1 * η ≤ 0.98 * q := by rw [← hq]; nlinarith
    have k2 := mul_le_mul_of_nonneg_right k1 (by positivity : 0 ≤ c * D)
    linarith
  constructor
  · have := e1.err
    have d6 : |g + c * w - (g + c * w0)| ≤ c * ((4.02 * q + 5 * η) * D) := by
      rwa [show g + c * w - (g + c * w0) = c * w - c * w0 by ring]
    exact (abs_sub_le_add this d6).trans (by linarith)
  · have := e2.err
    have d6 : |g - c * w - (g - c * w0)| ≤ c * ((4.02 * q + 5 * η) * D) := by
      rwa [show g - c * w - (g - c * w0) = -(c * w - c * w0) by ring, abs_neg]
    exact (abs_sub_le_add this d6).trans (by linarith)

/-- **C98**  The velocities after an elastic collision are those of the exact model with the same random numbers, up to
rounding errors of the velocity of the centre of mass and half the digits of the relative velocity. -/
theorem C98_elastic_follows {κ : ℝ} (hp : 10 ≤ p) (ar : Arith) (har : ar.rd = R.rd) (hl : ar.Lib κ)
    (hκ : κ ≤ unitError p) (rng : RNG S ℝ) (hv : rng.Valid) {m1 m2 : ℝ} (h1 : 0 < m1) (h2 : 0 < m2) (v1 v2 : Vec) (s : S) :
    let x := elasticCollide rng (ReducedMass.mk' m1 m2) v1 v2 s
    let cm := 7 * unitError p * ((m1 * v1.abs + m2 * v2.abs) / (m1 + m2))
    ∃ a b, elasticCollideR ar rng (reducedMassR R.rd m1 m2) v1 v2 s = some (a, b, x.2.2) ∧
      Vec.Within (cm + 5 * Real.sqrt (unitError p) * (m2 / (m1 + m2) * (v1 - v2).abs)) a x.1 ∧
      Vec.Within (cm + 5 * Real.sqrt (unitError p) * (m1 / (m1 + m2) * (v1 - v2).abs)) b x.2.1 := by
  intro x cm
  have hη := unitError_le_ten hp
  have η0 := unitError_pos (p := p)
  have hs : 0 < m1 + m2 := by positivity
  obtain ⟨r1, r2, -⟩ := reducedMassR_rel R h1 h2
  have hsp := relSpeedR_rel R v1 v2
  obtain ⟨w, s', hw, wx, wy, wz, -⟩ :=
    isoVecR_spec R ar har hl.trig rng hv hsp.left_nonneg (R.mem _ : relSpeedR R.rd v1 v2 ∈ FP p) s
  obtain ⟨w', hw', n1, n2, n3⟩ := isoVecR_near R hp ar har hl hκ rng hv hsp.left_nonneg s
  rw [hw] at hw'
  simp only [Option.some.injEq, Prod.mk.injEq] at hw'
  obtain ⟨rfl, rfl⟩ := hw'
  have q0 := Real.sqrt_nonneg (unitError p)
  have qq := Real.mul_self_sqrt η0.le
  obtain ⟨u0, u1⟩ := hv.rand_mem s
  have hb : |2 * (rng.rand s).1 - 1| ≤ 1 := by rw [abs_le]; constructor <;> linarith
  have hA0 := Real.sqrt_nonneg (1 - (2 * (rng.rand s).1 - 1) ^ 2)
  have hA1 : Real.sqrt (1 - (2 * (rng.rand s).1 - 1) ^ 2) ≤ 1 :=
    Real.sqrt_le_one.2 (by nlinarith [sq_nonneg (2 * (rng.rand s).1 - 1)])
  have sc : ∀ d : ℝ, |d| ≤ 1 → |d * relSpeedR R.rd v1 v2 - d * (v1 - v2).abs| ≤ (growth p 4 - 1) * (v1 - v2).abs := by
    intro d hd
    rw [← mul_sub, abs_mul]
    exact (mul_le_of_le_one_left (abs_nonneg _) hd).trans hsp.abs_sub
  have sc2 : ∀ c : ℝ, |c| ≤ 1 → |Real.sqrt (1 - (2 * (rng.rand s).1 - 1) ^ 2) * c| ≤ 1 := by
    intro c hc
    rw [abs_mul, abs_of_nonneg hA0]
    exact mul_le_one₀ hA1 (abs_nonneg _) hc
  have ab : ∀ v : Vec, |v.x| ≤ v.abs ∧ |v.y| ≤ v.abs ∧ |v.z| ≤ v.abs := by
    intro v
    simp only [Vec.abs, Vec.normSq]
    refine ⟨Real.abs_le_sqrt ?_, Real.abs_le_sqrt ?_, Real.abs_le_sqrt ?_⟩ <;>
      nlinarith [sq_nonneg v.x, sq_nonneg v.y, sq_nonneg v.z]
  have hcm : ∀ x y : ℝ, |x| ≤ v1.abs → |y| ≤ v2.abs →
      7 * unitError p * (m1 / (m1 + m2) * |x| + m2 / (m1 + m2) * |y|) ≤ cm := by
    intro x y hx hy
    refine mul_le_mul_of_nonneg_left ?_ (by positivity)
    rw [add_div, mul_div_right_comm, mul_div_right_comm]
    exact add_le_add (mul_le_mul_of_nonneg_left hx (by positivity)) (mul_le_mul_of_nonneg_left hy (by positivity))
  have e1 : (ReducedMass.mk' m1 m2).over_m1 = m2 / (m1 + m2) := by
    simp only [ReducedMass.mk']; field_simp; ring
  have e2 : (ReducedMass.mk' m1 m2).over_m2 = m1 / (m1 + m2) := by
    simp only [ReducedMass.mk']; field_simp
  refine ⟨vAdd R.rd (velCMR R.rd (reducedMassR R.rd m1 m2) v1 v2) (vScale R.rd (reducedMassR R.rd m1 m2).over_m1 w),
    vSub R.rd (velCMR R.rd (reducedMassR R.rd m1 m2) v1 v2) (vScale R.rd (reducedMassR R.rd m1 m2).over_m2 w), ?_, ?_, ?_⟩
  · rw [elasticCollideR, har, hw]
    rfl
  all_goals
    simp only [x, elasticCollide, velCM, e1, e2]
    refine ⟨?_, ?_, ?_⟩
  · exact ((follow_coord R hη q0 qq (err_cm R r1 r2 v1.x v2.x) r1 hsp wx n1 (sc _ hb)).1).trans
      (add_le_add (hcm _ _ (ab v1).1 (ab v2).1) le_rfl)
  · exact ((follow_coord R hη q0 qq (err_cm R r1 r2 v1.y v2.y) r1 hsp wy n2 (sc _ (sc2 _ (Real.abs_cos_le_one _)))).1).trans
      (add_le_add (hcm _ _ (ab v1).2.1 (ab v2).2.1) le_rfl)
  · exact ((follow_coord R hη q0 qq (err_cm R r1 r2 v1.z v2.z) r1 hsp wz n3 (sc _ (sc2 _ (Real.abs_sin_le_one _)))).1).trans
      (add_le_add (hcm _ _ (ab v1).2.2 (ab v2).2.2) le_rfl)
  · exact ((follow_coord R hη q0 qq (err_cm R r1 r2 v1.x v2.x) r2 hsp wx n1 (sc _ hb)).2).trans
      (add_le_add (hcm _ _ (ab v1).1 (ab v2).1) le_rfl)
  · exact ((follow_coord R hη q0 qq (err_cm R r1 r2 v1.y v2.y) r2 hsp wy n2 (sc _ (sc2 _ (Real.abs_cos_le_one _)))).2).trans
      (add_le_add (hcm _ _ (ab v1).2.1 (ab v2).2.1) le_rfl)
  · exact ((follow_coord R hη q0 qq (err_cm R r1 r2 v1.z v2.z) r2 hsp wz n3 (sc _ (sc2 _ (Real.abs_sin_le_one _)))).2).trans
      (add_le_add (hcm _ _ (ab v1).2.2 (ab v2).2.2) le_rfl)

/-- **C98**  Half the digits is what one gets: for a small first random number the rounded direction is along the axis,
the exact one is not. -/
theorem C98_direction_half (hp : 10 ≤ p) (ar : Arith) (har : ar.rd = R.rd) (rng : RNG S ℝ) (hv : rng.Valid) {speed : ℝ}
    (hs : speed ∈ FP p) (s : S) (hu : (rng.rand s).1 = 1 / 8 * unitError p) :
    (∃ s', isoVecR ar rng speed s = some (⟨-speed, 0, 0⟩, s')) ∧
    1 / 4 * unitError p * speed ^ 2 ≤ (isoVec rng speed s).1.y ^ 2 + (isoVec rng speed s).1.z ^ 2 := by
  have hη := unitError_le_ten hp
  have η0 := unitError_pos (p := p)
  constructor
  · obtain ⟨he, hB0, -⟩ := isoVecR_eq R ar har rng hv speed s
    have h2 : R.rd (2 * (rng.rand s).1) = 1 / 4 * unitError p := by
      have : 2 * (rng.rand s).1 = (2 : ℝ) ^ (-(p : ℤ) - 2) := by
        rw [hu, unitError, zpow_sub₀ (by norm_num)]; norm_num; ring
      rw [this, R.rd_of_mem (fp_pow _), unitError, zpow_sub₀ (by norm_num)]; norm_num; ring
    have hB : R.rd (R.rd (2 * (rng.rand s).1) - 1) = -1 := by
      by_contra hne
      have hlt : -R.rd (R.rd (2 * (rng.rand s).1) - 1) < 1 := by
        rcases lt_or_eq_of_le hB0 with h | h
        · linarith
        · exact absurd h.symm hne
      have h3 := fp_lt_one (by omega : 0 < p) (fp_neg (R.mem _)) hlt
      rw [← unitError] at h3
      have h4 := R.near (R.rd (2 * (rng.rand s).1) - 1) (-1) (fp_neg fp_one)
      rw [h2] at h3 h4
      rw [show 1 / 4 * unitError p - 1 - -1 = 1 / 4 * unitError p by ring, abs_of_nonneg (by positivity : 0 ≤ 1 / 4 * unitError p)] at h4
      have h5 := (abs_le.1 h4).1
      linarith
    have hA : R.rd (Real.sqrt (R.rd (1 - R.rd ((-1) * (-1))))) = 0 := by
      rw [show (-1 : ℝ) * (-1) = 1 by norm_num, R.rd_of_mem fp_one, sub_self, R.rd_zero, Real.sqrt_zero, R.rd_zero]
    simp only [hB, hA, zero_mul, R.rd_zero] at he
    rw [neg_one_mul, R.rd_of_mem (fp_neg hs)] at he
    exact ⟨_, he⟩
  · simp only [isoVec, hu]
    have hX : 0 ≤ 1 - (2 * (1 / 8 * unitError p) - 1) ^ 2 := by nlinarith
    have e : ∀ A c d q : ℝ, 0 ≤ A → c ^ 2 + d ^ 2 = 1 →
        (Real.sqrt A * c * q) ^ 2 + (Real.sqrt A * d * q) ^ 2 = A * q ^ 2 := by
      intro A c d q hA h
      have := Real.sq_sqrt hA
      calc _ = Real.sqrt A ^ 2 * (c ^ 2 + d ^ 2) * q ^ 2 := by ring
        _ = _ := by rw [this, h, mul_one]
    rw [e _ _ _ _ hX (Real.cos_sq_add_sin_sq _)]
    refine mul_le_mul_of_nonneg_right ?_ (sq_nonneg _)
    nlinarith

/-! ## Cases -/

/-- A generator whose numbers are all the same. -/
def sameRNG (x : ℝ) : RNG Unit ℝ := ⟨fun s => (x, s), fun s => (x, s)⟩

theorem sameRNG_valid {x : ℝ} (h0 : 0 ≤ x) (h1 : x < 1) : (sameRNG x).Valid :=
  ⟨fun _ => ⟨h0, h1.le⟩, fun _ => ⟨h0, h1⟩⟩

/-- For C98_elastic, C98_elastic_double, C98_elastic_follows: masses 1 and 3, a correctly rounded library. -/
example (R : Rounding 53) : R.arith.rd = R.rd ∧ R.arith.Lib (unitError 53) ∧ unitError 53 ≤ 1 / 2 ^ 53 ∧
    (sameRNG (1 / 3)).Valid ∧ ∃ a b, elasticCollideR R.arith (sameRNG (1 / 3)) (reducedMassR R.rd 1 3) ⟨1, 2, 0⟩ ⟨0, -1, 5⟩ () =
      some (a, b, ()) ∧ |ke 1 a + ke 3 b - 83 / 2| ≤ 69 / 2 ^ 53 * (83 / 2) := by
  have hu : unitError 53 ≤ 1 / 2 ^ 53 := by rw [unitError]; norm_num
  have hv := sameRNG_valid (x := 1 / 3) (by norm_num) (by norm_num)
  obtain ⟨a, b, h, -, e⟩ := C98_elastic_double R R.arith rfl R.arith_lib hu _ hv (m1 := 1) (m2 := 3) (by norm_num)
    (by norm_num) ⟨1, 2, 0⟩ ⟨0, -1, 5⟩ ()
  have hE : ke 1 ⟨1, 2, 0⟩ + ke 3 ⟨0, -1, 5⟩ = 83 / 2 := by simp only [ke, Vec.normSq]; norm_num
  rw [hE] at e
  exact ⟨rfl, R.arith_lib, hu, hv, a, b, h, e⟩

/-- For C98_two_products: energy is set free and mass moves from one particle to the other. -/
example (R : Rounding 53) : let mu := reducedMassR R.rd 1 3
    let mu1 := reducedMassR R.rd 2 2
    ∃ a b s', split2R R.arith (sameRNG (1 / 3)) mu mu1 (scaleR R.rd mu.value mu1.value) (decide ((5 : ℝ) ≠ 0))
      (dV2relR R.rd 5 mu.value) ⟨1, 2, 0⟩ ⟨0, -1, 5⟩ () = some (a, b, s') := by
  intro mu mu1
  have hv := sameRNG_valid (x := 1 / 3) (by norm_num) (by norm_num)
  have h := (C97_exothermic R (by norm_num) R.arith rfl mu
    ((reducedMassR_rel R (by norm_num : (0 : ℝ) < 1) (by norm_num : (0 : ℝ) < 3)).2.2.left_nonneg) (dE := 5) (by norm_num)
    ⟨1, 2, 0⟩ ⟨0, -1, 5⟩).1 _ hv mu1 (scaleR R.rd mu.value mu1.value) ()
  obtain ⟨⟨a, b, s'⟩, hx⟩ := Option.ne_none_iff_exists'.1 h
  refine ⟨a, b, s', ?_⟩
  rw [← hx, decide_eq_true (by norm_num : (5 : ℝ) ≠ 0)]
  rfl

/-- For C98_three_products. -/
example (R : Rounding 53) : let mu := reducedMassR R.rd 1 3
    let mu1 := reducedMassR R.rd 2 (R.rd (1 / 2 + 3 / 2))
    let mu2 := reducedMassR R.rd (1 / 2) (3 / 2)
    ∃ a b c s', split3R R.arith (sameRNG (1 / 3)) mu mu1 mu2 (scaleR R.rd mu.value mu1.value)
      (scaleR R.rd mu.value mu2.value) (decide ((5 : ℝ) ≠ 0)) (dV2relR R.rd 5 mu.value) ⟨1, 2, 0⟩ ⟨0, -1, 5⟩ () =
        some (a, b, c, s') := by
  intro mu mu1 mu2
  have hv := sameRNG_valid (x := 1 / 3) (by norm_num) (by norm_num)
  have h := (C97_exothermic R (by norm_num) R.arith rfl mu
    ((reducedMassR_rel R (by norm_num : (0 : ℝ) < 1) (by norm_num : (0 : ℝ) < 3)).2.2.left_nonneg) (dE := 5) (by norm_num)
    ⟨1, 2, 0⟩ ⟨0, -1, 5⟩).2 _ hv mu1 mu2 (scaleR R.rd mu.value mu1.value) (scaleR R.rd mu.value mu2.value) ()
  obtain ⟨⟨a, b, c, s'⟩, hx⟩ := Option.ne_none_iff_exists'.1 h
  refine ⟨a, b, c, s', ?_⟩
  rw [← hx, decide_eq_true (by norm_num : (5 : ℝ) ≠ 0)]
  rfl

/-- For C98_direction_half. -/
example : (sameRNG (1 / 8 * unitError 53)).Valid ∧ ((sameRNG (1 / 8 * unitError 53)).rand ()).1 = 1 / 8 * unitError 53 ∧
    (7 : ℝ) ∈ FP 53 := by
  have h0 := unitError_pos (p := 53)
  have h1 := unitError_le_ten (p := 53) (by norm_num)
  exact ⟨sameRNG_valid (by positivity) (by linarith), rfl, by exact_mod_cast fp_nat (p := 53) (n := 7) (by norm_num)⟩

end Chimp
