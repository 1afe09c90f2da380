import Verif.Lemmas.Kinematics
import Mathlib.Tactic.NormNum

/-!
# C45 to C49, C69, C70: what the interaction models do to the particles
-/

namespace Chimp

variable {S W : Type}

/-! ## C45 -/

/-- A collision result in either interface: in place, the two particles get new velocities and nothing is
pushed; otherwise they are left alone and copies with the new velocities are pushed. -/
def collided (inplace : Bool) (p q : Part W) (a b : Vec) (s : S) :
    Part W × Part W × List (Part W) × S :=
  if inplace then (⟨p.pos, a, p.species, p.rest⟩, ⟨q.pos, b, q.species, q.rest⟩, [], s)
  else (p, q, [⟨p.pos, a, p.species, p.rest⟩, ⟨q.pos, b, q.species, q.rest⟩], s)

/-- **C45**  An elastic collision changes only the velocities; momentum, kinetic energy, velocity of the centre
of mass and relative speed are those from before, and the generator advances by two draws. -/
theorem C45_elastic (rng : RNG S ℝ) (hr : rng.Unit) {m1 m2 : ℝ} (h1 : 0 < m1) (h2 : 0 < m2)
    (inplace : Bool) (p q : Part W) (s : S) :
    ∃ a b : Vec,
      elasticAct rng (ReducedMass.mk' m1 m2) inplace p q s =
        collided inplace p q a b (rng.rand (rng.rand s).2).2 ∧
      m1 • a + m2 • b = m1 • p.vel + m2 • q.vel ∧
      ke m1 a + ke m2 b = ke m1 p.vel + ke m2 q.vel ∧
      weightedMean m1 m2 a b = weightedMean m1 m2 p.vel q.vel ∧
      (a - b).abs = (p.vel - q.vel).abs := by
  obtain ⟨hn, hs⟩ := isoVec_spec rng hr (p.vel - q.vel).abs s
  set post := (isoVec rng (p.vel - q.vel).abs s).1 with hpost
  obtain ⟨j1, j2⟩ := join_bodies h1 h2 p.vel q.vel
  obtain ⟨k1, k2, k3⟩ := split_body h1 h2 (velCM (ReducedMass.mk' m1 m2) p.vel q.vel) post
  rw [Vec.abs_sq] at hn
  have hmom := k1.trans j1
  refine ⟨_, _, ?_, hmom, ?_, ?_, ?_⟩
  · cases inplace <;> rfl
  · rw [k2, hn, j2]
  · unfold weightedMean; rw [hmom]
  · rw [k3]; exact Vec.abs_eq_of_normSq hn

/-- **C45**  The relative velocity afterwards has the old length and the direction with cosine `2u-1` to the first
axis and azimuth `2πw`, for the two numbers drawn. -/
theorem C45_direction (rng : RNG S ℝ) {m1 m2 : ℝ} (h1 : 0 < m1) (h2 : 0 < m2) (p q : Part W) (s : S) :
    let u := (rng.rand s).1
    let w := (rng.rand (rng.rand s).2).1
    let g := (p.vel - q.vel).abs
    let r := elasticAct rng (ReducedMass.mk' m1 m2) true p q s
    r.1.vel - r.2.1.vel = ⟨g * (2 * u - 1), g * (Real.sqrt (1 - (2 * u - 1) ^ 2) * Real.cos (2 * Real.pi * w)),
      g * (Real.sqrt (1 - (2 * u - 1) ^ 2) * Real.sin (2 * Real.pi * w))⟩ := by
  obtain ⟨_, _, k3⟩ := split_body h1 h2 (velCM (ReducedMass.mk' m1 m2) p.vel q.vel)
    (isoVec rng (p.vel - q.vel).abs s).1
  intro u w g r
  refine Eq.trans k3 ?_
  ext <;> simp only [isoVec, u, w, g] <;> ring

/-- A generator that always returns the same number. -/
def constRng (c : ℝ) : RNG ℕ ℝ := ⟨fun n => (c, n + 1), fun n => (c, n + 1)⟩

theorem constRng_unit {c : ℝ} (h0 : 0 ≤ c) (h1 : c ≤ 1) : (constRng c).Unit := fun _ => ⟨h0, h1⟩

/-- A light particle hitting a heavy one at rest really is deflected, and energy is exchanged. -/
example : let rng := constRng 0
    let p : Part Unit := ⟨0, ⟨3, 0, 0⟩, 0, ()⟩
    let q : Part Unit := ⟨0, ⟨0, 0, 0⟩, 1, ()⟩
    let r := elasticAct rng (ReducedMass.mk' 1 2) true p q 0
    rng.Unit ∧ r.1.vel = ⟨-1, 0, 0⟩ ∧ r.2.1.vel = ⟨2, 0, 0⟩ := by
  refine ⟨constRng_unit (by norm_num) (by norm_num), ?_, ?_⟩ <;>
  · have : Real.sqrt (3 ^ 2 + 0 ^ 2 + 0 ^ 2) = 3 := by
      rw [show (3 : ℝ) ^ 2 + 0 ^ 2 + 0 ^ 2 = 3 ^ 2 by norm_num]; exact Real.sqrt_sq (by norm_num)
    ext <;> simp [elasticAct, actWith, elasticCollide, constRng, isoVec, velCM, ReducedMass.mk', Vec.abs,
      Vec.normSq] <;> norm_num

/-! ## C46 -/

/-- **C46**  A VSS collision changes only the velocities and conserves momentum always.  With `D` the part of the
relative speed transverse to the first axis, kinetic energy and relative speed are conserved if `D > 10⁻⁶` or
`D = 0`; otherwise exactly the energy `μ D²/2` is lost. -/
theorem C46_vss (pow : ℝ → ℝ → ℝ) (paramInv : ℝ)
    (hpow : ∀ u, 0 ≤ u → u ≤ 1 → 0 ≤ pow u paramInv ∧ pow u paramInv ≤ 1)
    (rng : RNG S ℝ) (hr : rng.Unit) {m1 m2 : ℝ} (h1 : 0 < m1) (h2 : 0 < m2)
    (inplace : Bool) (p q : Part W) (s : S) :
    let v := p.vel - q.vel
    let D := Real.sqrt (v.y ^ 2 + v.z ^ 2)
    ∃ a b : Vec,
      vssAct pow paramInv rng (ReducedMass.mk' m1 m2) inplace p q s =
        collided inplace p q a b (rng.rand (rng.rand s).2).2 ∧
      m1 • a + m2 • b = m1 • p.vel + m2 • q.vel ∧
      weightedMean m1 m2 a b = weightedMean m1 m2 p.vel q.vel ∧
      (D > 1 / 1000000 ∨ D = 0 →
        ke m1 a + ke m2 b = ke m1 p.vel + ke m2 q.vel ∧ (a - b).abs = v.abs) ∧
      (D ≤ 1 / 1000000 →
        ke m1 a + ke m2 b = ke m1 p.vel + ke m2 q.vel - 1 / 2 * (m1 * m2 / (m1 + m2)) * D ^ 2) := by
  intro v D
  obtain ⟨u0, u1⟩ := hr s
  obtain ⟨b0, b1⟩ := hpow _ u0 u1
  have hB : (2 * pow (rng.rand s).1 paramInv - 1) ^ 2 ≤ 1 := by nlinarith
  obtain ⟨hbig, hsmall⟩ := vssPost_spec v (2 * pow (rng.rand s).1 paramInv - 1)
    (2 * Real.pi * (rng.rand (rng.rand s).2).1) hB
  set post := vssPost v (2 * pow (rng.rand s).1 paramInv - 1)
    (2 * Real.pi * (rng.rand (rng.rand s).2).1) with hpost
  obtain ⟨j1, j2⟩ := join_bodies h1 h2 p.vel q.vel
  obtain ⟨k1, k2, k3⟩ := split_body h1 h2 (velCM (ReducedMass.mk' m1 m2) p.vel q.vel) post
  have hmom := k1.trans j1
  have hD : D ^ 2 = v.y ^ 2 + v.z ^ 2 := Real.sq_sqrt (by positivity)
  refine ⟨_, _, ?_, hmom, ?_, ?_, ?_⟩
  · cases inplace <;> rfl
  · unfold weightedMean; rw [hmom]
  · intro h
    have hn : post.normSq = v.normSq := by
      rcases h with h | h
      · exact (hbig h).1
      · rw [hsmall (by show D ≤ _; rw [h]; norm_num), ← hD, h]; ring
    refine ⟨by rw [k2, hn, j2], ?_⟩
    rw [k3]; exact Vec.abs_eq_of_normSq hn
  · intro h
    rw [k2, hsmall h, ← j2, ← hD]
    have : (ReducedMass.mk' m1 m2).value = m1 * m2 / (m1 + m2) := rfl
    rw [this]
    ring

/-- **C46**  Away from the small branch the cosine of the deflection angle is `2 u^(1/α) - 1`. -/
theorem C46_deflection (pow : ℝ → ℝ → ℝ) (paramInv : ℝ)
    (hpow : ∀ u, 0 ≤ u → u ≤ 1 → 0 ≤ pow u paramInv ∧ pow u paramInv ≤ 1)
    (rng : RNG S ℝ) (hr : rng.Unit) {m1 m2 : ℝ} (h1 : 0 < m1) (h2 : 0 < m2) (p q : Part W) (s : S)
    (hD : Real.sqrt ((p.vel - q.vel).y ^ 2 + (p.vel - q.vel).z ^ 2) > 1 / 1000000) :
    let r := vssAct pow paramInv rng (ReducedMass.mk' m1 m2) true p q s
    (r.1.vel - r.2.1.vel).dot (p.vel - q.vel) =
      (2 * pow (rng.rand s).1 paramInv - 1) * ((r.1.vel - r.2.1.vel).abs * (p.vel - q.vel).abs) := by
  obtain ⟨u0, u1⟩ := hr s
  obtain ⟨b0, b1⟩ := hpow _ u0 u1
  have hB : (2 * pow (rng.rand s).1 paramInv - 1) ^ 2 ≤ 1 := by nlinarith
  obtain ⟨hbig, _⟩ := vssPost_spec (p.vel - q.vel) (2 * pow (rng.rand s).1 paramInv - 1)
    (2 * Real.pi * (rng.rand (rng.rand s).2).1) hB
  obtain ⟨_, _, k3⟩ := split_body h1 h2 (velCM (ReducedMass.mk' m1 m2) p.vel q.vel)
    (vssPost (p.vel - q.vel) (2 * pow (rng.rand s).1 paramInv - 1)
      (2 * Real.pi * (rng.rand (rng.rand s).2).1))
  intro r
  have e : r.1.vel - r.2.1.vel = vssPost (p.vel - q.vel) (2 * pow (rng.rand s).1 paramInv - 1)
      (2 * Real.pi * (rng.rand (rng.rand s).2).1) := k3
  rw [e, (hbig hD).2, Vec.abs_eq_of_normSq (hbig hD).1, ← sq, Vec.abs_sq]

/-- **C46**  With an exact power function the hypothesis on `pow` holds for every nonnegative exponent. -/
theorem C46_exact_power (paramInv : ℝ) (h : 0 ≤ paramInv) (u : ℝ) (h0 : 0 ≤ u) (h1 : u ≤ 1) :
    0 ≤ u ^ paramInv ∧ u ^ paramInv ≤ 1 :=
  ⟨Real.rpow_nonneg h0 _, Real.rpow_le_one h0 h1 h⟩

/-- **C46**  The small branch does lose energy: a relative velocity `(1, 10⁻⁷, 0)` of two unit masses. -/
theorem C46_energy_lost : ∃ (rng : RNG ℕ ℝ) (p q : Part Unit), rng.Unit ∧
    let r := vssAct (fun u _ => u) 1 rng (ReducedMass.mk' 1 1) true p q 0
    ke 1 r.1.vel + ke 1 r.2.1.vel < ke 1 p.vel + ke 1 q.vel := by
  have hu : (constRng (1 / 2)).Unit := constRng_unit (by norm_num) (by norm_num)
  refine ⟨constRng (1 / 2), ⟨0, ⟨1, 1 / 10000000, 0⟩, 0, ()⟩, ⟨0, ⟨0, 0, 0⟩, 0, ()⟩, hu, ?_⟩
  obtain ⟨a, b, e, _, _, _, h⟩ := C46_vss (fun u _ => u) 1 (fun u h0 h1 => ⟨h0, h1⟩) (constRng (1 / 2)) hu
    (m1 := 1) (m2 := 1) (by norm_num) (by norm_num) true
    (⟨0, ⟨1, 1 / 10000000, 0⟩, 0, ()⟩ : Part Unit) ⟨0, ⟨0, 0, 0⟩, 0, ()⟩ 0
  have hD : Real.sqrt ((1 / 10000000 - 0 : ℝ) ^ 2 + (0 - 0) ^ 2) = 1 / 10000000 := by
    rw [show (1 / 10000000 - 0 : ℝ) ^ 2 + (0 - 0) ^ 2 = (1 / 10000000) ^ 2 by norm_num]
    exact Real.sqrt_sq (by norm_num)
  simp only [Vec.sub_y, Vec.sub_z, hD] at h
  have h' := h (by norm_num)
  intro r
  have : ke 1 r.1.vel + ke 1 r.2.1.vel = ke 1 a + ke 1 b := by
    show ke 1 (vssAct _ _ _ _ _ _ _ _).1.vel + ke 1 (vssAct _ _ _ _ _ _ _ _).2.1.vel = _
    rw [e]; rfl
  rw [this, h']
  norm_num

/-! ## Loaded inelastic models -/

/-- The expressions written with the products leave velocities alone (in particular: there are none). -/
def OpsKeepVel (oc : OpsCompiler W) (e : LEq) : Prop :=
  ∀ o ∈ productOps e.products, o ≠ "" → ∀ r p q sc, (oc.compile o r p q sc).2.1 = r.vel

/-- No product is written with an expression. -/
def NoOps (e : LEq) : Prop := ∀ o ∈ productOps e.products, o = ""

theorem NoOps.keepVel {oc : OpsCompiler W} {e : LEq} (h : NoOps e) : OpsKeepVel oc e :=
  fun o ho hne => absurd (h o ho) hne

theorem keepVel_of {db : Registry ℝ} {oc : OpsCompiler W} {e : LEq} {dE : ℝ} {a b : Props ℝ}
    {m : InElastic W} (L : LoadedCommon db oc e dE a b m) (h : OpsKeepVel oc e) :
    ∀ o ∈ m.ops, KeepsVel o := by
  intro o ho
  rw [L.ops] at ho
  obtain ⟨x, hx, rfl⟩ := List.mem_map.1 ho
  intro f hf
  by_cases hx0 : x = ""
  · simp [hx0] at hf
  · simp only [hx0, if_false, Option.mem_def, Option.some.injEq] at hf
    subst hf
    exact h x hx hx0

theorem ops_none {db : Registry ℝ} {oc : OpsCompiler W} {e : LEq} {dE : ℝ} {a b : Props ℝ}
    {m : InElastic W} (L : LoadedCommon db oc e dE a b m) (h : NoOps e) : ∀ o ∈ m.ops, o = none := by
  intro o ho
  rw [L.ops] at ho
  obtain ⟨x, hx, rfl⟩ := List.mem_map.1 ho
  simp [h x hx]

/-! ## C47 -/

/-- **C47**  Two products.  Masses `m₁`, `m₂` of the reactants and `n₁`, `n₂` of the products are those of the
particle database, and `dE` is the declared energy change, or minus the threshold energy.  The products carry
the momentum `(n₁+n₂) V`, `V` the velocity of the centre of mass of the reactants; if mass is
conserved that is the momentum before, and the kinetic energy has changed by exactly `dE`. -/
theorem C47_two_products {db : Registry ℝ} {oc : OpsCompiler W} {e : LEq} {declared : Option ℝ}
    {threshold : ℝ} {m : InElastic W} (hn : ∀ t ∈ e.products, 0 ≤ t.n)
    (h : newLoad db oc e declared threshold = .ok (.two m)) (hpos : ∀ x ∈ db, 0 < x.mass)
    (hops : OpsKeepVel oc e) (rng : RNG S ℝ) (hr : rng.Unit) (p q : Part W) (s s' : S)
    (out : List (Part W)) (hi : m.interact2 rng p q s = some (out, s')) :
    let dE := declared.getD (-threshold)
    ∃ (a b p1 p2 : Props ℝ) (r1 r2 : Part W),
      db[e.A.species.toNat]? = some a ∧ db[e.B.species.toNat]? = some b ∧
      (expandTerms e.products).map (fun t => db[t.species.toNat]?) = [some p1, some p2] ∧
      out = [r1, r2] ∧
      p1.mass • r1.vel + p2.mass • r2.vel = (p1.mass + p2.mass) • weightedMean a.mass b.mass p.vel q.vel ∧
      ke p1.mass r1.vel + ke p2.mass r2.vel =
        ke a.mass p.vel + ke b.mass q.vel + dE +
          ke (p1.mass + p2.mass - (a.mass + b.mass)) (weightedMean a.mass b.mass p.vel q.vel) ∧
      (p1.mass + p2.mass = a.mass + b.mass →
        p1.mass • r1.vel + p2.mass • r2.vel = a.mass • p.vel + b.mass • q.vel ∧
        ke p1.mass r1.vel + ke p2.mass r2.vel = ke a.mass p.vel + ke b.mass q.vel + dE) ∧
      s' = (rng.rand (rng.rand s).2).2 := by
  intro dE
  obtain ⟨a, b, t1, t2, p1, p2, L, ht, hp1, hp2, hmu1, hsc⟩ := newLoad_two hn h
  have ha := hpos a (List.mem_of_getElem? L.hA)
  have hb := hpos b (List.mem_of_getElem? L.hB)
  have h1 := hpos p1 (List.mem_of_getElem? hp1)
  have h2 := hpos p2 (List.mem_of_getElem? hp2)
  have hkv := keepVel_of L hops
  unfold InElastic.interact2 at hi
  split at hi
  swap
  · cases hi
  rename_i f1 f2 o1 o2 hfacs hops'
  have k1 := hkv o1 (by rw [hops']; simp)
  have k2 := hkv o2 (by rw [hops']; simp)
  simp only at hi
  split at hi
  swap
  · cases hi
  rename_i r1 r2 speed hr1 hr2 hspeed
  simp only [Option.some.injEq, Prod.mk.injEq] at hi
  obtain ⟨hout, hs'⟩ := hi
  obtain ⟨hn2, hst⟩ := isoVec_spec rng hr speed s
  rw [L.hasE, L.dV] at hspeed
  have hmu : 0 < m.mu.value := by rw [L.mu]; exact reducedMass_pos ha hb
  have hw := ((calcVRel_spec hmu p.vel q.vel).1 speed hspeed).2
  obtain ⟨c1, c2⟩ := split_scaled h1 h2 hmu (velCM m.mu p.vel q.vel) (isoVec rng speed s).1
  obtain ⟨j1, j2⟩ := join_bodies ha hb p.vel q.vel
  rw [← L.mu] at j1 j2
  have hV : velCM m.mu p.vel q.vel = weightedMean a.mass b.mass p.vel q.vel := by
    rw [L.mu]; exact velCM_eq ha hb _ _
  rw [← hmu1, ← hsc] at c1 c2
  have E : ke p1.mass (velCM m.mu p.vel q.vel + (m.mu1.over_m1 * m.mu1Scale) • (isoVec rng speed s).1) +
      ke p2.mass (velCM m.mu p.vel q.vel - (m.mu1.over_m2 * m.mu1Scale) • (isoVec rng speed s).1) =
        ke a.mass p.vel + ke b.mass q.vel + dE +
          ke (p1.mass + p2.mass - (a.mass + b.mass)) (velCM m.mu p.vel q.vel) := by
    rw [c2, hn2, hw, ← j2]
    simp only [ke]
    ring
  refine ⟨a, b, p1, p2, _, _, L.hA, L.hB, by simp [ht, hp1, hp2], hout.symm, ?_, ?_, ?_, ?_⟩
  · rw [applyOps_vel k1, applyOps_vel k2, ← hV]; exact c1
  · rw [applyOps_vel k1, applyOps_vel k2, ← hV]; exact E
  · intro hm
    rw [applyOps_vel k1, applyOps_vel k2]
    refine ⟨?_, ?_⟩
    · refine c1.trans ?_
      rw [hm]; exact j1
    · refine E.trans ?_
      rw [hm]; simp [ke]
  · rw [← hs']; exact hst

/-- The centre of charge is needed: some product is placed there, as written or as chosen by the library. -/
def UsesCQ (m : InElastic W) : Prop := ∃ f ∈ m.facs, f.op = .cq

theorem create_ne_none {m : InElastic W} {p q : Part W} {f : PFactory} (hf : f ∈ m.facs)
    {q1 q2 : ℝ} (hq : m.muQ = ReducedCharge.mk' q1 q2) :
    f.create p q (Scratch.make m.facs p q m.mu m.muQ m.forceCM m.forceCQ) = none ↔
      f.op = .cq ∧ q1 + q2 = 0 := by
  unfold PFactory.create
  cases hop : f.op with
  | noop => simp
  | cm => simp
  | cq =>
    have hany : m.facs.any (fun f => f.op == .cq) = true :=
      List.any_eq_true.2 ⟨f, hf, by simp [hop]⟩
    have c1 := chargeRatio_eq q1 q2
    have c2 := chargeRatio_eq q2 q1
    rw [add_comm q2 q1] at c2
    simp only [Option.map_eq_none_iff, Scratch.make, hany, Bool.or_true, if_true, hq, ReducedCharge.mk',
      true_and]
    by_cases h0 : q1 + q2 = 0
    · simp [c1.1 h0, c2.1 h0, h0]
    · simp [c1.2 h0, c2.2 h0, h0]

/-- **C47**  The two-product interaction gives real velocities and positions exactly if the relative kinetic
energy plus `dE` is nonnegative and the reactants are not neutral together in case a product is placed at their
centre of charge. -/
theorem C47_defined_iff {db : Registry ℝ} {oc : OpsCompiler W} {e : LEq} {declared : Option ℝ}
    {threshold : ℝ} {m : InElastic W} (hn : ∀ t ∈ e.products, 0 ≤ t.n)
    (h : newLoad db oc e declared threshold = .ok (.two m)) (hpos : ∀ x ∈ db, 0 < x.mass)
    (rng : RNG S ℝ) (p q : Part W) (s : S) {a b : Props ℝ}
    (hA : db[e.A.species.toNat]? = some a) (hB : db[e.B.species.toNat]? = some b) :
    (∃ out s', m.interact2 rng p q s = some (out, s')) ↔
      0 ≤ 1 / 2 * (a.mass * b.mass / (a.mass + b.mass)) * (p.vel - q.vel).normSq
        + declared.getD (-threshold) ∧
      (UsesCQ m → a.charge + b.charge ≠ 0) := by
  obtain ⟨a', b', t1, t2, p1, p2, L, ht, hp1, hp2, hmu1, hsc⟩ := newLoad_two hn h
  have ea : a' = a := by have := L.hA; rw [hA] at this; cases this; rfl
  have eb : b' = b := by have := L.hB; rw [hB] at this; cases this; rfl
  subst ea eb
  have ha := hpos a' (List.mem_of_getElem? L.hA)
  have hb := hpos b' (List.mem_of_getElem? L.hB)
  have hmu : 0 < m.mu.value := by rw [L.mu]; exact reducedMass_pos ha hb
  have hmuv : m.mu.value = a'.mass * b'.mass / (a'.mass + b'.mass) := by rw [L.mu]; rfl
  have hdef := (calcVRel_spec (dE := declared.getD (-threshold)) hmu p.vel q.vel).2
  rw [← L.dV, ← L.hasE] at hdef
  have lf := L.facs.length_eq
  have lw : (writtenProducts e.products).length = 2 := by
    have := congrArg List.length (writtenProducts_fst e.products); simpa [ht] using this
  have lo : m.ops.length = 2 := by rw [L.ops, List.length_map, productOps_length, ht]; rfl
  obtain ⟨f1, f2, hfs⟩ := List.length_eq_two.1 (lf.symm.trans lw)
  obtain ⟨o1, o2, hos⟩ := List.length_eq_two.1 lo
  have n1 := create_ne_none (p := p) (q := q) (show f1 ∈ m.facs by rw [hfs]; simp) L.muQ
  have n2 := create_ne_none (p := p) (q := q) (show f2 ∈ m.facs by rw [hfs]; simp) L.muQ
  have hU : UsesCQ m ↔ f1.op = .cq ∨ f2.op = .cq := by simp [UsesCQ, hfs]
  rw [← hmuv, ← hdef, hU]
  unfold InElastic.interact2
  rw [hfs] at n1 n2
  simp only [hfs, hos]
  generalize PFactory.create f1 p q _ = c1 at n1 ⊢
  generalize PFactory.create f2 p q _ = c2 at n2 ⊢
  generalize calcVRel _ _ _ _ = c3
  cases c1 <;> cases c2 <;> cases c3 <;> simp_all <;> tauto

/-! ## C48 -/

/-- **C48**  Three products, for every split of the energy between the first product and the other two. -/
theorem C48_three_products {db : Registry ℝ} {oc : OpsCompiler W} {e : LEq} {declared : Option ℝ}
    {threshold : ℝ} {m : InElastic W} (hn : ∀ t ∈ e.products, 0 ≤ t.n)
    (h : newLoad db oc e declared threshold = .ok (.three m)) (hpos : ∀ x ∈ db, 0 < x.mass)
    (hops : OpsKeepVel oc e) (rng : RNG S ℝ) (hr : rng.Unit) (p q : Part W) (s s' : S)
    (out : List (Part W)) (hi : m.interact3 rng p q s = some (out, s')) :
    let dE := declared.getD (-threshold)
    ∃ (a b p1 p2 p3 : Props ℝ) (r1 r2 r3 : Part W),
      db[e.A.species.toNat]? = some a ∧ db[e.B.species.toNat]? = some b ∧
      (expandTerms e.products).map (fun t => db[t.species.toNat]?) = [some p1, some p2, some p3] ∧
      out = [r1, r2, r3] ∧
      p1.mass • r1.vel + (p2.mass • r2.vel + p3.mass • r3.vel) =
        (p1.mass + (p2.mass + p3.mass)) • weightedMean a.mass b.mass p.vel q.vel ∧
      ke p1.mass r1.vel + (ke p2.mass r2.vel + ke p3.mass r3.vel) =
        ke a.mass p.vel + ke b.mass q.vel + dE +
          ke (p1.mass + (p2.mass + p3.mass) - (a.mass + b.mass)) (weightedMean a.mass b.mass p.vel q.vel) ∧
      (p1.mass + (p2.mass + p3.mass) = a.mass + b.mass →
        p1.mass • r1.vel + (p2.mass • r2.vel + p3.mass • r3.vel) = a.mass • p.vel + b.mass • q.vel ∧
        ke p1.mass r1.vel + (ke p2.mass r2.vel + ke p3.mass r3.vel) =
          ke a.mass p.vel + ke b.mass q.vel + dE) ∧
      s' = (fun s => (rng.rand s).2)^[5] s := by
  intro dE
  obtain ⟨a, b, t1, t2, t3, p1, p2, p3, L, ht, hp1, hp2, hp3, hmu1, hsc1, hmu2, hsc2⟩ := newLoad_three hn h
  have ha := hpos a (List.mem_of_getElem? L.hA)
  have hb := hpos b (List.mem_of_getElem? L.hB)
  have h1 := hpos p1 (List.mem_of_getElem? hp1)
  have h2 := hpos p2 (List.mem_of_getElem? hp2)
  have h3 := hpos p3 (List.mem_of_getElem? hp3)
  have hkv := keepVel_of L hops
  unfold InElastic.interact3 at hi
  split at hi
  swap
  · cases hi
  rename_i f1 f2 f3 o1 o2 o3 hfacs hops'
  have k1 := hkv o1 (by rw [hops']; simp)
  have k2 := hkv o2 (by rw [hops']; simp)
  have k3 := hkv o3 (by rw [hops']; simp)
  simp only at hi
  split at hi
  swap
  · cases hi
  rename_i r1 r2 r3 speed hr1 hr2 hr3 hspeed
  simp only [Option.some.injEq, Prod.mk.injEq] at hi
  obtain ⟨hout, hs'⟩ := hi
  obtain ⟨u0, u1⟩ := hr s
  obtain ⟨hA1, hst1⟩ := isoVec_spec rng hr (speed * Real.sqrt (rng.rand s).1) (rng.rand s).2
  obtain ⟨hA2, hst2⟩ := isoVec_spec rng hr (speed * Real.sqrt (1 - (rng.rand s).1))
    (isoVec rng (speed * Real.sqrt (rng.rand s).1) (rng.rand s).2).2
  rw [L.hasE, L.dV] at hspeed
  have hmu : 0 < m.mu.value := by rw [L.mu]; exact reducedMass_pos ha hb
  have hw := ((calcVRel_spec hmu p.vel q.vel).1 speed hspeed).2
  set R1 := (isoVec rng (speed * Real.sqrt (rng.rand s).1) (rng.rand s).2).1
  set R2 := (isoVec rng (speed * Real.sqrt (1 - (rng.rand s).1))
    (isoVec rng (speed * Real.sqrt (rng.rand s).1) (rng.rand s).2).2).1
  rw [mul_pow, Real.sq_sqrt u0] at hA1
  rw [mul_pow, Real.sq_sqrt (by linarith)] at hA2
  obtain ⟨c1, c2⟩ := split_scaled h1 (add_pos h2 h3) hmu (velCM m.mu p.vel q.vel) R1
  rw [← hmu1, ← hsc1] at c1 c2
  obtain ⟨d1, d2⟩ := split_scaled h2 h3 hmu
    (velCM m.mu p.vel q.vel - (m.mu1.over_m2 * m.mu1Scale) • R1) R2
  rw [← hmu2, ← hsc2] at d1 d2
  obtain ⟨j1, j2⟩ := join_bodies ha hb p.vel q.vel
  rw [← L.mu] at j1 j2
  have hV : velCM m.mu p.vel q.vel = weightedMean a.mass b.mass p.vel q.vel := by
    rw [L.mu]; exact velCM_eq ha hb _ _
  set V := velCM m.mu p.vel q.vel
  have E : ke p1.mass (V + (m.mu1.over_m1 * m.mu1Scale) • R1) +
      (ke p2.mass (V - (m.mu1.over_m2 * m.mu1Scale) • R1 + (m.mu2.over_m1 * m.mu2Scale) • R2) +
       ke p3.mass (V - (m.mu1.over_m2 * m.mu1Scale) • R1 - (m.mu2.over_m2 * m.mu2Scale) • R2)) =
        ke a.mass p.vel + ke b.mass q.vel + dE +
          ke (p1.mass + (p2.mass + p3.mass) - (a.mass + b.mass)) V := by
    rw [d2, ← add_assoc, c2, hA1, hA2, ← j2]
    simp only [ke]
    linear_combination hw
  refine ⟨a, b, p1, p2, p3, _, _, _, L.hA, L.hB, by simp [ht, hp1, hp2, hp3], hout.symm, ?_, ?_, ?_, ?_⟩
  · rw [applyOps_vel k1, applyOps_vel k2, applyOps_vel k3, ← hV]
    rw [d1]; exact c1
  · rw [applyOps_vel k1, applyOps_vel k2, applyOps_vel k3, ← hV]; exact E
  · intro hm
    rw [applyOps_vel k1, applyOps_vel k2, applyOps_vel k3]
    refine ⟨?_, ?_⟩
    · rw [d1]
      refine c1.trans ?_
      rw [hm]; exact j1
    · refine E.trans ?_
      rw [hm]; simp [ke]
  · rw [← hs', hst2, hst1]; rfl

/-- **C48**  When the three-product interaction gives real velocities and positions. -/
theorem C48_defined_iff {db : Registry ℝ} {oc : OpsCompiler W} {e : LEq} {declared : Option ℝ}
    {threshold : ℝ} {m : InElastic W} (hn : ∀ t ∈ e.products, 0 ≤ t.n)
    (h : newLoad db oc e declared threshold = .ok (.three m)) (hpos : ∀ x ∈ db, 0 < x.mass)
    (rng : RNG S ℝ) (p q : Part W) (s : S) {a b : Props ℝ}
    (hA : db[e.A.species.toNat]? = some a) (hB : db[e.B.species.toNat]? = some b) :
    (∃ out s', m.interact3 rng p q s = some (out, s')) ↔
      0 ≤ 1 / 2 * (a.mass * b.mass / (a.mass + b.mass)) * (p.vel - q.vel).normSq
        + declared.getD (-threshold) ∧
      (UsesCQ m → a.charge + b.charge ≠ 0) := by
  obtain ⟨a', b', t1, t2, t3, p1, p2, p3, L, ht, _⟩ := newLoad_three hn h
  have ea : a' = a := by have := L.hA; rw [hA] at this; cases this; rfl
  have eb : b' = b := by have := L.hB; rw [hB] at this; cases this; rfl
  subst ea eb
  have ha := hpos a' (List.mem_of_getElem? L.hA)
  have hb := hpos b' (List.mem_of_getElem? L.hB)
  have hmu : 0 < m.mu.value := by rw [L.mu]; exact reducedMass_pos ha hb
  have hmuv : m.mu.value = a'.mass * b'.mass / (a'.mass + b'.mass) := by rw [L.mu]; rfl
  have hdef := (calcVRel_spec (dE := declared.getD (-threshold)) hmu p.vel q.vel).2
  rw [← L.dV, ← L.hasE] at hdef
  have lf := L.facs.length_eq
  have lw : (writtenProducts e.products).length = 3 := by
    have := congrArg List.length (writtenProducts_fst e.products); simpa [ht] using this
  have lo : m.ops.length = 3 := by rw [L.ops, List.length_map, productOps_length, ht]; rfl
  obtain ⟨f1, f2, f3, hfs⟩ := List.length_eq_three.1 (lf.symm.trans lw)
  obtain ⟨o1, o2, o3, hos⟩ := List.length_eq_three.1 lo
  have n1 := create_ne_none (p := p) (q := q) (show f1 ∈ m.facs by rw [hfs]; simp) L.muQ
  have n2 := create_ne_none (p := p) (q := q) (show f2 ∈ m.facs by rw [hfs]; simp) L.muQ
  have n3 := create_ne_none (p := p) (q := q) (show f3 ∈ m.facs by rw [hfs]; simp) L.muQ
  have hU : UsesCQ m ↔ f1.op = .cq ∨ f2.op = .cq ∨ f3.op = .cq := by simp [UsesCQ, hfs]
  rw [← hmuv, ← hdef, hU]
  unfold InElastic.interact3
  rw [hfs] at n1 n2 n3
  simp only [hfs, hos]
  generalize PFactory.create f1 p q _ = c1 at n1 ⊢
  generalize PFactory.create f2 p q _ = c2 at n2 ⊢
  generalize PFactory.create f3 p q _ = c3 at n3 ⊢
  generalize calcVRel _ _ _ _ = c4
  clear * - n1 n2 n3
  cases c1 <;> cases c2 <;> cases c3 <;> cases c4 <;>
    simp only [reduceCtorEq, true_iff, false_iff, ne_eq, not_true_eq_false, not_false_eq_true, exists_false,
      false_and, Option.some.injEq, Prod.mk.injEq, exists_eq', exists_and_left, true_and,
      not_and] at n1 n2 n3 ⊢ <;> tauto

/-! ## C49, C69 -/

/-- What a product is made from: a copy of one of the reactants, with the species of the product, and placed at the
position of that reactant, at the centre of mass or at the centre of charge.  A source written with
the product is obeyed. -/
def ProductOf (a b : Props ℝ) (p q : Part W) (w : Term × ℕ) (r : Part W) : Prop :=
  r.species = w.1.species ∧
  ∃ c, (c = p ∨ c = q) ∧ r.rest = c.rest ∧
    (r.pos = c.pos ∨ r.pos = weightedMean a.mass b.mass p.pos q.pos ∨
      (a.charge + b.charge ≠ 0 ∧ r.pos = weightedMean a.charge b.charge p.pos q.pos)) ∧
    (w.1.src[w.2]? = some 0 → c = p ∧ r.pos = p.pos) ∧
    (w.1.src[w.2]? = some 1 → c = q ∧ r.pos = q.pos) ∧
    (w.1.src[w.2]? = some 2 → r.pos = weightedMean a.mass b.mass p.pos q.pos) ∧
    (w.1.src[w.2]? = some 3 → r.pos = weightedMean a.charge b.charge p.pos q.pos)

theorem create_spec {m : InElastic W} {p q r : Part W} {f : PFactory} (hf : f ∈ m.facs) {a b : Props ℝ}
    (ha : 0 < a.mass) (hb : 0 < b.mass)
    (hmu : m.mu = ReducedMass.mk' a.mass b.mass) (hq : m.muQ = ReducedCharge.mk' a.charge b.charge)
    {w : Term × ℕ} (hw : FactoryFor w f)
    (h : f.create p q (Scratch.make m.facs p q m.mu m.muQ m.forceCM m.forceCQ) = some r) :
    ProductOf a b p q w r := by
  obtain ⟨w1, w2, w3, w4, w5, w6⟩ := hw
  unfold PFactory.create at h
  cases hop : f.op with
  | noop =>
    simp only [hop, Option.some.injEq] at h
    simp only [hop, reduceCtorEq, imp_false] at w5 w6
    subst h
    refine ⟨w1, if f.srcIdx = 0 then p else q, ?_, rfl, .inl rfl, ?_, ?_, fun h => absurd h w5,
      fun h => absurd h w6⟩
    · by_cases h0 : f.srcIdx = 0 <;> simp [h0]
    · intro h; have := (w3 h).1; simp [this]
    · intro h; have := (w4 h).1; simp [this]
  | cm =>
    simp only [hop, Option.some.injEq] at h
    simp only [hop, reduceCtorEq, and_false, imp_false] at w3 w4 w6
    have hany : m.facs.any (fun f => f.op == .cm) = true := List.any_eq_true.2 ⟨f, hf, by simp [hop]⟩
    obtain ⟨_, e1, e2⟩ := reducedMass_eq ha hb
    have hpos : r.pos = weightedMean a.mass b.mass p.pos q.pos := by
      rw [← h]
      simp only [Scratch.make, hany, Bool.or_true, if_true, hmu]
      rw [e1, e2, weighted_eq]
    refine ⟨by rw [← h]; exact w1, if f.srcIdx = 0 then p else q, ?_, by rw [← h], .inr (.inl hpos),
      fun h => absurd h w3, fun h => absurd h w4, fun _ => hpos, fun h => absurd h w6⟩
    by_cases h0 : f.srcIdx = 0 <;> simp [h0]
  | cq =>
    simp only [hop] at h
    simp only [hop, reduceCtorEq, and_false, imp_false] at w3 w4 w5
    have hany : m.facs.any (fun f => f.op == .cq) = true := List.any_eq_true.2 ⟨f, hf, by simp [hop]⟩
    have c1 := chargeRatio_eq a.charge b.charge
    have c2 := chargeRatio_eq b.charge a.charge
    rw [add_comm b.charge a.charge] at c2
    simp only [Scratch.make, hany, Bool.or_true, if_true, hq, ReducedCharge.mk'] at h
    by_cases h0 : a.charge + b.charge = 0
    · simp [c1.1 h0, c2.1 h0] at h
    · simp only [c1.2 h0, c2.2 h0, Option.map_some, Option.some.injEq] at h
      have hpos : r.pos = weightedMean a.charge b.charge p.pos q.pos := by
        rw [← h, weighted_eq]
      refine ⟨by rw [← h]; exact w1, if f.srcIdx = 0 then p else q, ?_, by rw [← h], .inr (.inr ⟨h0, hpos⟩),
        fun h => absurd h w3, fun h => absurd h w4, fun h => absurd h w5, fun _ => hpos⟩
      by_cases h0 : f.srcIdx = 0 <;> simp [h0]

/-- `m` is the loaded model of an equation with two or three products, and running it on `p` and `q` pushes `out`. -/
def Produces (db : Registry ℝ) (oc : OpsCompiler W) (e : LEq) (declared : Option ℝ) (threshold : ℝ)
    (rng : RNG S ℝ) (p q : Part W) (s : S) (out : List (Part W)) : Prop :=
  ∃ m s', (newLoad db oc e declared threshold = .ok (.two m) ∧ m.interact2 rng p q s = some (out, s')) ∨
    (newLoad db oc e declared threshold = .ok (.three m) ∧ m.interact3 rng p q s = some (out, s'))

private theorem interact2_created {m : InElastic W} {rng : RNG S ℝ} {p q : Part W} {s s' : S}
    {out : List (Part W)} (hi : m.interact2 rng p q s = some (out, s')) :
    List.Forall₂ (fun f (x : Part W) => ∃ r v o,
      f.create p q (Scratch.make m.facs p q m.mu m.muQ m.forceCM m.forceCQ) = some r ∧ o ∈ m.ops ∧
      x = applyOps o { r with vel := v } p q (Scratch.make m.facs p q m.mu m.muQ m.forceCM m.forceCQ))
      m.facs out := by
  unfold InElastic.interact2 at hi
  split at hi
  swap
  · cases hi
  rename_i f1 f2 o1 o2 hfacs hops
  simp only at hi
  split at hi
  swap
  · cases hi
  rename_i r1 r2 speed hr1 hr2 hspeed
  simp only [Option.some.injEq, Prod.mk.injEq] at hi
  obtain ⟨hout, hs'⟩ := hi
  rw [← hout, hops]
  rw [hfacs] at hr1 hr2 ⊢
  exact .cons ⟨r1, _, o1, hr1, by simp, rfl⟩ (.cons ⟨r2, _, o2, hr2, by simp, rfl⟩ .nil)

private theorem interact3_created {m : InElastic W} {rng : RNG S ℝ} {p q : Part W} {s s' : S}
    {out : List (Part W)} (hi : m.interact3 rng p q s = some (out, s')) :
    List.Forall₂ (fun f (x : Part W) => ∃ r v o,
      f.create p q (Scratch.make m.facs p q m.mu m.muQ m.forceCM m.forceCQ) = some r ∧ o ∈ m.ops ∧
      x = applyOps o { r with vel := v } p q (Scratch.make m.facs p q m.mu m.muQ m.forceCM m.forceCQ))
      m.facs out := by
  unfold InElastic.interact3 at hi
  split at hi
  swap
  · cases hi
  rename_i f1 f2 f3 o1 o2 o3 hfacs hops
  simp only at hi
  split at hi
  swap
  · cases hi
  rename_i r1 r2 r3 speed hr1 hr2 hr3 hspeed
  simp only [Option.some.injEq, Prod.mk.injEq] at hi
  obtain ⟨hout, hs'⟩ := hi
  rw [← hout, hops]
  rw [hfacs] at hr1 hr2 hr3 ⊢
  exact .cons ⟨r1, _, o1, hr1, by simp, rfl⟩ (.cons ⟨r2, _, o2, hr2, by simp, rfl⟩
      (.cons ⟨r3, _, o3, hr3, by simp, rfl⟩ .nil))

private theorem forall₂_trans {α β γ : Type} {R : α → β → Prop} {Q : β → γ → Prop} {l : List α} {m : List β}
    {n : List γ} (h1 : List.Forall₂ R l m) (h2 : List.Forall₂ Q m n) :
    List.Forall₂ (fun a c => ∃ b ∈ m, R a b ∧ Q b c) l n := by
  induction h1 generalizing n with
  | nil => cases h2; exact .nil
  | cons hr _ ih =>
    cases h2 with
    | cons hq h2 =>
      refine .cons ⟨_, by simp, hr, hq⟩ ((ih h2).imp ?_)
      rintro a c ⟨b, hb, h⟩
      exact ⟨b, List.mem_cons_of_mem _ hb, h⟩

private theorem produces_created {db : Registry ℝ} {oc : OpsCompiler W} {e : LEq} {declared : Option ℝ}
    {threshold : ℝ} (hn : ∀ t ∈ e.products, 0 ≤ t.n) {rng : RNG S ℝ} {p q : Part W} {s : S}
    {out : List (Part W)} (h : Produces db oc e declared threshold rng p q s out) :
    ∃ m a b, LoadedCommon db oc e (declared.getD (-threshold)) a b m ∧
      List.Forall₂ (fun w (x : Part W) => ∃ f ∈ m.facs, FactoryFor w f ∧ ∃ r v o,
        f.create p q (Scratch.make m.facs p q m.mu m.muQ m.forceCM m.forceCQ) = some r ∧ o ∈ m.ops ∧
        x = applyOps o { r with vel := v } p q (Scratch.make m.facs p q m.mu m.muQ m.forceCM m.forceCQ))
        (writtenProducts e.products) out := by
  obtain ⟨m, s', ⟨h1, h2⟩ | ⟨h1, h2⟩⟩ := h
  · obtain ⟨a, b, _, _, _, _, L, _⟩ := newLoad_two hn h1
    exact ⟨m, a, b, L, forall₂_trans L.facs (interact2_created h2)⟩
  · obtain ⟨a, b, _, _, _, _, _, _, L, _⟩ := newLoad_three hn h1
    exact ⟨m, a, b, L, forall₂_trans L.facs (interact3_created h2)⟩

/-- **C49**  The particles pushed are as many as the equation has products, and have their species in order, whatever
expressions are written with the products. -/
theorem C49_species_in_order {db : Registry ℝ} {oc : OpsCompiler W} {e : LEq} {declared : Option ℝ}
    {threshold : ℝ} (hn : ∀ t ∈ e.products, 0 ≤ t.n) (hpos : ∀ x ∈ db, 0 < x.mass)
    (rng : RNG S ℝ) (p q : Part W) (s : S) (out : List (Part W))
    (h : Produces db oc e declared threshold rng p q s out) :
    out.map Part.species = (expandTerms e.products).map Term.species := by
  obtain ⟨m, a, b, L, hF⟩ := produces_created hn h
  have ha := hpos a (List.mem_of_getElem? L.hA)
  have hb := hpos b (List.mem_of_getElem? L.hB)
  rw [← writtenProducts_fst, List.map_map]
  have : List.Forall₂ (fun (w : Term × ℕ) (x : Part W) => x.species = w.1.species)
      (writtenProducts e.products) out := by
    refine hF.imp ?_
    rintro w x ⟨f, hf, hw, r, v, o, hr, _, rfl⟩
    rw [applyOps_species]
    exact (create_spec hf ha hb L.mu L.muQ hw hr).1
  clear hF h
  generalize writtenProducts e.products = l at this
  induction this with
  | nil => rfl
  | cons h _ ih => simp only [List.map_cons, ih, h, Function.comp]

/-- **C49**  Apart from velocity, species and placement a product is a copy of one of the reactants: of the one it was
written with, if any. -/
theorem C49_copies_and_placement {db : Registry ℝ} {oc : OpsCompiler W} {e : LEq}
    {declared : Option ℝ} {threshold : ℝ} (hn : ∀ t ∈ e.products, 0 ≤ t.n) (hpos : ∀ x ∈ db, 0 < x.mass)
    (hno : NoOps e) (rng : RNG S ℝ) (p q : Part W) (s : S) (out : List (Part W))
    (h : Produces db oc e declared threshold rng p q s out) :
    ∃ a b, db[e.A.species.toNat]? = some a ∧ db[e.B.species.toNat]? = some b ∧
      List.Forall₂ (ProductOf a b p q) (writtenProducts e.products) out := by
  obtain ⟨m, a, b, L, hF⟩ := produces_created hn h
  have ha := hpos a (List.mem_of_getElem? L.hA)
  have hb := hpos b (List.mem_of_getElem? L.hB)
  refine ⟨a, b, L.hA, L.hB, hF.imp ?_⟩
  rintro w x ⟨f, hf, hw, r, v, o, hr, ho, rfl⟩
  rw [ops_none L hno o ho]
  have := create_spec hf ha hb L.mu L.muQ hw hr
  exact this

/-- **C69**  Where a product with a written source is placed: at a reactant, at the centre of mass, or at the
centre of charge. -/
theorem C69_placement {db : Registry ℝ} {oc : OpsCompiler W} {e : LEq}
    {declared : Option ℝ} {threshold : ℝ} (hn : ∀ t ∈ e.products, 0 ≤ t.n) (hpos : ∀ x ∈ db, 0 < x.mass)
    (hno : NoOps e) (rng : RNG S ℝ) (p q : Part W) (s : S) (out : List (Part W))
    (h : Produces db oc e declared threshold rng p q s out) {a b : Props ℝ}
    (hA : db[e.A.species.toNat]? = some a) (hB : db[e.B.species.toNat]? = some b)
    (k : ℕ) (w : Term × ℕ) (hw : (writtenProducts e.products)[k]? = some w) :
    ∃ r, out[k]? = some r ∧
    (w.1.src[w.2]? = some 2 → r.pos = (1 / (a.mass + b.mass)) • (a.mass • p.pos + b.mass • q.pos)) ∧
    (w.1.src[w.2]? = some 3 → r.pos = (1 / (a.charge + b.charge)) • (a.charge • p.pos + b.charge • q.pos)) ∧
    (w.1.src[w.2]? = some 0 → r.pos = p.pos) ∧ (w.1.src[w.2]? = some 1 → r.pos = q.pos) := by
  obtain ⟨a', b', hA', hB', hF⟩ := C49_copies_and_placement hn hpos hno rng p q s out h
  rw [hA] at hA'; cases hA'
  rw [hB] at hB'; cases hB'
  have hlen := hF.length_eq
  rw [List.forall₂_iff_get] at hF
  obtain ⟨hk, hk'⟩ := List.getElem?_eq_some_iff.1 hw
  have := hF.2 k hk (by omega)
  simp only [List.get_eq_getElem, hk'] at this
  obtain ⟨_, c, _, _, _, x0, x1, x2, x3⟩ := this
  exact ⟨_, List.getElem?_eq_getElem (by omega), x2, x3, fun h => (x0 h).2, fun h => (x1 h).2⟩

/-! ## C70 -/

/-- What loading from a document guarantees about an equation. -/
structure WellFormed (db : Registry ℝ) (e : LEq) : Prop where
  hA : ∃ a, db[e.A.species.toNat]? = some a
  hB : ∃ b, db[e.B.species.toNat]? = some b
  count : ∀ t ∈ e.products, 0 ≤ t.n
  sizes : ∀ t ∈ e.products, t.n = t.src.length ∧ t.n = t.ops.length
  species : ∀ t ∈ e.products, ∃ p, db[t.species.toNat]? = some p

/-- **C70**  Equations read from a document are well formed. -/
theorem C70_loaded_wellFormed {db : Registry ℝ} (hnd : NodupNames db) {cs ms : List String} {x : EqNode}
    (hpos : ∀ t ∈ x.ins, 0 < t.mult) {e : LEq} (h : loadEq db cs ms x = .ok e) : WellFormed db e := by
  have get : ∀ p ∈ db, ∃ a, db[(findParticleIndx db p.name).toNat]? = some a := by
    intro p hp
    obtain ⟨i, hi, ei⟩ := idx_of_mem hnd hp
    exact ⟨p, by rw [ei]; simpa using hi⟩
  obtain ⟨p, q, hp, hq, _, _, eA, eB⟩ := C12_reactants hnd hpos h
  obtain ⟨ins, outs, nOut, a1, a2, a3, a4, a5, a6, a7, a8⟩ := loadEq_ok h
  obtain ⟨inv, htot⟩ := (loadAndSortTerms_spec hnd x.outs).2 _ _ a2
  have kout := load_nonneg hnd a2
  have hnno : ∀ t ∈ x.outs, 0 ≤ t.mult := fun t ht => (kout t ht).1
  rw [outputTerms_loaded hnd a2] at a4
  have hprod : e.products = outs.map (fun e => ⟨findParticleIndx db e.1.name, e.2.n, e.2.src, e.2.ops⟩) :=
    (Except.ok.inj a4).symm
  refine ⟨by rw [eA]; exact get p hp, by rw [eB]; exact get q hq, (C15_loaded_products hnd h).1, ?_, ?_⟩
  · intro t ht
    rw [hprod] at ht
    obtain ⟨⟨r, i⟩, he, rfl⟩ := List.mem_map.1 ht
    obtain ⟨_, _, rfl⟩ := (inv.mem r i).1 he
    exact infoOf_sizes hnno _
  · intro t ht
    rw [hprod] at ht
    obtain ⟨⟨r, i⟩, he, rfl⟩ := List.mem_map.1 ht
    obtain ⟨hr, _, rfl⟩ := (inv.mem r i).1 he
    exact get r hr

theorem mapM_range_isSome {α : Type} (f : ℕ → Option α) : ∀ n : ℕ, (∀ i, i < n → ∃ a, f i = some a) →
    ∃ l, (List.range n).mapM f = some l := by
  intro n
  induction n with
  | zero => intro _; exact ⟨[], rfl⟩
  | succ n ih =>
    intro h
    obtain ⟨l, hl⟩ := ih (fun i hi => h i (by omega))
    obtain ⟨a, ha⟩ := h n (by omega)
    exact ⟨l ++ [a], by
      rw [List.range_succ, List.mapM_append, hl]
      simp [ha]⟩

theorem productTuples_isSome {db : Registry ℝ} : ∀ ts : List Term,
    (∀ t ∈ ts, t.n = t.src.length ∧ ∃ p, db[t.species.toNat]? = some p) →
    ∃ outs, productTuples db ts = some outs := by
  intro ts
  induction ts with
  | nil => intro _; exact ⟨[], rfl⟩
  | cons t ts ih =>
    intro h
    obtain ⟨b, hb⟩ := ih (fun t ht => h t (List.mem_cons_of_mem _ ht))
    obtain ⟨hl, p, hp⟩ := h t List.mem_cons_self
    obtain ⟨a, ha⟩ := mapM_range_isSome
      (fun ni => (t.src[ni]?).bind fun f => tupleOf db t.species f) t.n.toNat (by
        intro i hi
        have : i < t.src.length := by omega
        refine ⟨⟨p.mass, p.charge, t.species, t.src[i]⟩, ?_⟩
        rw [List.getElem?_eq_getElem this]
        simp only [Option.bind_some, tupleOf, hp, Option.map_some])
    refine ⟨a ++ b, ?_⟩
    have ha' : termTuples db t = some a := ha
    unfold productTuples
    simp only [ha', hb]

/-- The tuples in terms of the database. -/
theorem tuples_of_products {db : Registry ℝ} {ts : List Term} {outs : List (MC ℝ)}
    (h : productTuples db ts = some outs) {ps : List (Props ℝ)}
    (hp : (expandTerms ts).map (fun t => db[t.species.toNat]?) = ps.map some) :
    outs.map MC.mass = ps.map Props.mass ∧ outs.map MC.charge = ps.map Props.charge := by
  have h1 := productTuples_some db ts outs h
  rw [← writtenProducts_fst, List.map_map] at hp
  clear h
  generalize writtenProducts ts = l at h1 hp
  induction h1 generalizing ps with
  | nil =>
    have : ps = [] := by simpa using hp.symm
    subst this; simp
  | cons hr _ ih =>
    obtain ⟨_, _, p, h2, h3, h4⟩ := hr
    cases ps with
    | nil => simp at hp
    | cons x ps =>
      simp only [List.map_cons, List.cons.injEq, Function.comp] at hp
      obtain ⟨e1, e2⟩ := ih hp.2
      rw [hp.1] at h2
      cases h2
      simp [e1, e2, h3, h4]

theorem src_of_products {db : Registry ℝ} {ts : List Term} {outs : List (MC ℝ)}
    (h : productTuples db ts = some outs) {P : ℤ → Prop} (hP : ∀ t ∈ ts, ∀ k ∈ t.src, P k) :
    ∀ o ∈ outs, P o.src := by
  intro o ho
  obtain ⟨w, hw, _, hs, _⟩ := forall₂_mem_right' (productTuples_some db ts outs h) o ho
  have hw' : w.1 ∈ ts := by
    simp only [writtenProducts, List.mem_flatMap, List.mem_map] at hw
    obtain ⟨t, ht, i, _, rfl⟩ := hw
    exact ht
  exact hP w.1 hw' _ (List.mem_of_getElem? hs)

/-- The common part of C70. -/
private theorem load_factories {db : Registry ℝ} {e : LEq} (hw : WellFormed db e)
    (hpos : ∀ x ∈ db, 0 < x.mass) (hsrc : ∀ t ∈ e.products, ∀ k ∈ t.src, k < 4) {a b : Props ℝ}
    (hA : db[e.A.species.toNat]? = some a) (hB : db[e.B.species.toNat]? = some b) {ps : List (Props ℝ)}
    (hps : (expandTerms e.products).map (fun t => db[t.species.toNat]?) = ps.map some) (hne : ps ≠ [])
    (hsafe : ∀ (k : ℕ) (x : Props ℝ), ps[k]? = some x → 2 ≤ k → x.mass ≠ a.mass ∧ x.mass ≠ b.mass) :
    ∃ outs, productTuples db e.products = some outs ∧
      ((∃ s fs, setParticleFactories [⟨a.mass, a.charge, e.A.species, -1⟩, ⟨b.mass, b.charge, e.B.species, -1⟩]
        outs = .ok (s, fs)) ↔
        (a.charge + b.charge = 0 ↔ (ps.map Props.charge).sum = 0)) := by
  obtain ⟨outs, ho⟩ := productTuples_isSome e.products (fun t ht => ⟨(hw.sizes t ht).1, hw.species t ht⟩)
  obtain ⟨em, eq⟩ := tuples_of_products ho hps
  refine ⟨outs, ho, ?_⟩
  have ha := hpos a (List.mem_of_getElem? hA)
  have hb := hpos b (List.mem_of_getElem? hB)
  have hpsdb : ∀ x ∈ ps, x ∈ db := by
    intro x hx
    have : some x ∈ ps.map some := List.mem_map_of_mem hx
    rw [← hps] at this
    obtain ⟨t, _, ht⟩ := List.mem_map.1 this
    exact List.mem_of_getElem? ht
  have hmass : (ps.map Props.mass).sum ≠ 0 := by
    cases ps with
    | nil => exact absurd rfl hne
    | cons x l =>
      have h1 := hpos x (hpsdb x List.mem_cons_self)
      have h2 : 0 ≤ (l.map Props.mass).sum := by
        apply List.sum_nonneg
        intro y hy
        obtain ⟨z, hz, rfl⟩ := List.mem_map.1 hy
        exact (hpos z (hpsdb z (List.mem_cons_of_mem _ hz))).le
      simp only [List.map_cons, List.sum_cons]
      positivity
  have key := (C52_totals [⟨a.mass, a.charge, e.A.species, -1⟩, ⟨b.mass, b.charge, e.B.species, -1⟩] outs
    (by intro o ho'; have := src_of_products ho (P := (· < 4)) hsrc o ho'; simpa using this)
    (by
      intro k o hk hk2 x hx
      have h1 : (outs.map MC.mass)[k]? = some o.mass := by simp [hk]
      rw [em, List.getElem?_map, Option.map_eq_some_iff] at h1
      obtain ⟨y, hy, hym⟩ := h1
      have := hsafe k y hy (by simpa using hk2)
      simp only [List.mem_cons, List.not_mem_nil, or_false] at hx
      rw [← hym]
      rcases hx with rfl | rfl
      · exact this.1.symm
      · exact this.2.symm)).2.2.2.2
  rw [key, em, eq]
  have hab : a.mass + b.mass ≠ 0 := by positivity
  simp only [List.map_cons, List.map_nil, List.sum_cons, List.sum_nil, add_zero, hmass, hab, iff_self, true_and]

/-- **C70**  A well formed equation with two products, written with valid sources, gives a two-product model exactly
if reactants and products are both neutral or both not. -/
theorem C70_two_products {db : Registry ℝ} (oc : OpsCompiler W) {e : LEq} (hw : WellFormed db e)
    (declared : Option ℝ) (threshold : ℝ)
    (hpos : ∀ x ∈ db, 0 < x.mass) (hsrc : ∀ t ∈ e.products, ∀ k ∈ t.src, k < 4) {a b p1 p2 : Props ℝ}
    (hA : db[e.A.species.toNat]? = some a) (hB : db[e.B.species.toNat]? = some b)
    (hps : (expandTerms e.products).map (fun t => db[t.species.toNat]?) = [some p1, some p2]) :
    (∃ m : InElastic W, newLoad db oc e declared threshold = .ok (.two m)) ↔
      (a.charge + b.charge = 0 ↔ p1.charge + p2.charge = 0) := by
  obtain ⟨outs, ho, hf⟩ := load_factories hw hpos hsrc hA hB (ps := [p1, p2]) hps (by simp)
    (by intro k x hk h2; exfalso; obtain ⟨h, _⟩ := List.getElem?_eq_some_iff.1 hk; simp at h; omega)
  simp only [List.map_cons, List.map_nil, List.sum_cons, List.sum_nil, add_zero] at hf
  rw [← hf]
  have hlen : (expandTerms e.products).length = 2 := by have := congrArg List.length hps; simpa using this
  obtain ⟨t1, t2, ht⟩ := List.length_eq_two.1 hlen
  have hcount : countComponents e.products = 2 := by
    rw [C15_number_of_products _ hw.count, hlen]; rfl
  rw [ht] at hps
  simp only [List.map_cons, List.map_nil, List.cons.injEq, and_true] at hps
  unfold newLoad
  simp only [hcount, C15_product_indexing _ hw.count, ht, tupleOf, hA, hB, ho, hps.1, hps.2, Option.map_some,
    true_or, if_true, List.getElem?_cons_zero, List.getElem?_cons_succ, Option.bind_some]
  cases hF : setParticleFactories [⟨a.mass, a.charge, e.A.species, -1⟩, ⟨b.mass, b.charge, e.B.species, -1⟩]
    outs with
  | error x => simp
  | ok sf => obtain ⟨x, fs⟩ := sf; simp

/-- **C70**  The same for three products, provided the third has not the mass of a reactant. -/
theorem C70_three_products {db : Registry ℝ} (oc : OpsCompiler W) {e : LEq} (hw : WellFormed db e)
    (declared : Option ℝ) (threshold : ℝ)
    (hpos : ∀ x ∈ db, 0 < x.mass) (hsrc : ∀ t ∈ e.products, ∀ k ∈ t.src, k < 4) {a b p1 p2 p3 : Props ℝ}
    (hA : db[e.A.species.toNat]? = some a) (hB : db[e.B.species.toNat]? = some b)
    (hps : (expandTerms e.products).map (fun t => db[t.species.toNat]?) = [some p1, some p2, some p3])
    (hsafe : p3.mass ≠ a.mass ∧ p3.mass ≠ b.mass) :
    (∃ m : InElastic W, newLoad db oc e declared threshold = .ok (.three m)) ↔
      (a.charge + b.charge = 0 ↔ p1.charge + (p2.charge + p3.charge) = 0) := by
  obtain ⟨outs, ho, hf⟩ := load_factories hw hpos hsrc hA hB (ps := [p1, p2, p3]) hps (by simp)
    (by
      intro k x hk h2
      obtain ⟨h, hx⟩ := List.getElem?_eq_some_iff.1 hk
      have : k = 2 := by simp at h; omega
      subst this
      simp only [List.getElem_cons_succ, List.getElem_cons_zero] at hx
      rw [← hx]; exact hsafe)
  simp only [List.map_cons, List.map_nil, List.sum_cons, List.sum_nil, add_zero] at hf
  rw [← hf]
  have hlen : (expandTerms e.products).length = 3 := by have := congrArg List.length hps; simpa using this
  obtain ⟨t1, t2, t3, ht⟩ := List.length_eq_three.1 hlen
  have hcount : countComponents e.products = 3 := by
    rw [C15_number_of_products _ hw.count, hlen]; rfl
  rw [ht] at hps
  simp only [List.map_cons, List.map_nil, List.cons.injEq, and_true] at hps
  unfold newLoad
  simp only [hcount, C15_product_indexing _ hw.count, ht, tupleOf, hA, hB, ho, hps.1, hps.2.1, hps.2.2,
    Option.map_some, or_true, if_true, List.getElem?_cons_zero, List.getElem?_cons_succ, Option.bind_some,
    show (3 : ℤ) ≠ 2 by decide, if_false]
  cases hF : setParticleFactories [⟨a.mass, a.charge, e.A.species, -1⟩, ⟨b.mass, b.charge, e.B.species, -1⟩]
    outs with
  | error x => simp
  | ok sf => obtain ⟨x, fs⟩ := sf; simp

/-- **C70**  Any other number of products loads as an object that cannot interact. -/
theorem C70_other_counts {db : Registry ℝ} (oc : OpsCompiler W) {e : LEq} (hw : WellFormed db e)
    (declared : Option ℝ) (threshold : ℝ)
    (h2 : (expandTerms e.products).length ≠ 2) (h3 : (expandTerms e.products).length ≠ 3) :
    newLoad db oc e declared threshold = .ok .unsupported := by
  unfold newLoad
  rw [C15_number_of_products _ hw.count]
  have : ¬ (((expandTerms e.products).length : ℤ) = 2 ∨ ((expandTerms e.products).length : ℤ) = 3) := by omega
  simp only [this, if_false]

/-- Electron, hydrogen, excited hydrogen and its ion, with masses that add up. -/
def exReal : Registry ℝ := [⟨"e", 1, -1⟩, ⟨"H", 2000, 0⟩, ⟨"H*", 2000, 0⟩, ⟨"H+", 1999, 1⟩]

/-- `e + H --> e + H*` -/
def exExcite : LEq := ⟨Term.single 0, Term.single 1, [Term.single 0, Term.single 2], "c", "inelastic"⟩

/-- `e + H --> 2 e + H+`, the ion placed at the centre of mass -/
def exIonize : LEq := ⟨Term.single 0, Term.single 1, [⟨0, 2, [-1, -1], ["", ""]⟩, ⟨3, 1, [2], [""]⟩], "c",
  "inelastic"⟩

theorem exReal_pos : ∀ x ∈ exReal, 0 < x.mass := by
  intro x hx
  simp only [exReal, List.mem_cons, List.not_mem_nil, or_false] at hx
  rcases hx with rfl | rfl | rfl | rfl <;> norm_num

theorem exExcite_wf : WellFormed exReal exExcite :=
  ⟨⟨_, rfl⟩, ⟨_, rfl⟩, by simp [exExcite, Term.single], by simp [exExcite, Term.single],
    by simp [exExcite, Term.single, exReal]⟩

theorem exIonize_wf : WellFormed exReal exIonize :=
  ⟨⟨_, rfl⟩, ⟨_, rfl⟩, by simp [exIonize], by simp [exIonize], by simp [exIonize, exReal]⟩

/-- An excitation with the energy taken from a threshold of 10: it loads, and an electron of speed 5 (energy 12.5,
hardly less in the centre of mass) excites the atom at rest. -/
theorem exExcite_runs (oc : OpsCompiler W) (w : W) (rng : RNG S ℝ) (s : S) : ∃ (m : InElastic W)
    (out : List (Part W)) (s' : S), newLoad exReal oc exExcite none 10 = .ok (.two m) ∧ NoOps exExcite ∧
    m.interact2 rng ⟨0, ⟨5, 0, 0⟩, 0, w⟩ ⟨0, 0, 1, w⟩ s = some (out, s') := by
  obtain ⟨m, hm⟩ := (C70_two_products oc exExcite_wf none 10 exReal_pos
    (by simp [exExcite, Term.single]) (a := ⟨"e", 1, -1⟩) (b := ⟨"H", 2000, 0⟩) (p1 := ⟨"e", 1, -1⟩)
    (p2 := ⟨"H*", 2000, 0⟩) rfl rfl rfl).2 (by norm_num)
  obtain ⟨out, s', h⟩ := (C47_defined_iff exExcite_wf.count hm exReal_pos rng
    (⟨0, ⟨5, 0, 0⟩, 0, w⟩ : Part W) ⟨0, ⟨0, 0, 0⟩, 1, w⟩ s (a := ⟨"e", 1, -1⟩) (b := ⟨"H", 2000, 0⟩) rfl rfl).2
    ⟨by simp [Vec.normSq]; norm_num, by norm_num⟩
  exact ⟨m, out, s', hm, by simp [NoOps, exExcite, productOps, Term.single], h⟩

/-- The same electron cannot when it has speed 4. -/
example (oc : OpsCompiler W) (w : W) (rng : RNG S ℝ) (s : S) (m : InElastic W)
    (hm : newLoad exReal oc exExcite none 10 = .ok (.two m)) :
    ¬ ∃ out s', m.interact2 rng ⟨0, ⟨4, 0, 0⟩, 0, w⟩ ⟨0, ⟨0, 0, 0⟩, 1, w⟩ s = some (out, s') := by
  rw [C47_defined_iff exExcite_wf.count hm exReal_pos rng _ _ s (a := ⟨"e", 1, -1⟩) (b := ⟨"H", 2000, 0⟩) rfl rfl]
  simp [Vec.normSq]
  norm_num

/-- Ionisation with a declared energy change of -13, the ion at the centre of mass. -/
theorem exIonize_runs (oc : OpsCompiler W) (w : W) (rng : RNG S ℝ) (s : S) : ∃ (m : InElastic W)
    (out : List (Part W)) (s' : S), newLoad exReal oc exIonize (some (-13)) 0 = .ok (.three m) ∧
    NoOps exIonize ∧
    m.interact3 rng ⟨0, ⟨6, 0, 0⟩, 0, w⟩ ⟨⟨2001, 0, 0⟩, ⟨0, 0, 0⟩, 1, w⟩ s = some (out, s') := by
  obtain ⟨m, hm⟩ := (C70_three_products oc exIonize_wf (some (-13)) 0 exReal_pos
    (by simp [exIonize]) (a := ⟨"e", 1, -1⟩) (b := ⟨"H", 2000, 0⟩) (p1 := ⟨"e", 1, -1⟩)
    (p2 := ⟨"e", 1, -1⟩) (p3 := ⟨"H+", 1999, 1⟩) rfl rfl rfl (by norm_num)).2 (by norm_num)
  obtain ⟨out, s', h⟩ := (C48_defined_iff exIonize_wf.count hm exReal_pos rng
    (⟨0, ⟨6, 0, 0⟩, 0, w⟩ : Part W) ⟨⟨2001, 0, 0⟩, ⟨0, 0, 0⟩, 1, w⟩ s (a := ⟨"e", 1, -1⟩)
    (b := ⟨"H", 2000, 0⟩) rfl rfl).2
    ⟨by simp [Vec.normSq]; norm_num, by norm_num⟩
  exact ⟨m, out, s', hm, by unfold NoOps; decide, h⟩

/-- So the ion is found at `2000/2001` of the way from the electron to the atom. -/
example (oc : OpsCompiler W) (w : W) (rng : RNG S ℝ) (s : S) : ∃ out,
    Produces exReal oc exIonize (some (-13)) 0 rng ⟨0, ⟨6, 0, 0⟩, 0, w⟩ ⟨⟨2001, 0, 0⟩, ⟨0, 0, 0⟩, 1, w⟩ s out ∧
    out.map Part.species = [0, 0, 3] ∧ ∃ r, out[2]? = some r ∧ r.pos = ⟨2000, 0, 0⟩ := by
  obtain ⟨m, out, s', h1, h2, h3⟩ := exIonize_runs oc w rng s
  have hP : Produces exReal oc exIonize (some (-13)) 0 rng ⟨0, ⟨6, 0, 0⟩, 0, w⟩
      ⟨⟨2001, 0, 0⟩, ⟨0, 0, 0⟩, 1, w⟩ s out := ⟨m, s', .inr ⟨h1, h3⟩⟩
  refine ⟨out, hP, ?_, ?_⟩
  · rw [C49_species_in_order exIonize_wf.count exReal_pos rng _ _ s out hP]; decide
  · obtain ⟨r, hr, hcm, _⟩ := C69_placement exIonize_wf.count exReal_pos h2 rng _ _ s out hP
      (a := ⟨"e", 1, -1⟩) (b := ⟨"H", 2000, 0⟩) rfl rfl 2 (⟨3, 1, [2], [""]⟩, 0) rfl
    refine ⟨r, hr, ?_⟩
    rw [hcm rfl]
    ext <;> simp [show (0 : Vec) = ⟨0, 0, 0⟩ from rfl] <;> norm_num

end Chimp
