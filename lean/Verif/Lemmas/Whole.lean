import Verif.Model.Whole
import Verif.Props.DriverRun
import Verif.Props.Threshold
import Verif.Props.Table

/-!
# Lemmas for `Model/Whole.lean`
-/

namespace Chimp

variable {S W : Type}

instance : Neg Vec := ⟨fun a => ⟨-a.x, -a.y, -a.z⟩⟩

theorem Vec.neg_x (a : Vec) : (-a).x = -a.x := rfl
theorem Vec.neg_y (a : Vec) : (-a).y = -a.y := rfl
theorem Vec.neg_z (a : Vec) : (-a).z = -a.z := rfl
theorem Vec.zero_x : (0 : Vec).x = 0 := rfl
theorem Vec.zero_y : (0 : Vec).y = 0 := rfl
theorem Vec.zero_z : (0 : Vec).z = 0 := rfl

instance : AddCommGroup Vec where
  add_assoc a b c := by ext <;> simp only [Vec.add_x, Vec.add_y, Vec.add_z, add_assoc]
  zero_add a := by ext <;> simp only [Vec.add_x, Vec.add_y, Vec.add_z, Vec.zero_x, Vec.zero_y, Vec.zero_z, zero_add]
  add_zero a := by ext <;> simp only [Vec.add_x, Vec.add_y, Vec.add_z, Vec.zero_x, Vec.zero_y, Vec.zero_z, add_zero]
  nsmul := nsmulRec
  zsmul := zsmulRec
  neg_add_cancel a := by
    ext <;> simp only [Vec.add_x, Vec.add_y, Vec.add_z, Vec.zero_x, Vec.zero_y, Vec.zero_z, Vec.neg_x, Vec.neg_y,
      Vec.neg_z, neg_add_cancel]
  sub_eq_add_neg a b := by
    ext <;> simp only [Vec.add_x, Vec.add_y, Vec.add_z, Vec.sub_x, Vec.sub_y, Vec.sub_z, Vec.neg_x, Vec.neg_y,
      Vec.neg_z, sub_eq_add_neg]
  add_comm a b := by ext <;> simp only [Vec.add_x, Vec.add_y, Vec.add_z, add_comm]

theorem RNG.Valid.unit {rng : RNG S ℝ} (h : rng.Valid) : rng.Unit := h.rand_mem

/-- What a completed equation consists of. -/
theorem completeEq_ok {T : Tools W} {db : Registry ℝ} {e : LEq} {d : InterDoc} {w : WEq W}
    (h : completeEq T db e d = .ok w) :
    ∃ a b, db[e.A.species.toNat]? = some a ∧ db[e.B.species.toNat]? = some b ∧ w.eq = e ∧
      w.mu = ReducedMass.mk' a.mass b.mass ∧
      d.cs.load T.solve T.extrapolate (a.mass * b.mass / (a.mass + b.mass)) = .ok w.cs ∧
      loadModel T db e d w.cs = .ok w.model ∧ w.declared = d.declared ∧ d.cs.label = e.csModel := by
  unfold completeEq at h
  split at h
  swap
  · cases h
  rename_i a b hA hB
  simp only at h
  split at h
  swap
  · cases h
  rename_i hl
  split at h
  · cases h
  rename_i cs hcs
  split at h
  · cases h
  rename_i m hm
  cases h
  exact ⟨a, b, hA, hB, rfl, rfl, hcs, hm, rfl, hl⟩

theorem loadModel_ok {T : Tools W} {db : Registry ℝ} {e : LEq} {d : InterDoc} {cs : XSec} {m : IModel W}
    (h : loadModel T db e d cs = .ok m) :
    (e.model = "elastic" ∧ m = .elastic) ∨ (e.model = "vss_elastic" ∧ m = .vss d.vssParamInv) ∨
    (e.model = "inelastic" ∧ ∃ i, m = .inelastic i ∧ newLoad db T.oc e d.declared cs.thrE = .ok i) := by
  unfold loadModel at h
  split at h
  · rename_i h1; cases h; exact .inl ⟨h1, rfl⟩
  · split at h
    · rename_i h1; cases h; exact .inr (.inl ⟨h1, rfl⟩)
    · split at h
      · rename_i h1
        split at h
        · cases h
        · rename_i i hi; cases h; exact .inr (.inr ⟨h1, i, rfl, hi⟩)
      · cases h

/-- Collision models in general: the two velocities afterwards are split from the centre of mass, so momentum is
conserved. -/
theorem vss_momentum (pow : ℝ → ℝ → ℝ) (k : ℝ) (rng : RNG S ℝ) {m1 m2 : ℝ} (h1 : 0 < m1) (h2 : 0 < m2)
    (inplace : Bool) (p q : Part W) (s : S) : ∃ a b s',
      vssAct pow k rng (ReducedMass.mk' m1 m2) inplace p q s = collided inplace p q a b s' ∧
      m1 • a + m2 • b = m1 • p.vel + m2 • q.vel := by
  obtain ⟨j1, j2⟩ := join_bodies h1 h2 p.vel q.vel
  obtain ⟨k1, k2, k3⟩ := split_body h1 h2 (velCM (ReducedMass.mk' m1 m2) p.vel q.vel)
    (vssPost (p.vel - q.vel) (2 * pow (rng.rand s).1 k - 1) (2 * Real.pi * (rng.rand (rng.rand s).2).1))
  exact ⟨_, _, _, by cases inplace <;> rfl, k1.trans j1⟩

theorem toEqn_rhs {T : Tools W} {n : ℕ} {eqs : ℕ → ℕ → List (WEq W)} {c : CellConst S W} {A B j : ℕ}
    {e : Eqn (Part W) S ℝ} (h : ((wholeEnv T n eqs c).rhs A B)[j]? = some e) :
    ∃ w, (eqs A B)[j]? = some w ∧ e = w.toEqn T c.rng c.inplace := by
  simp only [wholeEnv, List.getElem?_map, Option.map_eq_some_iff] at h
  obtain ⟨w, hw, rfl⟩ := h
  exact ⟨w, hw, rfl⟩

/-- The reactants keep their species, whatever the model. -/
theorem act_keeps_species {T : Tools W} {rng : RNG S ℝ} {ip : Bool} {w : WEq W} {p q : Part W} {s : S}
    {r : Part W × Part W × List (Part W) × S} (h : w.act T rng ip p q s = some r) :
    r.1.species = p.species ∧ r.2.1.species = q.species := by
  have hcol : ∀ (f : Vec → Vec → S → Vec × Vec × S), (actWith f ip p q s).1.species = p.species ∧
      (actWith f ip p q s).2.1.species = q.species := by
    intro f
    cases ip <;> exact ⟨rfl, rfl⟩
  unfold WEq.act at h
  split at h
  · cases h; exact hcol _
  · cases h; exact hcol _
  · obtain ⟨x, -, rfl⟩ := Option.map_eq_some_iff.1 h; exact ⟨rfl, rfl⟩
  · obtain ⟨x, -, rfl⟩ := Option.map_eq_some_iff.1 h; exact ⟨rfl, rfl⟩
  · cases h

theorem wholeEnv_keeps (T : Tools W) (n : ℕ) (eqs : ℕ → ℕ → List (WEq W)) (c : CellConst S W) :
    InPlaceKeeps (wholeEnv T n eqs c) (wholeEnv T n eqs c).species := by
  intro A B e he a b s
  obtain ⟨w, -, rfl⟩ := List.mem_map.1 he
  show (((w.act T c.rng c.inplace a b s).getD (a, b, [], s)).1.species.toNat = _ ∧
    ((w.act T c.rng c.inplace a b s).getD (a, b, [], s)).2.1.species.toNat = _)
  cases h : w.act T c.rng c.inplace a b s with
  | none => exact ⟨rfl, rfl⟩
  | some r =>
    obtain ⟨h1, h2⟩ := act_keeps_species h
    exact ⟨congrArg _ h1, congrArg _ h2⟩

end Chimp
