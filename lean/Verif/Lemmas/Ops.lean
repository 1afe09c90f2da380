import Verif.Model.Ops
import Mathlib.Tactic.IntervalCases

/-!
# Meaning of `ops` expressions, and that evaluation computes it
-/

namespace Chimp

variable {S W Q : Type}

/-- What expressions can refer to: the reactants, the charges of species, the centre of mass and the
centre of charge. -/
structure OpsWorld (W : Type) where
  p : Part W
  q : Part W
  charge : ℤ → Option ℝ
  cm : Vec
  cq : Option Vec

/-- What expressions can do to their product: give it a position, a velocity, a weight. -/
structure OpsUpdate where
  pos : Option Vec := none
  vel : Option Vec := none
  weight : Option ℝ := none

/-- One update after another: the later one counts. -/
def OpsUpdate.next (u v : OpsUpdate) : OpsUpdate :=
  ⟨v.pos.orElse fun _ => u.pos, v.vel.orElse fun _ => u.vel, v.weight.orElse fun _ => u.weight⟩

/-- The product after the update. -/
def OpsUpdate.apply (wa : WeightAcc W) (u : OpsUpdate) (r : Part W) : Part W :=
  { pos := u.pos.getD r.pos
    vel := u.vel.getD r.vel
    species := r.species
    rest := match u.weight with | none => r.rest | some x => wa.set r.rest x }

/-- The names for what can be read of a reactant, in the order of their numbers. -/
def readingNames : List String := ["X", "Y", "Z", "VX", "VY", "VZ", "WEIGHT", "SPECIES_CHARGE"]

/-- What they stand for: coordinates, velocity, weight, charge of the species. -/
def readings (wa : WeightAcc W) (w : OpsWorld W) (r : Part W) : List (Option ℝ) :=
  [some r.pos.x, some r.pos.y, some r.pos.z, some r.vel.x, some r.vel.y, some r.vel.z, some (wa.get r.rest),
    w.charge r.species]

/-- The coordinates of a point. -/
def Vec.coords (c : Vec) : List ℝ := [c.x, c.y, c.z]

mutual

/-- The meaning of an expression: a value, and an update of the product. -/
inductive Evaluates (ql : QLib Q) (wa : WeightAcc W) (w : OpsWorld W) : OExpr Q → Q → OpsUpdate → Prop where
  | num (x : ℝ) : Evaluates ql wa w (.num x) (ql.ofReal x) {}
  | item {name k} : readingNames[k]? = some name → Evaluates ql wa w (.item name) (ql.ofReal (k : ℕ)) {}
  | prim {f args vs u v} : EvaluatesAll ql wa w args vs u → f vs = some v → Evaluates ql wa w (.prim f args) v u
  | P {n it vn vi u1 u2 r k x} : Evaluates ql wa w n vn u1 → Evaluates ql wa w it vi u2 →
      (ql.toInt vn = 0 ∧ r = w.p ∨ ql.toInt vn = 1 ∧ r = w.q) → ql.toInt vi = (k : ℕ) →
      (readings wa w r)[k]? = some (some x) → Evaluates ql wa w (.P n it) (ql.ofReal x) (u1.next u2)
  | CM {i v u k x} : Evaluates ql wa w i v u → ql.toInt v = (k : ℕ) → w.cm.coords[k]? = some x →
      Evaluates ql wa w (.CM i) (ql.ofReal x) u
  | CQ {i v u k x c} : Evaluates ql wa w i v u → ql.toInt v = (k : ℕ) → w.cq = some c → c.coords[k]? = some x →
      Evaluates ql wa w (.CQ i) (ql.ofReal x) u
  | setPosition {args a b c u} : EvaluatesAll ql wa w args [a, b, c] u →
      Evaluates ql wa w (.setPosition args) (ql.ofReal 1)
        (u.next { pos := some ⟨ql.coeff a, ql.coeff b, ql.coeff c⟩ })
  | setVelocity {args a b c u} : EvaluatesAll ql wa w args [a, b, c] u →
      Evaluates ql wa w (.setVelocity args) (ql.ofReal 1)
        (u.next { vel := some ⟨ql.coeff a, ql.coeff b, ql.coeff c⟩ })
  | setWeight {e v u} : Evaluates ql wa w e v u →
      Evaluates ql wa w (.setWeight e) (ql.ofReal 1) (u.next { weight := some (ql.coeff v) })

/-- The meaning of expressions in order. -/
inductive EvaluatesAll (ql : QLib Q) (wa : WeightAcc W) (w : OpsWorld W) :
    List (OExpr Q) → List Q → OpsUpdate → Prop where
  | nil : EvaluatesAll ql wa w [] [] {}
  | cons {e es v vs u1 u2} : Evaluates ql wa w e v u1 → EvaluatesAll ql wa w es vs u2 →
      EvaluatesAll ql wa w (e :: es) (v :: vs) (u1.next u2)

end

/-! ## Lemmas -/

theorem OpsUpdate.apply_empty (wa : WeightAcc W) : OpsUpdate.apply wa {} = id := rfl

theorem OpsUpdate.apply_next (wa : WeightAcc W) (u v : OpsUpdate) :
    (u.next v).apply wa = v.apply wa ∘ u.apply wa := by
  funext r
  obtain ⟨p1, v1, w1⟩ := u
  obtain ⟨p2, v2, w2⟩ := v
  cases p2 <;> cases v2 <;> cases w2 <;> cases w1 <;>
    simp [OpsUpdate.next, OpsUpdate.apply, Function.comp, wa.set_set]

theorem OpsUpdate.next_empty (u : OpsUpdate) : u.next {} = u := rfl

theorem OpsUpdate.empty_next (u : OpsUpdate) : OpsUpdate.next {} u = u := by
  obtain ⟨p, v, w⟩ := u
  cases p <;> cases v <;> cases w <;> rfl

theorem modify_twice {α : Type} (l : List α) (k : ℕ) (f g : α → α) :
    (l.modify k f).modify k g = l.modify k (g ∘ f) := by
  induction l generalizing k with
  | nil => simp
  | cons a l ih =>
    cases k with
    | zero => simp
    | succ k => simp [ih]

theorem modify_id' {α : Type} (l : List α) (k : ℕ) : l.modify k (id : α → α) = l := by
  induction l generalizing k with
  | nil => simp
  | cons a l ih =>
    cases k with
    | zero => simp
    | succ k => simp

/-- The static object set for the product at place `k`. -/
def OpsWorld.stuff (w : OpsWorld W) (k : ℕ) : OpsStuff W := ⟨some k, some w.p, some w.q, some w.charge, some ⟨w.cm, w.cq⟩⟩

theorem opsItems_lookup (name : String) (k : ℕ) :
    opsItems.lookup name = some k ↔ readingNames[k]? = some name := by
  constructor
  · intro h
    simp only [opsItems, List.lookup] at h
    repeat' split at h
    all_goals first
      | (cases h; done)
      | (rename_i hb; have := eq_of_beq hb; subst this; cases h; rfl)
  · intro h
    have hk : k < 8 := by
      have := (List.getElem?_eq_some_iff.mp h).1
      simpa [readingNames] using this
    interval_cases k <;> · simp only [readingNames, List.getElem?_cons_zero, List.getElem?_cons_succ, Option.some.injEq] at h
                           subst h
                           decide +kernel

theorem opsP_iff {ql : QLib Q} {wa : WeightAcc W} {w : OpsWorld W} {k : ℕ} {n it v : Q} :
    opsP ql wa (w.stuff k) n it = .ok v ↔ ∃ r j x, (ql.toInt n = 0 ∧ r = w.p ∨ ql.toInt n = 1 ∧ r = w.q) ∧
      ql.toInt it = ((j : ℕ) : ℤ) ∧ (readings wa w r)[j]? = some (some x) ∧ v = ql.ofReal x := by
  have key : ∀ r : Part W, (match ql.toInt it with
      | 0 => Except.ok (ql.ofReal r.pos.x)
      | 1 => .ok (ql.ofReal r.pos.y)
      | 2 => .ok (ql.ofReal r.pos.z)
      | 3 => .ok (ql.ofReal r.vel.x)
      | 4 => .ok (ql.ofReal r.vel.y)
      | 5 => .ok (ql.ofReal r.vel.z)
      | 6 => .ok (ql.ofReal (wa.get r.rest))
      | 7 => (match w.charge r.species with
          | some c => .ok (ql.ofReal c)
          | none => .error OpsErr.ub)
      | _ => .error .symbol) = .ok v ↔
      ∃ j x, ql.toInt it = ((j : ℕ) : ℤ) ∧ (readings wa w r)[j]? = some (some x) ∧ v = ql.ofReal x := by
    intro r
    constructor
    · intro h
      split at h
      all_goals try (rename_i e; first
        | exact ⟨0, _, e, rfl, (Except.ok.inj h).symm⟩
        | exact ⟨1, _, e, rfl, (Except.ok.inj h).symm⟩
        | exact ⟨2, _, e, rfl, (Except.ok.inj h).symm⟩
        | exact ⟨3, _, e, rfl, (Except.ok.inj h).symm⟩
        | exact ⟨4, _, e, rfl, (Except.ok.inj h).symm⟩
        | exact ⟨5, _, e, rfl, (Except.ok.inj h).symm⟩
        | exact ⟨6, _, e, rfl, (Except.ok.inj h).symm⟩)
      · rename_i e
        split at h
        · rename_i c hc
          refine ⟨7, c, e, ?_, (Except.ok.inj h).symm⟩
          simp [readings, hc]
        · cases h
      · cases h
    · rintro ⟨j, x, e, hx, rfl⟩
      have hj : j < 8 := by
        have := (List.getElem?_eq_some_iff.mp hx).1
        simpa [readings] using this
      interval_cases j <;> simp only [readings, List.getElem?_cons_zero, List.getElem?_cons_succ, Option.some.injEq] at hx <;>
        rw [e] <;> first
        | (subst hx; rfl)
        | (show (match w.charge r.species with | some c => Except.ok (ql.ofReal c) | none => .error OpsErr.ub) = _
           rw [hx])
  unfold opsP
  by_cases h0 : ql.toInt n = 0
  · simp only [h0, if_true, OpsWorld.stuff]
    refine (key w.p).trans ?_
    constructor
    · rintro ⟨j, x, h⟩; exact ⟨w.p, j, x, .inl ⟨trivial, rfl⟩, h⟩
    · rintro ⟨r, j, x, (⟨_, rfl⟩ | ⟨h, _⟩), h'⟩
      · exact ⟨j, x, h'⟩
      · cases h
  · by_cases h1 : ql.toInt n = 1
    · simp only [h1, OpsWorld.stuff, one_ne_zero, if_false, if_true]
      refine (key w.q).trans ?_
      constructor
      · rintro ⟨j, x, h⟩; exact ⟨w.q, j, x, .inr ⟨trivial, rfl⟩, h⟩
      · rintro ⟨r, j, x, (⟨h, _⟩ | ⟨_, rfl⟩), h'⟩
        · cases h
        · exact ⟨j, x, h'⟩
    · simp only [h0, h1, if_false]
      constructor
      · intro h; cases h
      · rintro ⟨r, j, x, (⟨h, _⟩ | ⟨h, _⟩), _⟩
        · exact absurd h (by simp)
        · exact absurd h (by simp)

theorem opsComponent_iff {ql : QLib Q} {i v : Q} {c : Vec} :
    opsComponent ql i c = .ok v ↔ ∃ (j : ℕ) (x : ℝ), ql.toInt i = j ∧ c.coords[j]? = some x ∧ v = ql.ofReal x := by
  unfold opsComponent
  constructor
  · intro h
    split at h
    · rename_i e; exact ⟨0, _, e, rfl, (Except.ok.inj h).symm⟩
    · rename_i e; exact ⟨1, _, e, rfl, (Except.ok.inj h).symm⟩
    · rename_i e; exact ⟨2, _, e, rfl, (Except.ok.inj h).symm⟩
    · cases h
  · rintro ⟨j, x, e, hx, rfl⟩
    have hj : j < 3 := by
      have := (List.getElem?_eq_some_iff.mp hx).1
      simpa [Vec.coords] using this
    interval_cases j <;> simp only [Vec.coords, List.getElem?_cons_zero, List.getElem?_cons_succ, Option.some.injEq] at hx <;>
      subst hx <;> rw [e] <;> rfl

theorem threeCoeffs_iff {ql : QLib Q} {vs : List Q} {x : Vec} : threeCoeffs ql vs = some x ↔
    ∃ a b c, vs = [a, b, c] ∧ x = ⟨ql.coeff a, ql.coeff b, ql.coeff c⟩ := by
  constructor
  · intro h
    unfold threeCoeffs at h
    split at h
    · exact ⟨_, _, _, rfl, (Option.some.inj h).symm⟩
    · cases h
  · rintro ⟨a, b, c, rfl, rfl⟩; rfl

theorem map_ok_iff {α β ε : Type} {x : Except ε α} {f : α → β} {b : β} :
    x.map f = .ok b ↔ ∃ a, x = .ok a ∧ f a = b := by
  cases x with
  | error e => simp [Except.map]
  | ok a => simp [Except.map]

mutual

/-- Evaluation computes the meaning: the value, and the update of the product at place `k`. -/
theorem eval_iff (ql : QLib Q) (wa : WeightAcc W) (w : OpsWorld W) (k : ℕ) :
    ∀ (e : OExpr Q) (mem mem' : List (Part W)) (v : Q), e.eval ql wa (w.stuff k) mem = .ok (v, mem') ↔
      ∃ u, Evaluates ql wa w e v u ∧ mem' = mem.modify k (u.apply wa)
  | .num x, mem, mem', v => by
    simp only [OExpr.eval, Except.ok.injEq, Prod.mk.injEq]
    constructor
    · rintro ⟨rfl, rfl⟩; exact ⟨{}, .num x, (modify_id' _ _).symm⟩
    · rintro ⟨u, hu, rfl⟩; cases hu; exact ⟨rfl, (modify_id' _ _).symm⟩
  | .item name, mem, mem', v => by
    simp only [OExpr.eval]
    constructor
    · intro h
      split at h
      · rename_i j hj
        simp only [Except.ok.injEq, Prod.mk.injEq] at h
        obtain ⟨rfl, rfl⟩ := h
        exact ⟨{}, .item ((opsItems_lookup _ _).mp hj), (modify_id' _ _).symm⟩
      · cases h
    · rintro ⟨u, hu, rfl⟩
      cases hu with
      | item hj => rw [(opsItems_lookup _ _).mpr hj]; simp only [OpsUpdate.apply_empty, modify_id']
  | .prim f args, mem, mem', v => by
    simp only [OExpr.eval]
    constructor
    · intro h
      split at h
      · cases h
      · rename_i vs m1 h1
        obtain ⟨u, hu, rfl⟩ := (evalAll_iff ql wa w k args _ _ _).mp h1
        split at h
        · rename_i v' hv
          simp only [Except.ok.injEq, Prod.mk.injEq] at h
          obtain ⟨rfl, rfl⟩ := h
          exact ⟨u, .prim hu hv, rfl⟩
        · cases h
    · rintro ⟨u, hu, rfl⟩
      cases hu with
      | prim h1 h2 => rw [(evalAll_iff ql wa w k args mem _ _).mpr ⟨u, h1, rfl⟩]; simp only [h2]
  | .P n it, mem, mem', v => by
    simp only [OExpr.eval]
    constructor
    · intro h
      split at h
      · cases h
      · rename_i vn m1 h1
        obtain ⟨u1, hu1, rfl⟩ := (eval_iff ql wa w k n _ _ _).mp h1
        split at h
        · cases h
        · rename_i vi m2 h2
          obtain ⟨u2, hu2, rfl⟩ := (eval_iff ql wa w k it _ _ _).mp h2
          obtain ⟨x, hx, e⟩ := map_ok_iff.mp h
          simp only [Prod.mk.injEq] at e
          obtain ⟨rfl, rfl⟩ := e
          obtain ⟨r, j, y, h3, h4, h5, rfl⟩ := opsP_iff.mp hx
          refine ⟨u1.next u2, .P hu1 hu2 h3 h4 h5, ?_⟩
          rw [modify_twice, OpsUpdate.apply_next]
    · rintro ⟨u, hu, rfl⟩
      cases hu with
      | @P _ _ vn vi u1 u2 r j x h1 h2 h3 h4 h5 =>
        rw [(eval_iff ql wa w k n mem _ _).mpr ⟨u1, h1, rfl⟩]
        simp only
        rw [(eval_iff ql wa w k it _ _ _).mpr ⟨u2, h2, rfl⟩]
        simp only
        rw [opsP_iff.mpr ⟨r, j, x, h3, h4, h5, rfl⟩, modify_twice, ← OpsUpdate.apply_next]
        rfl
  | .CM i, mem, mem', v => by
    simp only [OExpr.eval]
    constructor
    · intro h
      split at h
      · cases h
      · rename_i vi m1 h1
        obtain ⟨u1, hu1, rfl⟩ := (eval_iff ql wa w k i _ _ _).mp h1
        obtain ⟨x, hx, e⟩ := map_ok_iff.mp h
        simp only [Prod.mk.injEq] at e
        obtain ⟨rfl, rfl⟩ := e
        obtain ⟨j, y, h3, h4, rfl⟩ := opsComponent_iff.mp hx
        exact ⟨u1, .CM hu1 h3 h4, rfl⟩
    · rintro ⟨u, hu, rfl⟩
      cases hu with
      | @CM _ vi _ j x h1 h2 h3 =>
        rw [(eval_iff ql wa w k i mem _ _).mpr ⟨u, h1, rfl⟩]
        simp only [opsCM, OpsWorld.stuff, opsComponent_iff.mpr ⟨j, x, h2, h3, rfl⟩, Except.map]
  | .CQ i, mem, mem', v => by
    simp only [OExpr.eval]
    constructor
    · intro h
      split at h
      · cases h
      · rename_i vi m1 h1
        obtain ⟨u1, hu1, rfl⟩ := (eval_iff ql wa w k i _ _ _).mp h1
        obtain ⟨x, hx, e⟩ := map_ok_iff.mp h
        simp only [Prod.mk.injEq] at e
        obtain ⟨rfl, rfl⟩ := e
        simp only [opsCQ, OpsWorld.stuff] at hx
        split at hx
        · cases hx
        · rename_i c hc
          obtain ⟨j, y, h3, h4, rfl⟩ := opsComponent_iff.mp hx
          exact ⟨u1, .CQ hu1 h3 hc h4, rfl⟩
    · rintro ⟨u, hu, rfl⟩
      cases hu with
      | @CQ _ vi _ j x c h1 h2 h3 h4 =>
        rw [(eval_iff ql wa w k i mem _ _).mpr ⟨u, h1, rfl⟩]
        simp only [opsCQ, OpsWorld.stuff, h3, opsComponent_iff.mpr ⟨j, x, h2, h4, rfl⟩, Except.map]
  | .setPosition args, mem, mem', v => by
    simp only [OExpr.eval]
    constructor
    · intro h
      split at h
      · cases h
      · rename_i vs m1 h1
        obtain ⟨u, hu, rfl⟩ := (evalAll_iff ql wa w k args _ _ _).mp h1
        simp only [opsSetPosition, OpsWorld.stuff] at h
        split at h
        · rename_i x j hx hj
          obtain ⟨a, b, c, rfl, rfl⟩ := threeCoeffs_iff.mp hx
          cases hj
          simp only [Except.ok.injEq, Prod.mk.injEq] at h
          obtain ⟨rfl, rfl⟩ := h
          refine ⟨_, .setPosition hu, ?_⟩
          rw [OpsUpdate.apply_next, ← modify_twice]
          rfl
        · cases h
    · rintro ⟨u, hu, rfl⟩
      cases hu with
      | @setPosition _ a b c u h1 =>
        rw [(evalAll_iff ql wa w k args mem _ _).mpr ⟨u, h1, rfl⟩]
        rw [OpsUpdate.apply_next, ← modify_twice]
        rfl
  | .setVelocity args, mem, mem', v => by
    simp only [OExpr.eval]
    constructor
    · intro h
      split at h
      · cases h
      · rename_i vs m1 h1
        obtain ⟨u, hu, rfl⟩ := (evalAll_iff ql wa w k args _ _ _).mp h1
        simp only [opsSetVelocity, OpsWorld.stuff] at h
        split at h
        · rename_i x j hx hj
          obtain ⟨a, b, c, rfl, rfl⟩ := threeCoeffs_iff.mp hx
          cases hj
          simp only [Except.ok.injEq, Prod.mk.injEq] at h
          obtain ⟨rfl, rfl⟩ := h
          refine ⟨_, .setVelocity hu, ?_⟩
          rw [OpsUpdate.apply_next, ← modify_twice]
          rfl
        · cases h
    · rintro ⟨u, hu, rfl⟩
      cases hu with
      | @setVelocity _ a b c u h1 =>
        rw [(evalAll_iff ql wa w k args mem _ _).mpr ⟨u, h1, rfl⟩]
        rw [OpsUpdate.apply_next, ← modify_twice]
        rfl
  | .setWeight e, mem, mem', v => by
    simp only [OExpr.eval]
    constructor
    · intro h
      split at h
      · cases h
      · rename_i x m1 h1
        obtain ⟨u, hu, rfl⟩ := (eval_iff ql wa w k e _ _ _).mp h1
        simp only [opsSetWeight, OpsWorld.stuff, Except.ok.injEq, Prod.mk.injEq] at h
        obtain ⟨rfl, rfl⟩ := h
        refine ⟨_, .setWeight hu, ?_⟩
        rw [OpsUpdate.apply_next, ← modify_twice]
        rfl
    · rintro ⟨u, hu, rfl⟩
      cases hu with
      | @setWeight _ x u h1 =>
        rw [(eval_iff ql wa w k e mem _ _).mpr ⟨u, h1, rfl⟩]
        rw [OpsUpdate.apply_next, ← modify_twice]
        rfl

/-- The same for expressions in order. -/
theorem evalAll_iff (ql : QLib Q) (wa : WeightAcc W) (w : OpsWorld W) (k : ℕ) :
    ∀ (es : List (OExpr Q)) (mem mem' : List (Part W)) (vs : List Q),
      OExpr.evalAll ql wa (w.stuff k) es mem = .ok (vs, mem') ↔
        ∃ u, EvaluatesAll ql wa w es vs u ∧ mem' = mem.modify k (u.apply wa)
  | [], mem, mem', vs => by
    simp only [OExpr.evalAll, Except.ok.injEq, Prod.mk.injEq]
    constructor
    · rintro ⟨rfl, rfl⟩; exact ⟨{}, .nil, (modify_id' _ _).symm⟩
    · rintro ⟨u, hu, rfl⟩; cases hu; exact ⟨rfl, (modify_id' _ _).symm⟩
  | e :: es, mem, mem', vs => by
    simp only [OExpr.evalAll]
    constructor
    · intro h
      split at h
      · cases h
      · rename_i v m1 h1
        obtain ⟨u1, hu1, rfl⟩ := (eval_iff ql wa w k e _ _ _).mp h1
        split at h
        · cases h
        · rename_i vs' m2 h2
          obtain ⟨u2, hu2, rfl⟩ := (evalAll_iff ql wa w k es _ _ _).mp h2
          simp only [Except.ok.injEq, Prod.mk.injEq] at h
          obtain ⟨rfl, rfl⟩ := h
          refine ⟨u1.next u2, .cons hu1 hu2, ?_⟩
          rw [modify_twice, OpsUpdate.apply_next]
    · rintro ⟨u, hu, rfl⟩
      cases hu with
      | @cons _ _ v vs' u1 u2 h1 h2 =>
        rw [(eval_iff ql wa w k e mem _ _).mpr ⟨u1, h1, rfl⟩]
        simp only
        rw [(evalAll_iff ql wa w k es _ _ _).mpr ⟨u2, h2, rfl⟩, modify_twice, ← OpsUpdate.apply_next]

end

end Chimp
