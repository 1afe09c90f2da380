import Verif.Lemmas.Ops
import Verif.Lemmas.Table
import Verif.Props.Kinematics
import Verif.Props.Writer

/-!
# C91: what expressions written with products can do
-/

namespace Chimp

variable {S W Q : Type}

/-! ## Specification -/

/-- The conversions of `Quantity` keep numbers. -/
structure QLib.Faithful (ql : QLib Q) : Prop where
  coeff : ∀ x, ql.coeff (ql.ofReal x) = x
  toInt : ∀ n : ℕ, ql.toInt (ql.ofReal n) = n

/-- The calculator prints calls of `CM` and `CQ` in such a way that `CM()` and `CQ()` occur in the text. -/
def PrintsCalls (print : OExpr Q → String) : Prop :=
  (∀ e, e.calls "CM" = true → ∃ a b, (print e).toList = a ++ ("CM()".toList ++ b)) ∧
  (∀ e, e.calls "CQ" = true → ∃ a b, (print e).toList = a ++ ("CQ()".toList ++ b))

/-- What expressions refer to in an interaction of `p` and `q`, particles of species with properties `a` and `b`. -/
noncomputable def worldOf (charge : ℤ → Option ℝ) (a b : Props ℝ) (p q : Part W) : OpsWorld W :=
  open Classical in
  ⟨p, q, charge, weightedMean a.mass b.mass p.pos q.pos,
    if a.charge + b.charge = 0 then none else some (weightedMean a.charge b.charge p.pos q.pos)⟩

mutual

/-- Nothing in the expression can go wrong: literal indices and names, total functions, the right numbers of arguments;
the centre of charge exists, and the species are known, where they are asked for. -/
def SafeOps (w : OpsWorld W) : OExpr Q → Prop
  | .num _ => True
  | .item name => name ∈ readingNames
  | .prim f args => (∀ vs : List Q, vs.length = args.length → f vs ≠ none) ∧ SafeAllOps w args
  | .P n it => (match n with
      | .num x => (x = 0 ∨ x = 1) ∧ (match it with
          | .item name => name ∈ readingNames ∧
            (name = "SPECIES_CHARGE" → w.charge (if x = 0 then w.p else w.q).species ≠ none)
          | _ => False)
      | _ => False)
  | .CM i => (match i with
      | .item name => name ∈ ["X", "Y", "Z"]
      | .num x => x = 0 ∨ x = 1 ∨ x = 2
      | _ => False)
  | .CQ i => (match i with
      | .item name => name ∈ ["X", "Y", "Z"] ∧ w.cq ≠ none
      | .num x => (x = 0 ∨ x = 1 ∨ x = 2) ∧ w.cq ≠ none
      | _ => False)
  | .setPosition args => args.length = 3 ∧ SafeAllOps w args
  | .setVelocity args => args.length = 3 ∧ SafeAllOps w args
  | .setWeight e => SafeOps w e

/-- The same for all expressions. -/
def SafeAllOps (w : OpsWorld W) : List (OExpr Q) → Prop
  | [] => True
  | e :: es => SafeOps w e ∧ SafeAllOps w es

end

/-! ## Lemmas -/

theorem OpsUpdate.next_vel {u v : OpsUpdate} (h1 : u.vel = none) (h2 : v.vel = none) : (u.next v).vel = none := by
  simp [OpsUpdate.next, h1, h2]

theorem OpsUpdate.next_pos {u v : OpsUpdate} (h1 : u.pos = none) (h2 : v.pos = none) : (u.next v).pos = none := by
  simp [OpsUpdate.next, h1, h2]

theorem OpsUpdate.next_weight {u v : OpsUpdate} (h1 : u.weight = none) (h2 : v.weight = none) :
    (u.next v).weight = none := by
  simp [OpsUpdate.next, h1, h2]

mutual

theorem evaluates_frame {ql : QLib Q} {wa : WeightAcc W} {w : OpsWorld W} : ∀ (e : OExpr Q) {v : Q} {u : OpsUpdate},
    Evaluates ql wa w e v u → (e.calls "setPosition" = false → u.pos = none) ∧
      (e.calls "setVelocity" = false → u.vel = none) ∧ (e.calls "setWeight" = false → u.weight = none)
  | .num _, v, u, h => by cases h; exact ⟨fun _ => rfl, fun _ => rfl, fun _ => rfl⟩
  | .item _, v, u, h => by cases h; exact ⟨fun _ => rfl, fun _ => rfl, fun _ => rfl⟩
  | .prim f args, v, u, h => by
    cases h with
    | prim h1 _ =>
      have := evaluatesAll_frame args h1
      simpa only [OExpr.calls] using this
  | .P n it, v, u, h => by
    cases h with
    | P h1 h2 _ _ _ =>
      obtain ⟨a1, a2, a3⟩ := evaluates_frame n h1
      obtain ⟨b1, b2, b3⟩ := evaluates_frame it h2
      simp only [OExpr.calls, Bool.or_eq_false_iff]
      exact ⟨fun h => OpsUpdate.next_pos (a1 h.1.2) (b1 h.2), fun h => OpsUpdate.next_vel (a2 h.1.2) (b2 h.2),
        fun h => OpsUpdate.next_weight (a3 h.1.2) (b3 h.2)⟩
  | .CM i, v, u, h => by
    cases h with
    | CM h1 _ _ =>
      obtain ⟨a1, a2, a3⟩ := evaluates_frame i h1
      simp only [OExpr.calls, Bool.or_eq_false_iff]
      exact ⟨fun h => a1 h.2, fun h => a2 h.2, fun h => a3 h.2⟩
  | .CQ i, v, u, h => by
    cases h with
    | CQ h1 _ _ _ =>
      obtain ⟨a1, a2, a3⟩ := evaluates_frame i h1
      simp only [OExpr.calls, Bool.or_eq_false_iff]
      exact ⟨fun h => a1 h.2, fun h => a2 h.2, fun h => a3 h.2⟩
  | .setPosition args, v, u, h => by
    cases h with
    | setPosition h1 =>
      obtain ⟨a1, a2, a3⟩ := evaluatesAll_frame args h1
      simp only [OExpr.calls, Bool.or_eq_false_iff]
      exact ⟨fun h => absurd h.1 (by decide +kernel), fun h => OpsUpdate.next_vel (a2 h.2) rfl,
        fun h => OpsUpdate.next_weight (a3 h.2) rfl⟩
  | .setVelocity args, v, u, h => by
    cases h with
    | setVelocity h1 =>
      obtain ⟨a1, a2, a3⟩ := evaluatesAll_frame args h1
      simp only [OExpr.calls, Bool.or_eq_false_iff]
      exact ⟨fun h => OpsUpdate.next_pos (a1 h.2) rfl, fun h => absurd h.1 (by decide +kernel),
        fun h => OpsUpdate.next_weight (a3 h.2) rfl⟩
  | .setWeight e, v, u, h => by
    cases h with
    | setWeight h1 =>
      obtain ⟨a1, a2, a3⟩ := evaluates_frame e h1
      simp only [OExpr.calls, Bool.or_eq_false_iff]
      exact ⟨fun h => OpsUpdate.next_pos (a1 h.2) rfl, fun h => OpsUpdate.next_vel (a2 h.2) rfl,
        fun h => absurd h.1 (by decide +kernel)⟩

theorem evaluatesAll_frame {ql : QLib Q} {wa : WeightAcc W} {w : OpsWorld W} :
    ∀ (es : List (OExpr Q)) {vs : List Q} {u : OpsUpdate},
    EvaluatesAll ql wa w es vs u → (OExpr.callsAny "setPosition" es = false → u.pos = none) ∧
      (OExpr.callsAny "setVelocity" es = false → u.vel = none) ∧
      (OExpr.callsAny "setWeight" es = false → u.weight = none)
  | [], vs, u, h => by cases h; exact ⟨fun _ => rfl, fun _ => rfl, fun _ => rfl⟩
  | e :: es, vs, u, h => by
    cases h with
    | cons h1 h2 =>
      obtain ⟨a1, a2, a3⟩ := evaluates_frame e h1
      obtain ⟨b1, b2, b3⟩ := evaluatesAll_frame es h2
      simp only [OExpr.callsAny, Bool.or_eq_false_iff]
      exact ⟨fun h => OpsUpdate.next_pos (a1 h.1) (b1 h.2), fun h => OpsUpdate.next_vel (a2 h.1) (b2 h.2),
        fun h => OpsUpdate.next_weight (a3 h.1) (b3 h.2)⟩

end

theorem evaluatesAll_length {ql : QLib Q} {wa : WeightAcc W} {w : OpsWorld W} :
    ∀ {es : List (OExpr Q)} {vs : List Q} {u : OpsUpdate}, EvaluatesAll ql wa w es vs u → vs.length = es.length
  | [], _, _, h => by cases h; rfl
  | _ :: es, _, _, h => by
    cases h with
    | cons _ h2 => simp [evaluatesAll_length h2]

mutual

/-- The centres do not matter to expressions that do not ask for them. -/
theorem evaluates_centres {ql : QLib Q} {wa : WeightAcc W} {w w' : OpsWorld W} (hp : w.p = w'.p) (hq : w.q = w'.q)
    (hc : w.charge = w'.charge) : ∀ (e : OExpr Q) {v : Q} {u : OpsUpdate},
    (e.calls "CM" = true → w.cm = w'.cm) → (e.calls "CQ" = true → w.cq = w'.cq) →
    Evaluates ql wa w e v u → Evaluates ql wa w' e v u
  | .num x, v, u, _, _, h => by cases h; exact .num x
  | .item _, v, u, _, _, h => by cases h with | item hk => exact .item hk
  | .prim f args, v, u, h1, h2, h => by
    cases h with
    | prim h3 h4 => exact .prim (evaluatesAll_centres hp hq hc args h1 h2 h3) h4
  | .P n it, v, u, h1, h2, h => by
    simp only [OExpr.calls, Bool.or_eq_true] at h1 h2
    cases h with
    | P h3 h4 h5 h6 h7 =>
      refine .P (evaluates_centres hp hq hc n (fun h => h1 (.inl (.inr h))) (fun h => h2 (.inl (.inr h))) h3)
        (evaluates_centres hp hq hc it (fun h => h1 (.inr h)) (fun h => h2 (.inr h)) h4)
        (by rw [← hp, ← hq]; exact h5) h6 ?_
      simp only [readings, hc] at h7 ⊢
      exact h7
  | .CM i, v, u, h1, h2, h => by
    simp only [OExpr.calls, Bool.or_eq_true] at h1 h2
    cases h with
    | CM h3 h4 h5 =>
      refine .CM (evaluates_centres hp hq hc i (fun h => h1 (.inr h)) (fun h => h2 (.inr h)) h3) h4 ?_
      rw [← h1 (.inl (by decide +kernel))]
      exact h5
  | .CQ i, v, u, h1, h2, h => by
    simp only [OExpr.calls, Bool.or_eq_true] at h1 h2
    cases h with
    | CQ h3 h4 h5 h6 =>
      refine .CQ (evaluates_centres hp hq hc i (fun h => h1 (.inr h)) (fun h => h2 (.inr h)) h3) h4 ?_ h6
      rw [← h2 (.inl (by decide +kernel))]
      exact h5
  | .setPosition args, v, u, h1, h2, h => by
    simp only [OExpr.calls, Bool.or_eq_true] at h1 h2
    cases h with
    | setPosition h3 =>
      exact .setPosition (evaluatesAll_centres hp hq hc args (fun h => h1 (.inr h)) (fun h => h2 (.inr h)) h3)
  | .setVelocity args, v, u, h1, h2, h => by
    simp only [OExpr.calls, Bool.or_eq_true] at h1 h2
    cases h with
    | setVelocity h3 =>
      exact .setVelocity (evaluatesAll_centres hp hq hc args (fun h => h1 (.inr h)) (fun h => h2 (.inr h)) h3)
  | .setWeight e, v, u, h1, h2, h => by
    simp only [OExpr.calls, Bool.or_eq_true] at h1 h2
    cases h with
    | setWeight h3 =>
      exact .setWeight (evaluates_centres hp hq hc e (fun h => h1 (.inr h)) (fun h => h2 (.inr h)) h3)

theorem evaluatesAll_centres {ql : QLib Q} {wa : WeightAcc W} {w w' : OpsWorld W} (hp : w.p = w'.p) (hq : w.q = w'.q)
    (hc : w.charge = w'.charge) : ∀ (es : List (OExpr Q)) {vs : List Q} {u : OpsUpdate},
    (OExpr.callsAny "CM" es = true → w.cm = w'.cm) → (OExpr.callsAny "CQ" es = true → w.cq = w'.cq) →
    EvaluatesAll ql wa w es vs u → EvaluatesAll ql wa w' es vs u
  | [], vs, u, _, _, h => by cases h; exact .nil
  | e :: es, vs, u, h1, h2, h => by
    simp only [OExpr.callsAny, Bool.or_eq_true] at h1 h2
    cases h with
    | cons h3 h4 =>
      exact .cons (evaluates_centres hp hq hc e (fun h => h1 (.inl h)) (fun h => h2 (.inl h)) h3)
        (evaluatesAll_centres hp hq hc es (fun h => h1 (.inr h)) (fun h => h2 (.inr h)) h4)

end

theorem process_iff {ql : QLib Q} {wa : WeightAcc W} {w : OpsWorld W} {es : List (OExpr Q)} {k : ℕ}
    {st st' : OpsStuff W} {mem mem' : List (Part W)} :
    opsProcess ql wa w.charge es k w.p w.q ⟨w.cm, w.cq⟩ st mem = .ok (st', mem') ↔
      st' = w.stuff k ∧ ∃ vs u, EvaluatesAll ql wa w es vs u ∧ mem' = mem.modify k (u.apply wa) := by
  unfold opsProcess
  rw [map_ok_iff]
  constructor
  · rintro ⟨⟨vs, m⟩, h, e⟩
    simp only [Prod.mk.injEq] at e
    obtain ⟨rfl, rfl⟩ := e
    obtain ⟨u, hu, rfl⟩ := (evalAll_iff ql wa w k es _ _ _).mp h
    exact ⟨rfl, vs, u, hu, rfl⟩
  · rintro ⟨rfl, vs, u, hu, rfl⟩
    exact ⟨(vs, mem.modify k (u.apply wa)), (evalAll_iff ql wa w k es _ _ _).mpr ⟨u, hu, rfl⟩, rfl⟩

/-! ## Properties -/

/-- Running expressions on a product computes their meaning, whatever the static object held before: the product gets
the position, velocity and weight that the expressions say, and no other product changes. -/
theorem C91_meaning {ql : QLib Q} {wa : WeightAcc W} {charge : ℤ → Option ℝ} {es : List (OExpr Q)} {k : ℕ} {p q : Part W}
    {sc : Scratch} {st : OpsStuff W} {mem : List (Part W)} (mem' : List (Part W)) :
    (∃ st', opsProcess ql wa charge es k p q sc st mem = .ok (st', mem')) ↔
      ∃ vs u, EvaluatesAll ql wa ⟨p, q, charge, sc.cm, sc.cq⟩ es vs u ∧ mem' = mem.modify k (u.apply wa) := by
  have := fun st' => process_iff (ql := ql) (wa := wa) (w := ⟨p, q, charge, sc.cm, sc.cq⟩) (es := es) (k := k) (st := st)
    (st' := st') (mem := mem) (mem' := mem')
  constructor
  · rintro ⟨st', h⟩; exact ((this st').mp h).2
  · intro h; exact ⟨_, (this _).mpr ⟨rfl, h⟩⟩

/-- What expressions do to a product does not depend on the product, on the other products, or on its place: if they run
at all, there is one update that they make everywhere.  It has no velocity unless `setVelocity` is called, no position
unless `setPosition` is, no weight unless `setWeight` is; and the species always stays. -/
theorem C91_update {ql : QLib Q} {wa : WeightAcc W} {charge : ℤ → Option ℝ} {es : List (OExpr Q)} {k : ℕ} {p q : Part W}
    {sc : Scratch} {st st' : OpsStuff W} {mem mem' : List (Part W)}
    (h : opsProcess ql wa charge es k p q sc st mem = .ok (st', mem')) :
    ∃ u : OpsUpdate,
      (∀ st k mem, ∃ st', opsProcess ql wa charge es k p q sc st mem = .ok (st', mem.modify k (u.apply wa))) ∧
      (OExpr.callsAny "setPosition" es = false → ∀ r, (u.apply wa r).pos = r.pos) ∧
      (OExpr.callsAny "setVelocity" es = false → ∀ r, (u.apply wa r).vel = r.vel) ∧
      (OExpr.callsAny "setWeight" es = false → ∀ r, (u.apply wa r).rest = r.rest) ∧
      ∀ r, (u.apply wa r).species = r.species := by
  obtain ⟨vs, u, hu, _⟩ := (C91_meaning _).mp ⟨st', h⟩
  obtain ⟨f1, f2, f3⟩ := evaluatesAll_frame es hu
  refine ⟨u, fun st k mem => (C91_meaning _).mpr ⟨vs, u, hu, rfl⟩, fun h r => ?_, fun h r => ?_, fun h r => ?_,
    fun _ => rfl⟩
  · simp [OpsUpdate.apply, f1 h]
  · simp [OpsUpdate.apply, f2 h]
  · simp [OpsUpdate.apply, f3 h]

theorem modify_middle {α : Type} (old : List α) (r : α) (rest : List α) (f : α → α) :
    (old ++ r :: rest).modify old.length f = old ++ f r :: rest := by
  induction old with
  | nil => simp
  | cons a l ih => simpa using ih

/-- The products of one interaction: those that were in the vector before stay, and each new one gets what the
expressions written with it say. -/
theorem C91_products {ql : QLib Q} {wa : WeightAcc W} {charge : ℤ → Option ℝ} {p q : Part W} {sc : Scratch}
    {ess : List (List (OExpr Q))} {old rs mem' : List (Part W)} {st : OpsStuff W} (hl : rs.length = ess.length) :
    (∃ st', opsProcessAll ql wa charge p q sc ess old.length st (old ++ rs) = .ok (st', mem')) ↔
      ∃ us : List OpsUpdate,
        List.Forall₂ (fun es u => ∃ vs, EvaluatesAll ql wa ⟨p, q, charge, sc.cm, sc.cq⟩ es vs u) ess us ∧
        mem' = old ++ List.zipWith (fun u r => u.apply wa r) us rs := by
  induction ess generalizing old rs st with
  | nil =>
    obtain rfl := List.length_eq_zero_iff.mp hl
    simp only [opsProcessAll, Except.ok.injEq, Prod.mk.injEq]
    constructor
    · rintro ⟨_, rfl, rfl⟩; exact ⟨[], .nil, by simp⟩
    · rintro ⟨us, h, rfl⟩; cases h; exact ⟨st, rfl, by simp⟩
  | cons es ess ih =>
    cases rs with
    | nil => simp at hl
    | cons r rs =>
      have hl' : rs.length = ess.length := by simpa using hl
      constructor
      · rintro ⟨st', h⟩
        simp only [opsProcessAll] at h
        split at h
        · cases h
        · rename_i st1 m1 h1
          obtain ⟨vs, u, hu, rfl⟩ := (C91_meaning _).mp ⟨st1, h1⟩
          rw [modify_middle] at h
          have e : old ++ u.apply wa r :: rs = (old ++ [u.apply wa r]) ++ rs := by simp
          rw [e, show old.length + 1 = (old ++ [u.apply wa r]).length by simp] at h
          obtain ⟨us, h2, rfl⟩ := (ih hl').mp ⟨st', h⟩
          exact ⟨u :: us, .cons ⟨vs, hu⟩ h2, by simp⟩
      · rintro ⟨us, h, rfl⟩
        cases h with
        | @cons _ u _ us h1 h2 =>
          obtain ⟨vs, hu⟩ := h1
          obtain ⟨st1, h3⟩ := (C91_meaning (k := old.length) (st := st) (mem := old ++ r :: rs) _).mpr ⟨vs, u, hu, rfl⟩
          simp only [opsProcessAll, h3]
          rw [modify_middle]
          have e : old ++ u.apply wa r :: rs = (old ++ [u.apply wa r]) ++ rs := by simp
          rw [e, show old.length + 1 = (old ++ [u.apply wa r]).length by simp]
          obtain ⟨st2, h4⟩ := (ih (st := st1) (old := old ++ [u.apply wa r]) hl').mpr ⟨us, h2, by simp⟩
          exact ⟨st2, h4⟩

/-- `P(n, name)` is the coordinate, velocity component, weight or charge of that name of the first (`n` = 0) or second
(`n` = 1) reactant; for other `n` there is no value. -/
theorem C91_reading {ql : QLib Q} (hf : ql.Faithful) {wa : WeightAcc W} {w : OpsWorld W} (n : ℕ) (name : String)
    (v : Q) (u : OpsUpdate) :
    Evaluates ql wa w (.P (.num n) (.item name)) v u ↔ u = {} ∧ ∃ r x, (n = 0 ∧ r = w.p ∨ n = 1 ∧ r = w.q) ∧
      v = ql.ofReal x ∧
      (name = "X" ∧ x = r.pos.x ∨ name = "Y" ∧ x = r.pos.y ∨ name = "Z" ∧ x = r.pos.z ∨
       name = "VX" ∧ x = r.vel.x ∨ name = "VY" ∧ x = r.vel.y ∨ name = "VZ" ∧ x = r.vel.z ∨
       name = "WEIGHT" ∧ x = wa.get r.rest ∨ name = "SPECIES_CHARGE" ∧ w.charge r.species = some x) := by
  constructor
  · intro h
    cases h with
    | P h1 h2 h3 h4 h5 =>
      cases h1
      cases h2 with
      | @item _ j hj =>
        rw [hf.toInt] at h3 h4
        rename_i r k x
        have : j = k := by exact_mod_cast h4
        subst this
        refine ⟨rfl, r, x, by exact_mod_cast h3, rfl, ?_⟩
        have hk : j < 8 := by
          have := (List.getElem?_eq_some_iff.mp hj).1
          simpa [readingNames] using this
        interval_cases j <;>
          simp only [readingNames, readings, List.getElem?_cons_zero, List.getElem?_cons_succ, Option.some.injEq] at hj h5 <;>
          subst hj <;> simp [h5]
  · rintro ⟨rfl, r, x, h1, rfl, h2⟩
    have hsel : ql.toInt (ql.ofReal (n : ℝ)) = 0 ∧ r = w.p ∨ ql.toInt (ql.ofReal (n : ℝ)) = 1 ∧ r = w.q := by
      rw [hf.toInt]; exact_mod_cast h1
    have go : ∀ k : ℕ, readingNames[k]? = some name → (readings wa w r)[k]? = some (some x) →
        Evaluates ql wa w (.P (.num n) (.item name)) (ql.ofReal x) {} := fun k hk hx =>
      .P (.num _) (.item hk) hsel (hf.toInt k) hx
    rcases h2 with ⟨rfl, rfl⟩ | ⟨rfl, rfl⟩ | ⟨rfl, rfl⟩ | ⟨rfl, rfl⟩ | ⟨rfl, rfl⟩ | ⟨rfl, rfl⟩ | ⟨rfl, rfl⟩ | ⟨rfl, h⟩
    · exact go 0 rfl rfl
    · exact go 1 rfl rfl
    · exact go 2 rfl rfl
    · exact go 3 rfl rfl
    · exact go 4 rfl rfl
    · exact go 5 rfl rfl
    · exact go 6 rfl rfl
    · exact go 7 rfl (by simp [readings, h])

/-- `CM(X)`, `CM(Y)`, `CM(Z)` are the coordinates of the centre of mass, and `CQ(…)` those of the centre of charge. -/
theorem C91_centres {ql : QLib Q} (hf : ql.Faithful) {wa : WeightAcc W} {w : OpsWorld W} (name : String) (v : Q)
    (u : OpsUpdate) :
    (Evaluates ql wa w (.CM (.item name)) v u ↔ u = {} ∧
      (name = "X" ∧ v = ql.ofReal w.cm.x ∨ name = "Y" ∧ v = ql.ofReal w.cm.y ∨ name = "Z" ∧ v = ql.ofReal w.cm.z)) ∧
    (Evaluates ql wa w (.CQ (.item name)) v u ↔ u = {} ∧ ∃ c, w.cq = some c ∧
      (name = "X" ∧ v = ql.ofReal c.x ∨ name = "Y" ∧ v = ql.ofReal c.y ∨ name = "Z" ∧ v = ql.ofReal c.z)) := by
  have key : ∀ (c : Vec) (j k : ℕ) (x : ℝ), readingNames[j]? = some name → ql.toInt (ql.ofReal (j : ℝ)) = (k : ℕ) →
      c.coords[k]? = some x → (name = "X" ∧ ql.ofReal x = ql.ofReal c.x ∨ name = "Y" ∧ ql.ofReal x = ql.ofReal c.y ∨
        name = "Z" ∧ ql.ofReal x = ql.ofReal c.z) := by
    intro c j k x hj hk hx
    rw [hf.toInt] at hk
    have : j = k := by exact_mod_cast hk
    subst this
    have h3 : j < 3 := by
      have := (List.getElem?_eq_some_iff.mp hx).1
      simpa [Vec.coords] using this
    interval_cases j <;>
      simp only [readingNames, Vec.coords, List.getElem?_cons_zero, List.getElem?_cons_succ, Option.some.injEq] at hj hx <;>
      subst hj <;> subst hx <;> simp
  refine ⟨⟨?_, ?_⟩, ⟨?_, ?_⟩⟩
  · intro h
    cases h with
    | CM h1 h2 h3 =>
      cases h1 with
      | item hj => exact ⟨rfl, key _ _ _ _ hj h2 h3⟩
  · rintro ⟨rfl, ⟨rfl, rfl⟩ | ⟨rfl, rfl⟩ | ⟨rfl, rfl⟩⟩
    · exact .CM (.item (k := 0) rfl) (hf.toInt 0) rfl
    · exact .CM (.item (k := 1) rfl) (hf.toInt 1) rfl
    · exact .CM (.item (k := 2) rfl) (hf.toInt 2) rfl
  · intro h
    cases h with
    | CQ h1 h2 h3 h4 =>
      cases h1 with
      | item hj => exact ⟨rfl, _, h3, key _ _ _ _ hj h2 h4⟩
  · rintro ⟨rfl, c, hc, ⟨rfl, rfl⟩ | ⟨rfl, rfl⟩ | ⟨rfl, rfl⟩⟩
    · exact .CQ (.item (k := 0) rfl) (hf.toInt 0) hc rfl
    · exact .CQ (.item (k := 1) rfl) (hf.toInt 1) hc rfl
    · exact .CQ (.item (k := 2) rfl) (hf.toInt 2) hc rfl

theorem evaluatesAll_append {ql : QLib Q} {wa : WeightAcc W} {w : OpsWorld W} :
    ∀ {es es' : List (OExpr Q)} {vs : List Q} {u : OpsUpdate}, EvaluatesAll ql wa w (es ++ es') vs u →
      ∃ vs1 vs2 u1 u2, EvaluatesAll ql wa w es vs1 u1 ∧ EvaluatesAll ql wa w es' vs2 u2 ∧ vs = vs1 ++ vs2 ∧
        u = u1.next u2
  | [], es', vs, u, h => ⟨[], vs, {}, u, .nil, h, rfl, (OpsUpdate.empty_next u).symm⟩
  | e :: es, es', vs, u, h => by
    cases h with
    | @cons _ _ v vs' u1 u2 h1 h2 =>
      obtain ⟨a, b, c, d, k1, k2, rfl, rfl⟩ := evaluatesAll_append h2
      refine ⟨v :: a, b, u1.next c, d, .cons h1 k1, k2, rfl, ?_⟩
      simp only [OpsUpdate.next, OpsUpdate.mk.injEq]
      cases d.pos <;> cases d.vel <;> cases d.weight <;> simp

/-- The last call counts: a product ends where the last `setPosition` puts it, with the velocity that the last
`setVelocity` gives it. -/
theorem C91_last {ql : QLib Q} {wa : WeightAcc W} {w : OpsWorld W} {es es' args : List (OExpr Q)} {vs : List Q}
    {u : OpsUpdate} :
    (EvaluatesAll ql wa w (es ++ .setPosition args :: es') vs u → OExpr.callsAny "setPosition" es' = false →
      ∃ a b c u', EvaluatesAll ql wa w args [a, b, c] u' ∧
        ∀ r, (u.apply wa r).pos = ⟨ql.coeff a, ql.coeff b, ql.coeff c⟩) ∧
    (EvaluatesAll ql wa w (es ++ .setVelocity args :: es') vs u → OExpr.callsAny "setVelocity" es' = false →
      ∃ a b c u', EvaluatesAll ql wa w args [a, b, c] u' ∧
        ∀ r, (u.apply wa r).vel = ⟨ql.coeff a, ql.coeff b, ql.coeff c⟩) := by
  constructor
  · intro h h'
    obtain ⟨_, _, u1, u2, _, h2, _, rfl⟩ := evaluatesAll_append h
    cases h2 with
    | cons h3 h4 =>
      cases h3 with
      | setPosition h5 =>
        refine ⟨_, _, _, _, h5, fun r => ?_⟩
        have := (evaluatesAll_frame es' h4).1 h'
        simp [OpsUpdate.apply, OpsUpdate.next, this]
  · intro h h'
    obtain ⟨_, _, u1, u2, _, h2, _, rfl⟩ := evaluatesAll_append h
    cases h2 with
    | cons h3 h4 =>
      cases h3 with
      | setVelocity h5 =>
        refine ⟨_, _, _, _, h5, fun r => ?_⟩
        have := (evaluatesAll_frame es' h4).2.1 h'
        simp [OpsUpdate.apply, OpsUpdate.next, this]

/-! ## Safety -/

mutual

theorem safe_evaluates {ql : QLib Q} (hf : ql.Faithful) {wa : WeightAcc W} {w : OpsWorld W} : ∀ (e : OExpr Q),
    SafeOps w e → ∃ v u, Evaluates ql wa w e v u
  | .num x, _ => ⟨_, _, .num x⟩
  | .item name, h => by
    obtain ⟨k, hk⟩ := List.getElem?_of_mem h
    exact ⟨_, _, .item hk⟩
  | .prim f args, h => by
    obtain ⟨vs, u, h1⟩ := safeAll_evaluates hf args h.2
    cases hv : f vs with
    | none => exact absurd hv (h.1 vs (evaluatesAll_length h1))
    | some v => exact ⟨v, u, .prim h1 hv⟩
  | .P n it, h => by
    cases n with
    | num x =>
      obtain ⟨hx, h⟩ := h
      cases it with
      | item name =>
        obtain ⟨hm, hc⟩ := h
        obtain ⟨k, hk⟩ := List.getElem?_of_mem hm
        have hsel : ∃ r, r = (if x = 0 then w.p else w.q) ∧
            (ql.toInt (ql.ofReal x) = 0 ∧ r = w.p ∨ ql.toInt (ql.ofReal x) = 1 ∧ r = w.q) := by
          rcases hx with rfl | rfl
          · exact ⟨w.p, by simp, .inl ⟨by simpa using hf.toInt 0, rfl⟩⟩
          · exact ⟨w.q, by simp, .inr ⟨by simpa using hf.toInt 1, rfl⟩⟩
        obtain ⟨r, hr, hsel⟩ := hsel
        have hread : ∃ y, (readings wa w r)[k]? = some (some y) := by
          have h8 : k < 8 := by
            have := (List.getElem?_eq_some_iff.mp hk).1
            simpa [readingNames] using this
          by_cases h7 : k = 7
          · subst h7
            have hn : name = "SPECIES_CHARGE" := by
              simp only [readingNames, List.getElem?_cons_succ, List.getElem?_cons_zero, Option.some.injEq] at hk
              exact hk.symm
            obtain ⟨y, hy⟩ := Option.ne_none_iff_exists'.mp (hc hn)
            exact ⟨y, by simp [readings, hr, hy]⟩
          · have : k < 7 := by omega
            interval_cases k <;> exact ⟨_, rfl⟩
        obtain ⟨y, hy⟩ := hread
        exact ⟨_, _, .P (.num x) (.item hk) hsel (hf.toInt k) hy⟩
      | _ => exact h.elim
    | _ => exact (show False from h).elim
  | .CM i, h => by
    cases i with
    | num x =>
      rcases h with rfl | rfl | rfl
      · exact ⟨_, _, .CM (k := 0) (.num _) (by simpa using hf.toInt 0) rfl⟩
      · exact ⟨_, _, .CM (k := 1) (.num _) (by simpa using hf.toInt 1) rfl⟩
      · exact ⟨_, _, .CM (k := 2) (.num _) (by simpa using hf.toInt 2) rfl⟩
    | item name =>
      have h : name ∈ ["X", "Y", "Z"] := h
      simp only [List.mem_cons, List.not_mem_nil, or_false] at h
      rcases h with rfl | rfl | rfl
      · exact ⟨_, _, .CM (.item (k := 0) rfl) (hf.toInt 0) rfl⟩
      · exact ⟨_, _, .CM (.item (k := 1) rfl) (hf.toInt 1) rfl⟩
      · exact ⟨_, _, .CM (.item (k := 2) rfl) (hf.toInt 2) rfl⟩
    | _ => exact (show False from h).elim
  | .CQ i, h => by
    cases i with
    | num x =>
      obtain ⟨h, hc⟩ := h
      obtain ⟨c, hc⟩ := Option.ne_none_iff_exists'.mp hc
      rcases h with rfl | rfl | rfl
      · exact ⟨_, _, .CQ (k := 0) (.num _) (by simpa using hf.toInt 0) hc rfl⟩
      · exact ⟨_, _, .CQ (k := 1) (.num _) (by simpa using hf.toInt 1) hc rfl⟩
      · exact ⟨_, _, .CQ (k := 2) (.num _) (by simpa using hf.toInt 2) hc rfl⟩
    | item name =>
      obtain ⟨h, hc⟩ := h
      obtain ⟨c, hc⟩ := Option.ne_none_iff_exists'.mp hc
      simp only [List.mem_cons, List.not_mem_nil, or_false] at h
      rcases h with rfl | rfl | rfl
      · exact ⟨_, _, .CQ (.item (k := 0) rfl) (hf.toInt 0) hc rfl⟩
      · exact ⟨_, _, .CQ (.item (k := 1) rfl) (hf.toInt 1) hc rfl⟩
      · exact ⟨_, _, .CQ (.item (k := 2) rfl) (hf.toInt 2) hc rfl⟩
    | _ => exact (show False from h).elim
  | .setPosition args, h => by
    obtain ⟨vs, u, h1⟩ := safeAll_evaluates hf args h.2
    have hl := (evaluatesAll_length h1).trans h.1
    obtain ⟨a, b, c, rfl⟩ := List.length_eq_three.mp hl
    exact ⟨_, _, .setPosition h1⟩
  | .setVelocity args, h => by
    obtain ⟨vs, u, h1⟩ := safeAll_evaluates hf args h.2
    have hl := (evaluatesAll_length h1).trans h.1
    obtain ⟨a, b, c, rfl⟩ := List.length_eq_three.mp hl
    exact ⟨_, _, .setVelocity h1⟩
  | .setWeight e, h => by
    obtain ⟨v, u, h1⟩ := safe_evaluates hf e h
    exact ⟨_, _, .setWeight h1⟩

theorem safeAll_evaluates {ql : QLib Q} (hf : ql.Faithful) {wa : WeightAcc W} {w : OpsWorld W} :
    ∀ (es : List (OExpr Q)), SafeAllOps w es → ∃ vs u, EvaluatesAll ql wa w es vs u
  | [], _ => ⟨_, _, .nil⟩
  | e :: es, h => by
    obtain ⟨v, u, h1⟩ := safe_evaluates hf e h.1
    obtain ⟨vs, u', h2⟩ := safeAll_evaluates hf es h.2
    exact ⟨_, _, .cons h1 h2⟩

end

/-- Expressions that read existing quantities of the two reactants and call the setters with the right numbers of
arguments always run through. -/
theorem C91_safe {ql : QLib Q} (hf : ql.Faithful) (wa : WeightAcc W) (charge : ℤ → Option ℝ) (es : List (OExpr Q)) (k : ℕ)
    (p q : Part W) (sc : Scratch) (st : OpsStuff W) (mem : List (Part W))
    (h : SafeAllOps ⟨p, q, charge, sc.cm, sc.cq⟩ es) :
    ∃ r, opsProcess ql wa charge es k p q sc st mem = .ok r := by
  obtain ⟨vs, u, h1⟩ := safeAll_evaluates hf (wa := wa) es h
  obtain ⟨st', h2⟩ := (C91_meaning (k := k) (st := st) (mem := mem) _).mpr ⟨vs, u, h1, rfl⟩
  exact ⟨_, h2⟩

/-! ## In an interaction -/

/-- The same compiler, except that the expressions do nothing. -/
def OpsCompiler.silent (oc : OpsCompiler W) : OpsCompiler W :=
  { oc with compile := fun _ r _ _ _ => (r.pos, r.vel, r.rest) }

/-- The same model with other expressions. -/
def InModel.withOps (o : List (Option (OpsFn W))) : InModel W → InModel W
  | .two m => .two { m with ops := o }
  | .three m => .three { m with ops := o }
  | .unsupported => .unsupported

theorem newLoad_silent (db : Registry ℝ) (oc : OpsCompiler W) (e : LEq) (declared : Option ℝ) (threshold : ℝ) :
    newLoad db oc.silent e declared threshold = (newLoad db oc e declared threshold).map
      (InModel.withOps ((productOps e.products).map fun o =>
        if o = "" then none else some fun r _ _ _ => (r.pos, r.vel, r.rest))) := by
  unfold newLoad
  dsimp only
  split
  · split
    · split
      · rfl
      · split
        · split <;> rfl
        · split <;> rfl
    · rfl
  · rfl

theorem applyOps_silent (x : String) (r p q : Part W) (sc : Scratch) :
    applyOps (if x = "" then none else some fun (r : Part W) _ _ _ => (r.pos, r.vel, r.rest)) r p q sc = r := by
  by_cases h : x = "" <;> simp [applyOps, h]

theorem applyOps_meaning {ql : QLib Q} {wa : WeightAcc W} {charge : ℤ → Option ℝ} {parse : String → List (OExpr Q)}
    {print : OExpr Q → String} {o : String} {r p q : Part W} {sc : Scratch} {vs : List Q} {u : OpsUpdate} (ho : o ≠ "")
    (h : EvaluatesAll ql wa ⟨p, q, charge, sc.cm, sc.cq⟩ (parse o) vs u) :
    applyOps (if o = "" then none else some ((opsCompiler ql wa charge parse print).compile o)) r p q sc =
      u.apply wa r := by
  obtain ⟨st', h2⟩ := (C91_meaning (k := 0) (st := .null) (mem := [r]) _).mpr ⟨vs, u, h, rfl⟩
  simp only [ho, if_false, applyOps, opsCompiler, h2]
  rfl

theorem scratch_centres {m : InElastic W} {a b : Props ℝ} {db : Registry ℝ} {oc : OpsCompiler W} {e : LEq} {dE : ℝ}
    (ha : 0 < a.mass) (hb : 0 < b.mass) (L : LoadedCommon db oc e dE a b m) (charge : ℤ → Option ℝ) (p q : Part W) :
    (oc.usesCM (productOps e.products) = true → (worldOf charge a b p q).cm =
      (Scratch.make m.facs p q m.mu m.muQ m.forceCM m.forceCQ).cm) ∧
    (oc.usesCQ (productOps e.products) = true → (worldOf charge a b p q).cq =
      (Scratch.make m.facs p q m.mu m.muQ m.forceCM m.forceCQ).cq) := by
  constructor
  · intro h
    obtain ⟨_, e1, e2⟩ := reducedMass_eq ha hb
    simp only [Scratch.make, L.cm, h, Bool.true_or, if_true, worldOf, L.mu, e1, e2]
    rw [weighted_eq]
  · intro h
    simp only [Scratch.make, L.cq, h, Bool.true_or, if_true, worldOf, L.muQ]
    have c1 := chargeRatio_eq a.charge b.charge
    have c2 := chargeRatio_eq b.charge a.charge
    by_cases h0 : a.charge + b.charge = 0
    · rw [if_pos h0]
      simp [ReducedCharge.mk', c1.1 h0]
    · rw [if_neg h0]
      have h0' : b.charge + a.charge ≠ 0 := by rwa [add_comm]
      simp only [ReducedCharge.mk', c1.2 h0, c2.2 h0']
      rw [add_comm b.charge a.charge, weighted_eq]

theorem callsAny_iff (f : String) (es : List (OExpr Q)) : OExpr.callsAny f es = true ↔ ∃ e ∈ es, e.calls f = true := by
  induction es with
  | nil => simp [OExpr.callsAny]
  | cons e es ih => simp [OExpr.callsAny, ih]

theorem hasToken_of {print : OExpr Q → String} {f token : String}
    (h : ∀ e : OExpr Q, e.calls f = true → ∃ a b, (print e).toList = a ++ (token.toList ++ b))
    {parse : String → List (OExpr Q)} {os : List String} {o : String} (ho : o ∈ os) (hne : o ≠ "")
    (hc : OExpr.callsAny f (parse o) = true) : hasToken print token (opsExpressions parse os) = true := by
  obtain ⟨e, he, hc⟩ := (callsAny_iff f _).mp hc
  obtain ⟨a, b, hab⟩ := h e hc
  unfold hasToken
  rw [containsChars_iff]
  obtain ⟨l1, l2, hl⟩ := List.append_of_mem (show parse o ∈ opsExpressions parse os from
    List.mem_map.2 ⟨o, ho, by simp [hne]⟩)
  obtain ⟨k1, k2, hk⟩ := List.append_of_mem he
  refine ⟨(l1.flatMap fun es => es.flatMap fun e => (print e).toList) ++ ((k1.flatMap fun e => (print e).toList) ++ a),
    b ++ ((k2.flatMap fun e => (print e).toList) ++ l2.flatMap fun es => es.flatMap fun e => (print e).toList), ?_⟩
  rw [hl, List.flatMap_append, List.flatMap_cons, hk, List.flatMap_append, List.flatMap_cons, hab]
  simp only [List.append_assoc]

theorem interact2_ops {m : InElastic W} {rng : RNG S ℝ} {p q : Part W} {s s' : S} {out : List (Part W)}
    (h : m.interact2 rng p q s = some (out, s')) : ∃ o1 o2 r1 r2, m.ops = [o1, o2] ∧
      ∀ n1 n2, ({ m with ops := [n1, n2] } : InElastic W).interact2 rng p q s = some
        ([applyOps n1 r1 p q (Scratch.make m.facs p q m.mu m.muQ m.forceCM m.forceCQ),
          applyOps n2 r2 p q (Scratch.make m.facs p q m.mu m.muQ m.forceCM m.forceCQ)], s') := by
  unfold InElastic.interact2 at h
  split at h
  swap
  · cases h
  rename_i f1 f2 o1 o2 hfacs hops
  simp only at h
  split at h
  swap
  · cases h
  rename_i r1 r2 speed hr1 hr2 hspeed
  simp only [Option.some.injEq, Prod.mk.injEq] at h
  obtain ⟨_, rfl⟩ := h
  rw [hfacs] at hr1 hr2
  refine ⟨o1, o2,
    { r1 with vel := velCM m.mu p.vel q.vel + (m.mu1.over_m1 * m.mu1Scale) • (isoVec rng speed s).1 },
    { r2 with vel := velCM m.mu p.vel q.vel - (m.mu1.over_m2 * m.mu1Scale) • (isoVec rng speed s).1 },
    hops, fun n1 n2 => ?_⟩
  unfold InElastic.interact2
  simp only [hfacs, hr1, hr2, hspeed]

theorem interact3_ops {m : InElastic W} {rng : RNG S ℝ} {p q : Part W} {s s' : S} {out : List (Part W)}
    (h : m.interact3 rng p q s = some (out, s')) : ∃ o1 o2 o3 r1 r2 r3, m.ops = [o1, o2, o3] ∧
      ∀ n1 n2 n3, ({ m with ops := [n1, n2, n3] } : InElastic W).interact3 rng p q s = some
        ([applyOps n1 r1 p q (Scratch.make m.facs p q m.mu m.muQ m.forceCM m.forceCQ),
          applyOps n2 r2 p q (Scratch.make m.facs p q m.mu m.muQ m.forceCM m.forceCQ),
          applyOps n3 r3 p q (Scratch.make m.facs p q m.mu m.muQ m.forceCM m.forceCQ)], s') := by
  unfold InElastic.interact3 at h
  split at h
  swap
  · cases h
  rename_i f1 f2 f3 o1 o2 o3 hfacs hops
  simp only at h
  split at h
  swap
  · cases h
  rename_i r1 r2 r3 speed hr1 hr2 hr3 hspeed
  simp only [Option.some.injEq, Prod.mk.injEq] at h
  obtain ⟨_, rfl⟩ := h
  rw [hfacs] at hr1 hr2 hr3
  refine ⟨o1, o2, o3,
    { r1 with vel := velCM m.mu p.vel q.vel +
        (m.mu1.over_m1 * m.mu1Scale) • (isoVec rng (speed * Real.sqrt (rng.rand s).1) (rng.rand s).2).1 },
    { r2 with vel := velCM m.mu p.vel q.vel -
        (m.mu1.over_m2 * m.mu1Scale) • (isoVec rng (speed * Real.sqrt (rng.rand s).1) (rng.rand s).2).1 +
        (m.mu2.over_m1 * m.mu2Scale) • (isoVec rng (speed * Real.sqrt (1 - (rng.rand s).1))
          (isoVec rng (speed * Real.sqrt (rng.rand s).1) (rng.rand s).2).2).1 },
    { r3 with vel := velCM m.mu p.vel q.vel -
        (m.mu1.over_m2 * m.mu1Scale) • (isoVec rng (speed * Real.sqrt (rng.rand s).1) (rng.rand s).2).1 -
        (m.mu2.over_m2 * m.mu2Scale) • (isoVec rng (speed * Real.sqrt (1 - (rng.rand s).1))
          (isoVec rng (speed * Real.sqrt (rng.rand s).1) (rng.rand s).2).2).1 },
    hops, fun n1 n2 n3 => ?_⟩
  unfold InElastic.interact3
  simp only [hfacs, hr1, hr2, hr3, hspeed]

/-- The products of an interaction with expressions, in terms of the scratch space. -/
theorem interaction_scratch {ql : QLib Q} {wa : WeightAcc W} {charge : ℤ → Option ℝ} {parse : String → List (OExpr Q)}
    {print : OExpr Q → String} {db : Registry ℝ} {e : LEq} {declared : Option ℝ} {threshold : ℝ}
    (hn : ∀ t ∈ e.products, 0 ≤ t.n) (rng : RNG S ℝ) (p q : Part W) (s s' : S) (out : List (Part W)) {m : InElastic W}
    (h : newLoad db (opsCompiler ql wa charge parse print) e declared threshold = .ok (.two m) ∧
        m.interact2 rng p q s = some (out, s') ∨
      newLoad db (opsCompiler ql wa charge parse print) e declared threshold = .ok (.three m) ∧
        m.interact3 rng p q s = some (out, s')) :
    ∃ a b rs, LoadedCommon db (opsCompiler ql wa charge parse print) e (declared.getD (-threshold)) a b m ∧
      Produces db (opsCompiler ql wa charge parse print).silent e declared threshold rng p q s rs ∧
      rs.length = (productOps e.products).length ∧
      List.Forall₂ (fun (x : String × Part W) y => x.1 ∈ productOps e.products ∧ (x.1 = "" → y = x.2) ∧
          (x.1 ≠ "" → ∀ vs u, EvaluatesAll ql wa ⟨p, q, charge,
            (Scratch.make m.facs p q m.mu m.muQ m.forceCM m.forceCQ).cm,
            (Scratch.make m.facs p q m.mu m.muQ m.forceCM m.forceCQ).cq⟩ (parse x.1) vs u → y = u.apply wa x.2))
        ((productOps e.products).zip rs) out := by
  have one : ∀ (x : String) (_ : x ∈ productOps e.products) (sc : Scratch) (r : Part W),
      x ∈ productOps e.products ∧ (x = "" →
        applyOps (if x = "" then none else some ((opsCompiler ql wa charge parse print).compile x)) r p q sc = r) ∧
      (x ≠ "" → ∀ vs u, EvaluatesAll ql wa ⟨p, q, charge, sc.cm, sc.cq⟩ (parse x) vs u →
        applyOps (if x = "" then none else some ((opsCompiler ql wa charge parse print).compile x)) r p q sc =
          u.apply wa r) := by
    intro x hx sc r
    refine ⟨hx, fun h => by simp [h, applyOps], fun hne vs u hu => applyOps_meaning hne hu⟩
  obtain ⟨h1, h2⟩ | ⟨h1, h2⟩ := h
  · obtain ⟨a, b, _, _, _, _, L, _⟩ := newLoad_two hn h1
    have hs := newLoad_silent db (opsCompiler ql wa charge parse print) e declared threshold
    rw [h1] at hs
    have hL := L.ops
    obtain ⟨o1, o2, r1, r2, hops, hi⟩ := interact2_ops h2
    rw [hops] at hL
    obtain ⟨x1, x2, hx⟩ := List.length_eq_two.mp (show (productOps e.products).length = 2 by
      simpa using (congrArg List.length hL).symm)
    rw [hx] at hL hs one ⊢
    simp only [List.map_cons, List.map_nil, List.cons.injEq, and_true] at hL
    obtain ⟨rfl, rfl⟩ := hL
    have hm := hi (if x1 = "" then none else some ((opsCompiler ql wa charge parse print).compile x1))
      (if x2 = "" then none else some ((opsCompiler ql wa charge parse print).compile x2))
    rw [← hops] at hm
    have hout := congrArg Prod.fst (Option.some.inj (hm.symm.trans h2))
    dsimp only at hout
    subst hout
    refine ⟨a, b, [r1, r2], L, ⟨_, s', .inl ⟨hs, ?_⟩⟩, rfl, ?_⟩
    · have := hi (if x1 = "" then none else some fun r _ _ _ => (r.pos, r.vel, r.rest))
        (if x2 = "" then none else some fun r _ _ _ => (r.pos, r.vel, r.rest))
      rw [applyOps_silent, applyOps_silent] at this
      exact this
    · exact .cons (one x1 (by simp) _ _) (.cons (one x2 (by simp) _ _) .nil)
  · obtain ⟨a, b, _, _, _, _, _, _, L, _⟩ := newLoad_three hn h1
    have hs := newLoad_silent db (opsCompiler ql wa charge parse print) e declared threshold
    rw [h1] at hs
    have hL := L.ops
    obtain ⟨o1, o2, o3, r1, r2, r3, hops, hi⟩ := interact3_ops h2
    rw [hops] at hL
    obtain ⟨x1, x2, x3, hx⟩ := List.length_eq_three.mp (show (productOps e.products).length = 3 by
      simpa using (congrArg List.length hL).symm)
    rw [hx] at hL hs one ⊢
    simp only [List.map_cons, List.map_nil, List.cons.injEq, and_true] at hL
    obtain ⟨rfl, rfl, rfl⟩ := hL
    have hm := hi (if x1 = "" then none else some ((opsCompiler ql wa charge parse print).compile x1))
      (if x2 = "" then none else some ((opsCompiler ql wa charge parse print).compile x2))
      (if x3 = "" then none else some ((opsCompiler ql wa charge parse print).compile x3))
    rw [← hops] at hm
    have hout := congrArg Prod.fst (Option.some.inj (hm.symm.trans h2))
    dsimp only at hout
    subst hout
    refine ⟨a, b, [r1, r2, r3], L, ⟨_, s', .inr ⟨hs, ?_⟩⟩, rfl, ?_⟩
    · have := hi (if x1 = "" then none else some fun r _ _ _ => (r.pos, r.vel, r.rest))
        (if x2 = "" then none else some fun r _ _ _ => (r.pos, r.vel, r.rest))
        (if x3 = "" then none else some fun r _ _ _ => (r.pos, r.vel, r.rest))
      rw [applyOps_silent, applyOps_silent, applyOps_silent] at this
      exact this
    · exact .cons (one x1 (by simp) _ _) (.cons (one x2 (by simp) _ _) (.cons (one x3 (by simp) _ _) .nil))

/-- An interaction with expressions is the interaction without them, followed by what the expressions say: each product is
first made as if no expressions were written, and then updated as its expressions mean, where `CM` is the centre of mass
and `CQ` the centre of charge of the two particles that meet.  This needs the calculator to print a call as `CM()`. -/
theorem C91_interaction {ql : QLib Q} {wa : WeightAcc W} {charge : ℤ → Option ℝ} {parse : String → List (OExpr Q)}
    {print : OExpr Q → String} (hprint : PrintsCalls print) {db : Registry ℝ} {e : LEq} {declared : Option ℝ}
    {threshold : ℝ} (hn : ∀ t ∈ e.products, 0 ≤ t.n) (hpos : ∀ x ∈ db, 0 < x.mass) (rng : RNG S ℝ) (p q : Part W) (s : S)
    (out : List (Part W))
    (h : Produces db (opsCompiler ql wa charge parse print) e declared threshold rng p q s out) :
    ∃ a b rs, db[e.A.species.toNat]? = some a ∧ db[e.B.species.toNat]? = some b ∧
      Produces db (opsCompiler ql wa charge parse print).silent e declared threshold rng p q s rs ∧
      rs.length = (productOps e.products).length ∧
      List.Forall₂ (fun (x : String × Part W) y => (x.1 = "" → y = x.2) ∧ (x.1 ≠ "" → ∀ vs u,
          EvaluatesAll ql wa (worldOf charge a b p q) (parse x.1) vs u → y = u.apply wa x.2))
        ((productOps e.products).zip rs) out := by
  obtain ⟨m, s', h⟩ := h
  obtain ⟨a, b, rs, L, hP, hl, hF⟩ := interaction_scratch hn rng p q s s' out h
  have ha := hpos a (List.mem_of_getElem? L.hA)
  have hb := hpos b (List.mem_of_getElem? L.hB)
  refine ⟨a, b, rs, L.hA, L.hB, hP, hl, hF.imp ?_⟩
  rintro ⟨o, r⟩ y ⟨hmem, h1, h2⟩
  refine ⟨h1, fun hne vs u hu => h2 hne vs u ?_⟩
  obtain ⟨c1, c2⟩ := scratch_centres ha hb L charge p q
  generalize Scratch.make m.facs p q m.mu m.muQ m.forceCM m.forceCQ = sc at c1 c2 ⊢
  exact evaluatesAll_centres (w := worldOf charge a b p q) (w' := ⟨p, q, charge, sc.cm, sc.cq⟩) rfl rfl rfl _
    (fun hc => c1 (hasToken_of hprint.1 hmem hne hc)) (fun hc => c2 (hasToken_of hprint.2 hmem hne hc)) hu

/-- **C91**  Which text belongs to which product: the products of a loaded equation come by increasing mass and name of
their species, those of one species in the order of the document, and each has the `ops` text of the `T` element it
was written with, an element of several particles giving its text to each of them. -/
theorem C91_texts {K : Type} [LinearOrder K] {db : Registry K} (hnd : NodupNames db) {cs ms : List String} {x : EqNode}
    {e : LEq} (h : loadEq db cs ms x = .ok e) :
    ∃ ps : List (Props K), Listing db x.outs ps ∧
      productOps e.products = ps.flatMap fun p =>
        (x.outs.filter fun t => t.P = p.name).flatMap fun t => List.replicate t.mult.toNat t.ops := by
  obtain ⟨ins, outs, nOut, -, a2, -, a4, -⟩ := loadEq_ok h
  refine ⟨outs.map Prod.fst, listing_of_side hnd a2, ?_⟩
  have hprod : _ = e.products := Except.ok.inj ((outputTerms_loaded hnd a2).symm.trans a4)
  obtain ⟨-, -, h3, -⟩ := C10_side_contents hnd _ _ _ a2
  rw [← hprod]
  unfold productOps
  rw [List.flatMap_map, List.flatMap_map]
  refine List.flatMap_congr fun d hd => ?_
  obtain ⟨-, -, -, h4, -, h5⟩ := h3 d hd
  have hlen : d.2.n.toNat = d.2.ops.length := by omega
  have : (List.range d.2.n.toNat).map (fun ni => d.2.ops[ni]?.getD "") = d.2.ops := by
    rw [hlen]
    refine List.ext_getElem (by simp) fun i h1 h2 => by simp [h2]
  refine this.trans ?_
  rw [h4]
  simp [opsList, nodesOf]

/-- An electron written first and another after the ion, with different texts: the two electrons keep them. -/
example : ∃ e, loadEq exDB ["vhs"] ["elastic", "inelastic"]
    ⟨[⟨"H", none, -1, ""⟩, ⟨"e", none, -1, ""⟩],
      [⟨"e", some 1, -1, "a"⟩, ⟨"H", none, -1, "b"⟩, ⟨"e", some 2, -1, "c"⟩], "vhs", none⟩ = .ok e ∧
    productOps e.products = ["a", "c", "c", "b"] := ⟨_, rfl, by decide +kernel⟩

/-- If the calculator prints calls in some other way, such as `CM(0)`, and no product is placed at the centre of mass
anyway, then the centre of mass is the origin as far as the expressions can see. -/
theorem C91_centre_unseen {ql : QLib Q} {wa : WeightAcc W} {charge : ℤ → Option ℝ} {parse : String → List (OExpr Q)}
    {print : OExpr Q → String} {db : Registry ℝ} {e : LEq} {declared : Option ℝ} {threshold : ℝ}
    (hprint : hasToken print "CM()" (opsExpressions parse (productOps e.products)) = false)
    (hn : ∀ t ∈ e.products, 0 ≤ t.n) (rng : RNG S ℝ) (p q : Part W) (s s' : S) (out : List (Part W)) {m : InElastic W}
    (h : newLoad db (opsCompiler ql wa charge parse print) e declared threshold = .ok (.two m) ∧
        m.interact2 rng p q s = some (out, s') ∨
      newLoad db (opsCompiler ql wa charge parse print) e declared threshold = .ok (.three m) ∧
        m.interact3 rng p q s = some (out, s')) (hfac : ∀ f ∈ m.facs, f.op ≠ .cm)
    {k : ℕ} {o : String} (ho : (productOps e.products)[k]? = some o) (hne : o ≠ "")
    (hcq : OExpr.callsAny "CQ" (parse o) = false) {vs : List Q} {u : OpsUpdate}
    (hu : EvaluatesAll ql wa ⟨p, q, charge, 0, none⟩ (parse o) vs u) :
    ∃ rs r, Produces db (opsCompiler ql wa charge parse print).silent e declared threshold rng p q s rs ∧
      rs[k]? = some r ∧ out[k]? = some (u.apply wa r) := by
  obtain ⟨a, b, rs, L, hP, hl, hF⟩ := interaction_scratch hn rng p q s s' out h
  obtain ⟨hk, _⟩ := List.getElem?_eq_some_iff.1 ho
  have hk' : k < rs.length := by omega
  refine ⟨rs, rs[k], hP, List.getElem?_eq_getElem hk', ?_⟩
  have hz : ((productOps e.products).zip rs)[k]? = some (o, rs[k]) := by
    rw [List.getElem?_zip_eq_some]
    exact ⟨ho, List.getElem?_eq_getElem hk'⟩
  obtain ⟨hzl, hze⟩ := List.getElem?_eq_some_iff.1 hz
  have hol : k < out.length := by rw [← hF.length_eq]; exact hzl
  have := List.Forall₂.get hF hzl hol
  simp only [List.get_eq_getElem, hze] at this
  rw [List.getElem?_eq_getElem hol]
  refine congrArg some (this.2.2 hne vs u ?_)
  have hcm : (Scratch.make m.facs p q m.mu m.muQ m.forceCM m.forceCQ).cm = 0 := by
    have h0 : m.forceCM = false := L.cm.trans hprint
    have h1 : m.facs.any (fun f => f.op == .cm) = false := by
      rw [List.any_eq_false]
      intro f hf
      simpa using hfac f hf
    simp [Scratch.make, h0, h1]
  generalize Scratch.make m.facs p q m.mu m.muQ m.forceCM m.forceCQ = sc at hcm ⊢
  refine evaluatesAll_centres (w := ⟨p, q, charge, 0, none⟩) (w' := ⟨p, q, charge, sc.cm, sc.cq⟩) rfl rfl rfl _
    (fun _ => hcm.symm) (fun hc => ?_) hu
  rw [hcq] at hc
  cases hc

/-- Expressions that do not call `setVelocity` leave velocities alone. -/
theorem C91_keeps_velocity {ql : QLib Q} {wa : WeightAcc W} {charge : ℤ → Option ℝ} {parse : String → List (OExpr Q)}
    {print : OExpr Q → String}
    {e : LEq} (h : ∀ o ∈ productOps e.products, OExpr.callsAny "setVelocity" (parse o) = false) :
    OpsKeepVel (opsCompiler ql wa charge parse print) e := by
  intro o ho _ r p q sc
  simp only [opsCompiler]
  split
  · rename_i st' r' hr
    obtain ⟨vs, u, hu, hm⟩ := (C91_meaning _).mp ⟨st', hr⟩
    have : r' = u.apply wa r := by simpa using hm
    subst this
    simp [OpsUpdate.apply, (evaluatesAll_frame _ hu).2.1 (h o ho)]
  · rfl

/-- So expressions that only move products or weigh them do not disturb momentum and energy: if mass is conserved, the
products carry the momentum of the reactants, and the kinetic energy changes by the energy of the reaction. -/
theorem C91_conserves {ql : QLib Q} {wa : WeightAcc W} {charge : ℤ → Option ℝ} {parse : String → List (OExpr Q)}
    {print : OExpr Q → String}
    {db : Registry ℝ} {e : LEq} {declared : Option ℝ} {threshold : ℝ} (hn : ∀ t ∈ e.products, 0 ≤ t.n)
    (hpos : ∀ x ∈ db, 0 < x.mass) (h : ∀ o ∈ productOps e.products, OExpr.callsAny "setVelocity" (parse o) = false)
    (rng : RNG S ℝ) (hr : rng.Unit) (p q : Part W) (s : S) (out : List (Part W))
    (hp : Produces db (opsCompiler ql wa charge parse print) e declared threshold rng p q s out) :
    ∃ (a b : Props ℝ) (ps : List (Props ℝ)),
      db[e.A.species.toNat]? = some a ∧ db[e.B.species.toNat]? = some b ∧
      (expandTerms e.products).map (fun t => db[t.species.toNat]?) = ps.map some ∧ ps.length = out.length ∧
      ((ps.map Props.mass).sum = a.mass + b.mass →
        (List.zipWith (fun c (r : Part W) => c.mass • r.vel) ps out).foldr (· + ·) 0 = a.mass • p.vel + b.mass • q.vel ∧
        (List.zipWith (fun c (r : Part W) => ke c.mass r.vel) ps out).sum =
          ke a.mass p.vel + ke b.mass q.vel + declared.getD (-threshold)) := by
  have z : ∀ v : Vec, v + 0 = v := fun v => by ext <;> exact add_zero _
  obtain ⟨m, s', ⟨h1, h2⟩ | ⟨h1, h2⟩⟩ := hp
  · obtain ⟨a, b, p1, p2, r1, r2, hA, hB, hl, rfl, _, _, hc, _⟩ :=
      C47_two_products hn h1 hpos (C91_keeps_velocity h) rng hr p q s s' out h2
    refine ⟨a, b, [p1, p2], hA, hB, hl, rfl, fun hm => ?_⟩
    simp only [List.map_cons, List.map_nil, List.sum_cons, List.sum_nil, add_zero] at hm
    obtain ⟨k1, k2⟩ := hc hm
    refine ⟨?_, ?_⟩
    · show p1.mass • r1.vel + (p2.mass • r2.vel + 0) = _
      rw [z]; exact k1
    · show (ke p1.mass r1.vel :: ke p2.mass r2.vel :: []).sum = _
      rw [List.sum_cons, List.sum_cons, List.sum_nil, add_zero]; exact k2
  · obtain ⟨a, b, p1, p2, p3, r1, r2, r3, hA, hB, hl, rfl, _, _, hc, _⟩ :=
      C48_three_products hn h1 hpos (C91_keeps_velocity h) rng hr p q s s' out h2
    refine ⟨a, b, [p1, p2, p3], hA, hB, hl, rfl, fun hm => ?_⟩
    simp only [List.map_cons, List.map_nil, List.sum_cons, List.sum_nil, add_zero] at hm
    obtain ⟨k1, k2⟩ := hc hm
    refine ⟨?_, ?_⟩
    · show p1.mass • r1.vel + (p2.mass • r2.vel + (p3.mass • r3.vel + 0)) = _
      rw [z]; exact k1
    · show (ke p1.mass r1.vel :: ke p2.mass r2.vel :: ke p3.mass r3.vel :: []).sum = _
      rw [List.sum_cons, List.sum_cons, List.sum_cons, List.sum_nil, add_zero]; exact k2

/-! ## Examples -/

namespace OpsExample

/-- Quantities without units. -/
noncomputable def ql : QLib ℝ := ⟨id, id, fun x => ⌊x⌋⟩

theorem faithful : ql.Faithful := ⟨fun _ => rfl, fun n => Int.floor_natCast n⟩

/-- Particles whose other data is a weight. -/
def wa : WeightAcc ℝ := ⟨id, fun _ x => x, fun _ _ _ => rfl⟩

/-- Charges of the species of `exReal`. -/
def charge : ℤ → Option ℝ := fun k => (exReal[k.toNat]?).map Props.charge

/-- The product of the values. -/
def times : List ℝ → Option ℝ
  | [a, b] => some (a * b)
  | _ => none

/-- `setPosition(P(0,X)*P(0,Y), P(1,Y), P(0,Z))`, as in `test/inelastic_helpers.cpp` line 370 -/
def text1 : List (OExpr ℝ) :=
  [.setPosition [.prim times [.P (.num 0) (.item "X"), .P (.num 0) (.item "Y")], .P (.num 1) (.item "Y"),
    .P (.num 0) (.item "Z")]]

/-- `setPosition(CM(0), CM(1), CM(2))`, as in line 372 there -/
def text2 : List (OExpr ℝ) := [.setPosition [.CM (.num 0), .CM (.num 1), .CM (.num 2)]]

/-- A text with two places, the second of which counts, and a weight. -/
def text3 : List (OExpr ℝ) := [.setPosition [.num 9, .num 9, .num 9], .setWeight (.num 7), .setPosition [.num 1, .num 2,
  .P (.num 1) (.item "SPECIES_CHARGE")]]

/-- The parser on these texts. -/
def parse (o : String) : List (OExpr ℝ) := if o = "1" then text1 else if o = "2" then text2 else text3

/-- Printing the functions that are called. -/
def print (e : OExpr ℝ) : String :=
  (if e.calls "CM" then "CM()" else "") ++ (if e.calls "CQ" then "CQ()" else "")

theorem print_calls : PrintsCalls print := by
  refine ⟨fun e h => ⟨[], (if e.calls "CQ" then "CQ()" else "").toList, ?_⟩,
    fun e h => ⟨(if e.calls "CM" then "CM()" else "").toList, [], ?_⟩⟩
  · simp [print, h]
  · simp [print, h]

def p : Part ℝ := ⟨⟨2, 3, 4⟩, ⟨6, 0, 0⟩, 0, 5⟩
def q : Part ℝ := ⟨⟨0, 8, 0⟩, ⟨0, 0, 0⟩, 3, 6⟩

theorem text1_safe (sc : Scratch) : SafeAllOps ⟨p, q, charge, sc.cm, sc.cq⟩ text1 := by
  refine ⟨⟨rfl, ⟨fun vs hv => ?_, ?_, ?_, trivial⟩, ?_, ?_, trivial⟩, trivial⟩
  · obtain ⟨a, b, rfl⟩ := List.length_eq_two.mp hv
    simp [times]
  all_goals exact ⟨by simp, by simp [readingNames], by simp⟩

/-- The first text on the middle one of three products. -/
example (sc : Scratch) (st : OpsStuff ℝ) (a b c : Part ℝ) :
    ∃ st', opsProcess ql wa charge text1 1 p q sc st [a, b, c] = .ok (st', [a, { b with pos := ⟨6, 8, 4⟩ }, c]) := by
  refine (C91_meaning _).mpr ⟨[1], { pos := some ⟨6, 8, 4⟩ }, ?_, rfl⟩
  have r0 : ∀ (name : String) (x : ℝ), (name = "X" ∧ x = 2 ∨ name = "Y" ∧ x = 3 ∨ name = "Z" ∧ x = 4) →
      Evaluates ql wa ⟨p, q, charge, sc.cm, sc.cq⟩ (.P (.num 0) (.item name)) x {} := by
    intro name x h
    have := (C91_reading faithful (wa := wa) (w := ⟨p, q, charge, sc.cm, sc.cq⟩) 0 name x {}).mpr
      ⟨rfl, p, x, by simp, rfl, by
        rcases h with ⟨rfl, rfl⟩ | ⟨rfl, rfl⟩ | ⟨rfl, rfl⟩ <;> simp [p]⟩
    simpa using this
  have r1 : Evaluates ql wa ⟨p, q, charge, sc.cm, sc.cq⟩ (.P (.num 1) (.item "Y")) 8 {} := by
    have := (C91_reading faithful (wa := wa) (w := ⟨p, q, charge, sc.cm, sc.cq⟩) 1 "Y" 8 {}).mpr
      ⟨rfl, q, 8, by simp, rfl, by simp [q]⟩
    simpa using this
  have hx : Evaluates ql wa ⟨p, q, charge, sc.cm, sc.cq⟩
      (.prim times [.P (.num 0) (.item "X"), .P (.num 0) (.item "Y")]) 6 {} :=
    .prim (.cons (r0 "X" 2 (by simp)) (.cons (r0 "Y" 3 (by simp)) .nil)) (by norm_num [times])
  exact .cons (.setPosition (.cons hx (.cons r1 (.cons (r0 "Z" 4 (by simp)) .nil)))) .nil

/-- It runs through for any products. -/
example (sc : Scratch) (st : OpsStuff ℝ) (k : ℕ) (mem : List (Part ℝ)) :
    ∃ r, opsProcess ql wa charge text1 k p q sc st mem = .ok r :=
  C91_safe faithful wa charge text1 k p q sc st mem (text1_safe sc)

/-- With two places given, the second counts: charge 1 of the ion is its third coordinate. -/
example (sc : Scratch) (st : OpsStuff ℝ) (b : Part ℝ) :
    ∃ st', opsProcess ql wa charge text3 0 p q sc st [b] =
      .ok (st', [⟨⟨1, 2, 1⟩, b.vel, b.species, 7⟩]) := by
  refine (C91_meaning _).mpr ⟨[1, 1, 1], { pos := some ⟨1, 2, 1⟩, weight := some 7 }, ?_, rfl⟩
  have r1 : Evaluates ql wa ⟨p, q, charge, sc.cm, sc.cq⟩ (.P (.num 1) (.item "SPECIES_CHARGE")) 1 {} := by
    have := (C91_reading faithful (wa := wa) (w := ⟨p, q, charge, sc.cm, sc.cq⟩) 1 "SPECIES_CHARGE" 1 {}).mpr
      ⟨rfl, q, 1, by simp, rfl, by simp [q, charge, exReal]⟩
    simpa using this
  exact .cons (.setPosition (.cons (.num _) (.cons (.num _) (.cons (.num _) .nil))))
    (.cons (.setWeight (.num _)) (.cons (.setPosition (.cons (.num _) (.cons (.num _) (.cons r1 .nil)))) .nil))

/-- A third reactant cannot be read. -/
example (sc : Scratch) (st : OpsStuff ℝ) (mem : List (Part ℝ)) :
    ¬ ∃ r, opsProcess ql wa charge [.P (.num 2) (.item "X")] 0 p q sc st mem = .ok r := by
  rintro ⟨⟨st', m⟩, h⟩
  obtain ⟨vs, u, hu, _⟩ := (C91_meaning _).mp ⟨st', h⟩
  cases hu with
  | cons h1 _ =>
    have h1 := (C91_reading faithful 2 "X" _ _).mp (by simpa using h1)
    obtain ⟨_, r, x, h, _⟩ := h1
    simp at h

/-- `e + H --> 2 e + H+`, the ion moved to the centre of mass by an expression, and a weight given to an electron -/
def ionize : LEq := ⟨Term.single 0, Term.single 1, [⟨0, 2, [-1, -1], ["3", ""]⟩, ⟨3, 1, [-1], ["2"]⟩], "c",
  "inelastic"⟩

theorem ionize_wf : WellFormed exReal ionize :=
  ⟨⟨_, rfl⟩, ⟨_, rfl⟩, by simp [ionize], by simp [ionize], by simp [ionize, exReal]⟩

/-- The reaction runs; the first electron ends where its text puts it, with weight 7, the ion at the centre of mass; and
the momentum is that of the electron before. -/
example (rng : RNG S ℝ) (hr : rng.Unit) (s : S) (x : ℝ) : ∃ (r1 r2 r3 : Part ℝ),
    Produces exReal (opsCompiler ql wa charge parse print) ionize (some (-13)) 0 rng ⟨0, ⟨6, 0, 0⟩, 0, x⟩
      ⟨⟨2001, 0, 0⟩, ⟨0, 0, 0⟩, 1, x⟩ s [r1, r2, r3] ∧
    r1.pos = ⟨1, 2, 0⟩ ∧ r1.rest = 7 ∧ r3.pos = ⟨2000, 0, 0⟩ ∧
    (1 : ℝ) • r1.vel + ((1 : ℝ) • r2.vel + ((1999 : ℝ) • r3.vel + 0)) = (1 : ℝ) • ⟨6, 0, 0⟩ + (2000 : ℝ) • ⟨0, 0, 0⟩ := by
  set p : Part ℝ := ⟨0, ⟨6, 0, 0⟩, 0, x⟩ with hp
  set q : Part ℝ := ⟨⟨2001, 0, 0⟩, ⟨0, 0, 0⟩, 1, x⟩ with hq
  obtain ⟨m, hm⟩ := (C70_three_products (opsCompiler ql wa charge parse print) ionize_wf (some (-13)) 0 exReal_pos
    (by simp [ionize]) (a := ⟨"e", 1, -1⟩) (b := ⟨"H", 2000, 0⟩) (p1 := ⟨"e", 1, -1⟩)
    (p2 := ⟨"e", 1, -1⟩) (p3 := ⟨"H+", 1999, 1⟩) rfl rfl rfl (by norm_num)).2 (by norm_num)
  obtain ⟨out, s', h⟩ := (C48_defined_iff ionize_wf.count hm exReal_pos rng p q s (a := ⟨"e", 1, -1⟩)
    (b := ⟨"H", 2000, 0⟩) rfl rfl).2 ⟨by simp [Vec.normSq, hp, hq]; norm_num, by norm_num⟩
  have hP : Produces exReal (opsCompiler ql wa charge parse print) ionize (some (-13)) 0 rng p q s out :=
    ⟨m, s', .inr ⟨hm, h⟩⟩
  have hops : productOps ionize.products = ["3", "", "2"] := rfl
  obtain ⟨a, b, rs, hA, hB, _, hl, hF⟩ := C91_interaction print_calls ionize_wf.count exReal_pos rng p q s out hP
  obtain ⟨a', b', ps, hA', hB', hps, hlen, hc⟩ := C91_conserves ionize_wf.count exReal_pos (by
    rw [hops]
    intro o ho
    simp only [List.mem_cons, List.not_mem_nil, or_false] at ho
    rcases ho with rfl | rfl | rfl <;>
      simp [parse, text2, text3, OExpr.callsAny, OExpr.calls]) rng hr p q s out hP
  obtain rfl : a = ⟨"e", 1, -1⟩ := (Option.some.inj hA).symm
  obtain rfl : b = ⟨"H", 2000, 0⟩ := (Option.some.inj hB).symm
  obtain rfl : a' = ⟨"e", 1, -1⟩ := (Option.some.inj hA').symm
  obtain rfl : b' = ⟨"H", 2000, 0⟩ := (Option.some.inj hB').symm
  have hps' : ps = [⟨"e", 1, -1⟩, ⟨"e", 1, -1⟩, ⟨"H+", 1999, 1⟩] := by
    have : [some (⟨"e", 1, -1⟩ : Props ℝ), some ⟨"e", 1, -1⟩, some ⟨"H+", 1999, 1⟩] = ps.map some := hps
    have hinj := List.map_injective_iff.mpr (Option.some_injective (Props ℝ))
    exact hinj (this.symm.trans rfl)
  subst hps'
  rw [hops] at hl hF
  obtain ⟨c1, c2, c3, rfl⟩ := List.length_eq_three.mp hl
  obtain ⟨r1, r2, r3, rfl⟩ := List.length_eq_three.mp hlen.symm
  simp only [List.zip_cons_cons, List.zip_nil_right, List.forall₂_cons, List.forall₂_nil_left_iff, and_true] at hF
  obtain ⟨⟨_, f1⟩, ⟨_, _⟩, ⟨_, f3⟩⟩ := hF
  have e1 : EvaluatesAll ql wa (worldOf charge ⟨"e", 1, -1⟩ ⟨"H", 2000, 0⟩ p q) (parse "3") [1, 1, 1]
      { pos := some ⟨1, 2, 0⟩, weight := some 7 } := by
    have r1 : Evaluates ql wa (worldOf charge ⟨"e", 1, -1⟩ ⟨"H", 2000, 0⟩ p q) (.P (.num 1) (.item "SPECIES_CHARGE"))
        0 {} := by
      have := (C91_reading faithful (wa := wa) (w := worldOf charge ⟨"e", 1, -1⟩ ⟨"H", 2000, 0⟩ p q) 1
        "SPECIES_CHARGE" 0 {}).mpr ⟨rfl, q, 0, by simp [worldOf], rfl, by simp [worldOf, hq, charge, exReal]⟩
      simpa using this
    exact .cons (.setPosition (.cons (.num _) (.cons (.num _) (.cons (.num _) .nil))))
      (.cons (.setWeight (.num _)) (.cons (.setPosition (.cons (.num _) (.cons (.num _) (.cons r1 .nil)))) .nil))
  have e3 : EvaluatesAll ql wa (worldOf charge ⟨"e", 1, -1⟩ ⟨"H", 2000, 0⟩ p q) (parse "2") [1]
      { pos := some (weightedMean 1 2000 p.pos q.pos) } :=
    .cons (.setPosition (.cons (.CM (k := 0) (.num _) (by simp [ql]) rfl) (.cons (.CM (k := 1) (.num _) (by simp [ql]) rfl)
      (.cons (.CM (k := 2) (.num _) (by simp [ql]) rfl) .nil)))) .nil
  have g1 := f1 (by decide) _ _ e1
  have g3 := f3 (by decide) _ _ e3
  refine ⟨r1, r2, r3, hP, by rw [g1]; rfl, by rw [g1]; rfl, ?_, ?_⟩
  · rw [g3]
    show weightedMean 1 2000 p.pos q.pos = _
    simp only [weightedMean, hp, hq]
    ext <;> simp [show (0 : Vec) = ⟨0, 0, 0⟩ from rfl] <;> norm_num
  · exact (hc (by norm_num)).1

/-- `e + H --> e + H*`, the atom moved to the centre of mass by an expression -/
def excite : LEq := ⟨Term.single 0, Term.single 1, [⟨0, 1, [0], [""]⟩, ⟨2, 1, [1], ["2"]⟩], "c", "inelastic"⟩

theorem excite_wf : WellFormed exReal excite :=
  ⟨⟨_, rfl⟩, ⟨_, rfl⟩, by simp [excite], by simp [excite], by simp [excite, exReal]⟩

/-- With a calculator that prints expressions as they are written the atom is put at the origin, although the centre of
mass is at `(2000, 0, 0)`. -/
example (rng : RNG S ℝ) (s : S) (x : ℝ) : ∃ (m : InElastic ℝ) (out : List (Part ℝ)) (s' : S) (r : Part ℝ),
    newLoad exReal (opsCompiler ql wa charge parse fun _ => "setPosition(CM(0), CM(1), CM(2))") excite none 10 =
      .ok (.two m) ∧
    m.interact2 rng ⟨0, ⟨5, 0, 0⟩, 0, x⟩ ⟨⟨2001, 0, 0⟩, ⟨0, 0, 0⟩, 1, x⟩ s = some (out, s') ∧
    out[1]? = some r ∧ r.pos = 0 := by
  obtain ⟨m, hm⟩ := (C70_two_products (opsCompiler ql wa charge parse fun _ => "setPosition(CM(0), CM(1), CM(2))")
    excite_wf none 10 exReal_pos (by simp [excite]) (a := ⟨"e", 1, -1⟩) (b := ⟨"H", 2000, 0⟩)
    (p1 := ⟨"e", 1, -1⟩) (p2 := ⟨"H*", 2000, 0⟩) rfl rfl rfl).2 (by norm_num)
  obtain ⟨out, s', h⟩ := (C47_defined_iff excite_wf.count hm exReal_pos rng
    (⟨0, ⟨5, 0, 0⟩, 0, x⟩ : Part ℝ) ⟨⟨2001, 0, 0⟩, ⟨0, 0, 0⟩, 1, x⟩ s (a := ⟨"e", 1, -1⟩) (b := ⟨"H", 2000, 0⟩) rfl rfl).2
    ⟨by simp [Vec.normSq]; norm_num, by norm_num⟩
  have hf : ∀ f ∈ m.facs, f.op ≠ .cm := by
    obtain ⟨_, _, _, _, _, _, L, _⟩ := newLoad_two excite_wf.count hm
    have hF := L.facs
    rw [show writtenProducts excite.products = [(⟨0, 1, [0], [""]⟩, 0), (⟨2, 1, [1], ["2"]⟩, 0)] from rfl] at hF
    generalize m.facs = fs at hF
    cases hF with
    | cons h1 h2 =>
      cases h2 with
      | cons h2 h3 =>
        cases h3
        intro f hf
        simp only [List.mem_cons, List.not_mem_nil, or_false] at hf
        rcases hf with rfl | rfl
        · rw [(h1.2.2.1 rfl).2]; decide
        · rw [(h2.2.2.2.1 rfl).2]; decide
  have e3 : EvaluatesAll ql wa ⟨⟨0, ⟨5, 0, 0⟩, 0, x⟩, ⟨⟨2001, 0, 0⟩, ⟨0, 0, 0⟩, 1, x⟩, charge, 0, none⟩ (parse "2") [1]
      { pos := some 0 } :=
    .cons (.setPosition (.cons (.CM (k := 0) (.num _) (by simp [ql]) rfl)
      (.cons (.CM (k := 1) (.num _) (by simp [ql]) rfl) (.cons (.CM (k := 2) (.num _) (by simp [ql]) rfl) .nil)))) .nil
  obtain ⟨rs, r, _, _, ho⟩ := C91_centre_unseen (by decide +kernel) excite_wf.count rng _ _ s s' out (.inl ⟨hm, h⟩) hf
    (k := 1) (o := "2") rfl (by decide) (by simp [parse, text2, OExpr.callsAny, OExpr.calls]) e3
  exact ⟨m, out, s', _, hm, h, ho, rfl⟩

end OpsExample

end Chimp
