import Verif.Lemmas.Whole

/-!
# C66 for the library's own models, and C72: a whole run over a database put together by the library

The theorems of `Props/DriverRun.lean` speak about arbitrary equations.  Here the equations are those that the
library builds, with the masses and charges of the particle database.
-/

namespace Chimp

variable {S W : Type}

/-! ## Specification -/

/-- A property of the species with the given index. -/
noncomputable def speciesVal (db : Registry ℝ) (f : Props ℝ → ℝ) (i : ℕ) : ℝ :=
  match db[i]? with
  | some x => f x
  | none => 0

/-- Mass, momentum, charge and kinetic energy of a particle. -/
noncomputable def massOf (db : Registry ℝ) (p : Part W) : ℝ := speciesVal db Props.mass p.species.toNat
noncomputable def chargeOf (db : Registry ℝ) (p : Part W) : ℝ := speciesVal db Props.charge p.species.toNat
noncomputable def momentumOf (db : Registry ℝ) (p : Part W) : Vec := massOf db p • p.vel
noncomputable def energyOf (db : Registry ℝ) (p : Part W) : ℝ := ke (massOf db p) p.vel

/-- The written products carry as much mass (charge) as the two reactants. -/
def SameSum (db : Registry ℝ) (f : Props ℝ → ℝ) (e : LEq) : Prop :=
  ((expandTerms e.products).map fun t => speciesVal db f t.species.toNat).sum =
    speciesVal db f e.A.species.toNat + speciesVal db f e.B.species.toNat

/-- The equation was completed from an `Interaction` element for the species `A` and `B`, in this order. -/
def WEq.Loaded (T : Tools W) (db : Registry ℝ) (A B : ℕ) (w : WEq W) : Prop :=
  w.eq.A = Term.single A ∧ w.eq.B = Term.single B ∧ WellFormed db w.eq ∧ ∃ d, completeEq T db w.eq d = .ok w

/-- The equation was created: an elastic collision of one particle of each of the species `A` and `B`, with their
reduced mass.  Species of equal mass may be in either order. -/
def WEq.Created (db : Registry ℝ) (A B : ℕ) (w : WEq W) : Prop :=
  w.model = .elastic ∧ w.declared = none ∧ w.eq.products = [w.eq.A, w.eq.B] ∧
  ∃ a b, db[A]? = some a ∧ db[B]? = some b ∧ w.mu = ReducedMass.mk' a.mass b.mass ∧
    ((w.eq.A = Term.single A ∧ w.eq.B = Term.single B) ∨
     (a.mass = b.mass ∧ w.eq.A = Term.single B ∧ w.eq.B = Term.single A))

/-- The equations of a database are equations of the species pair under which they are stored, loaded or created. -/
structure WholeDB (T : Tools W) (db : Registry ℝ) (eqs : ℕ → ℕ → List (WEq W)) : Prop where
  masses : ∀ x ∈ db, 0 < x.mass
  eqn : ∀ A B, A ≤ B → B < db.length → ∀ w ∈ eqs A B, w.Loaded T db A B ∨ w.Created db A B

/-- An inelastic equation. -/
def WEq.IsInelastic (w : WEq W) : Prop := ∃ m, w.model = .inelastic m

/-- The change of kinetic energy that an equation stands for: none if it is elastic; otherwise the one declared, or
minus the threshold energy. -/
noncomputable def WEq.energyChange (w : WEq W) : ℝ :=
  match w.model with
  | .inelastic _ => w.declared.getD (-w.cs.thrE)
  | _ => 0

/-- Every cross section consulted in the reported tests had a nonnegative value. -/
def TestsEvaluate (eqs : ℕ → ℕ → List (WEq W)) (st : DState (Part W) S ℝ) : Prop :=
  ∀ ev ∈ st.log, ∀ w ∈ eqs ev.A ev.B, ∃ c, w.cs.sigma (ev.a.vel - ev.b.vel).abs = .ok c ∧ 0 ≤ c

/-! ## Lemmas -/

theorem TestsEvaluate.nonneg {T : Tools W} {n : ℕ} {eqs : ℕ → ℕ → List (WEq W)} {c : CellConst S W}
    {st : DState (Part W) S ℝ} (h : TestsEvaluate eqs st) : NonnegTests (wholeEnv T n eqs c) st := by
  intro ev hev e he
  obtain ⟨w, hw, rfl⟩ := List.mem_map.1 he
  obtain ⟨c, hc, h0⟩ := h ev hev w hw
  show 0 ≤ (match w.cs.sigma (ev.a.vel - ev.b.vel).abs with | .ok c => c | .error _ => 0)
  rw [hc]
  exact h0

theorem speciesVal_some {db : Registry ℝ} {f : Props ℝ → ℝ} {i : ℕ} {x : Props ℝ} (h : db[i]? = some x) :
    speciesVal db f i = f x := by unfold speciesVal; rw [h]

/-- The change of an additive quantity in one interaction. -/
def Changes {G : Type} [AddCommMonoid G] (φ : Part W → G) (p q : Part W) (d : G)
    (r : Part W × Part W × List (Part W) × S) : Prop :=
  (r.2.2.1 = [] → φ r.1 + φ r.2.1 = φ p + φ q + d) ∧ (r.2.2.1 ≠ [] → (r.2.2.1.map φ).sum = φ p + φ q + d)

theorem changes_collided {G : Type} [AddCommMonoid G] {φ : Part W → G} {ip : Bool} {p q : Part W} {a b : Vec} {s : S}
    (h : φ ⟨p.pos, a, p.species, p.rest⟩ + φ ⟨q.pos, b, q.species, q.rest⟩ = φ p + φ q) :
    Changes φ p q 0 (collided ip p q a b s) := by
  rw [Changes, add_zero]
  cases ip
  · exact ⟨fun h => by simp [collided] at h, fun _ => by simpa [collided] using h⟩
  · exact ⟨fun _ => by simpa [collided] using h, fun h => by simp [collided] at h⟩

theorem changes_products {G : Type} [AddCommMonoid G] {φ : Part W → G} {p q : Part W} {d : G} {out : List (Part W)}
    {s : S} (hne : out ≠ []) (h : (out.map φ).sum = φ p + φ q + d) : Changes φ p q d (p, q, out, s) :=
  ⟨fun h => absurd h hne, fun _ => h⟩

/-- One interaction of a created equation. -/
theorem created_changes {T : Tools W} {db : Registry ℝ} (hmass : ∀ x ∈ db, 0 < x.mass)
    {rng : RNG S ℝ} (hr : rng.Unit) {ip : Bool} {A B : ℕ} {w : WEq W} (hw : w.Created db A B)
    {p q : Part W} (hp : p.species.toNat = A) (hq : q.species.toNat = B) {s : S}
    {r : Part W × Part W × List (Part W) × S} (h : w.act T rng ip p q s = some r) :
    (∀ f : Props ℝ → ℝ, Changes (fun x : Part W => speciesVal db f x.species.toNat) p q 0 r) ∧
    Changes (momentumOf db) p q 0 r ∧ Changes (energyOf db) p q w.energyChange r := by
  obtain ⟨hmod, -, -, a, b, hA, hB, hmu, -⟩ := hw
  have ha := hmass a (List.mem_of_getElem? hA)
  have hb := hmass b (List.mem_of_getElem? hB)
  have mp : massOf db p = a.mass := speciesVal_some (by rw [hp]; exact hA)
  have mq : massOf db q = b.mass := speciesVal_some (by rw [hq]; exact hB)
  have hact : r = elasticAct rng w.mu ip p q s := by
    unfold WEq.act at h; rw [hmod] at h; exact (Option.some.inj h).symm
  obtain ⟨x, y, hxy, hmom, hen, -, -⟩ := C45_elastic rng hr ha hb ip p q s
  rw [hmu, hxy] at hact
  have hz : w.energyChange = 0 := by unfold WEq.energyChange; rw [hmod]
  rw [hz, hact]
  refine ⟨fun f => changes_collided rfl, changes_collided ?_, changes_collided ?_⟩
  · show massOf db p • x + massOf db q • y = massOf db p • p.vel + massOf db q • q.vel
    rw [mp, mq, hmom]
  · show ke (massOf db p) x + ke (massOf db q) y = ke (massOf db p) p.vel + ke (massOf db q) q.vel
    rw [mp, mq, hen]

/-- One interaction of a completed equation: mass, charge, momentum. -/
theorem act_changes {T : Tools W} {db : Registry ℝ} {eqs : ℕ → ℕ → List (WEq W)} (hdb : WholeDB T db eqs)
    {rng : RNG S ℝ} (hr : rng.Unit) {ip : Bool} {A B : ℕ} (hAB : A ≤ B) (hB : B < db.length) {w : WEq W}
    (hw : w ∈ eqs A B) {p q : Part W} (hp : p.species.toNat = A) (hq : q.species.toNat = B) {s : S}
    {r : Part W × Part W × List (Part W) × S} (h : w.act T rng ip p q s = some r) :
    (∀ f : Props ℝ → ℝ, (w.IsInelastic → SameSum db f w.eq) →
      Changes (fun x : Part W => speciesVal db f x.species.toNat) p q 0 r) ∧
    ((w.IsInelastic → SameSum db Props.mass w.eq ∧ OpsKeepVel T.oc w.eq) →
      Changes (momentumOf db) p q 0 r ∧
      ((∀ k, w.model ≠ .vss k) → Changes (energyOf db) p q w.energyChange r)) := by
  rcases hdb.eqn A B hAB hB w hw with ⟨eA, eB, hwf, d, hd⟩ | hcr
  swap
  · obtain ⟨h1, h2⟩ := created_changes hdb.masses hr hcr hp hq h
    exact ⟨fun f _ => h1 f, fun _ => ⟨h2.1, fun _ => h2.2⟩⟩
  obtain ⟨a, b, hA, hB', -, hmu, hcs, hm, hdec, -⟩ := completeEq_ok hd
  have ha := hdb.masses a (List.mem_of_getElem? hA)
  have hb := hdb.masses b (List.mem_of_getElem? hB')
  have hpA : db[p.species.toNat]? = some a := by rw [hp]; rw [eA] at hA; simpa [Term.single] using hA
  have hqB : db[q.species.toNat]? = some b := by rw [hq]; rw [eB] at hB'; simpa [Term.single] using hB'
  have mp : massOf db p = a.mass := speciesVal_some hpA
  have mq : massOf db q = b.mass := speciesVal_some hqB
  -- collisions
  have hcol : ∀ (x y : Vec) (s' : S), r = collided ip p q x y s' →
      a.mass • x + b.mass • y = a.mass • p.vel + b.mass • q.vel →
      (∀ f : Props ℝ → ℝ, Changes (fun x : Part W => speciesVal db f x.species.toNat) p q 0 r) ∧
      Changes (momentumOf db) p q 0 r := by
    intro x y s' hr' hmom
    subst hr'
    refine ⟨fun f => changes_collided rfl, changes_collided ?_⟩
    unfold momentumOf
    rw [mp, mq]
    show massOf db p • x + massOf db q • y = _
    rw [mp, mq, hmom]
  -- products
  have hprod : ∀ (m : InModel W), w.model = .inelastic m → newLoad db T.oc w.eq w.declared w.cs.thrE = .ok m →
      ∀ (out : List (Part W)) (s' : S), r = (p, q, out, s') → Produces db T.oc w.eq w.declared w.cs.thrE rng p q s out →
      out ≠ [] →
      ∀ f : Props ℝ → ℝ, (w.IsInelastic → SameSum db f w.eq) →
      Changes (fun x : Part W => speciesVal db f x.species.toNat) p q 0 r := by
    intro m hm' hl out s' hr' hP hne f hf
    subst hr'
    refine changes_products hne ?_
    have hsp := C49_species_in_order hwf.count hdb.masses rng p q s out hP
    have hs := hf ⟨m, hm'⟩
    unfold SameSum at hs
    rw [add_zero]
    have e1 : (out.map fun x : Part W => speciesVal db f x.species.toNat) =
        (expandTerms w.eq.products).map fun t => speciesVal db f t.species.toNat := by
      have := congrArg (List.map fun z : ℤ => speciesVal db f z.toNat) hsp
      simpa only [List.map_map, Function.comp_def] using this
    rw [e1, hs, speciesVal_some hA, speciesVal_some hB']
    simp only [speciesVal_some hpA, speciesVal_some hqB]
  rcases loadModel_ok hm with ⟨-, hmod⟩ | ⟨-, hmod⟩ | ⟨-, i, hmod, hnl⟩
  · -- elastic
    have hact : r = elasticAct rng w.mu ip p q s := by
      unfold WEq.act at h; rw [hmod] at h; exact (Option.some.inj h).symm
    obtain ⟨x, y, hxy, hmom, hen, -, -⟩ := C45_elastic rng hr ha hb ip p q s
    rw [hmu, hxy] at hact
    obtain ⟨c1, c2⟩ := hcol x y _ hact hmom
    refine ⟨fun f _ => c1 f, fun _ => ⟨c2, fun _ => ?_⟩⟩
    have hz : w.energyChange = 0 := by unfold WEq.energyChange; rw [hmod]
    rw [hz, hact]
    refine changes_collided ?_
    unfold energyOf
    show ke (massOf db p) x + ke (massOf db q) y = _
    rw [mp, mq, hen]
  · -- VSS
    have hact : r = vssAct T.pow d.vssParamInv rng w.mu ip p q s := by
      unfold WEq.act at h; rw [hmod] at h; exact (Option.some.inj h).symm
    obtain ⟨x, y, s', hxy, hmom⟩ := vss_momentum T.pow d.vssParamInv rng ha hb ip p q s
    rw [hmu, hxy] at hact
    obtain ⟨c1, c2⟩ := hcol x y _ hact hmom
    exact ⟨fun f _ => c1 f, fun _ => ⟨c2, fun hv => absurd hmod (hv _)⟩⟩
  · -- inelastic
    rw [← hdec] at hnl
    have hz : w.energyChange = w.declared.getD (-w.cs.thrE) := by unfold WEq.energyChange; rw [hmod]
    unfold WEq.act at h
    rw [hmod] at h
    -- masses of the products
    have hmass : ∀ (ps : List (Props ℝ)) (out : List (Part W)),
        (expandTerms w.eq.products).map (fun t => db[t.species.toNat]?) = ps.map some →
        Produces db T.oc w.eq w.declared w.cs.thrE rng p q s out →
        out.map (massOf db) = ps.map Props.mass ∧
        (SameSum db Props.mass w.eq → (ps.map Props.mass).sum = a.mass + b.mass) := by
      intro ps out hps hP
      have hsp := C49_species_in_order hwf.count hdb.masses rng p q s out hP
      have e1 : out.map (massOf db) =
          (expandTerms w.eq.products).map fun t => speciesVal db Props.mass t.species.toNat := by
        have := congrArg (List.map fun z : ℤ => speciesVal db Props.mass z.toNat) hsp
        rw [List.map_map, List.map_map] at this
        exact this
      have e2 : ((expandTerms w.eq.products).map fun t => speciesVal db Props.mass t.species.toNat) =
          ps.map Props.mass := by
        have := congrArg (List.map fun o : Option (Props ℝ) => match o with | some x => x.mass | none => 0) hps
        simpa only [List.map_map, Function.comp_def, speciesVal] using this
      refine ⟨e1.trans e2, fun hs => ?_⟩
      rw [← e2]
      unfold SameSum at hs
      rw [hs, speciesVal_some hA, speciesVal_some hB']
    cases i with
    | unsupported => cases h
    | two m =>
      obtain ⟨⟨out, s'⟩, ho, rfl⟩ := Option.map_eq_some_iff.1 h
      have hP : Produces db T.oc w.eq w.declared w.cs.thrE rng p q s out := ⟨m, s', .inl ⟨hnl, ho⟩⟩
      have hne : out ≠ [] := by
        intro h0; subst h0
        unfold InElastic.interact2 at ho
        split at ho
        · simp only at ho; split at ho
          · cases ho
          · cases ho
        · cases ho
      refine ⟨hprod _ hmod hnl out s' rfl hP hne, fun hcons => ?_⟩
      obtain ⟨hsum, hops⟩ := hcons ⟨_, hmod⟩
      obtain ⟨a', b', p1, p2, r1, r2, hA2, hB2, hex, rfl, -, -, hc, -⟩ :=
        C47_two_products hwf.count hnl hdb.masses hops rng hr p q s s' out ho
      obtain rfl : a = a' := Option.some.inj (hA.symm.trans hA2)
      obtain rfl : b = b' := Option.some.inj (hB'.symm.trans hB2)
      obtain ⟨e1, e2⟩ := hmass [p1, p2] _ hex hP
      have e3 := e2 hsum
      simp only [List.map_cons, List.map_nil, List.sum_cons, List.sum_nil, add_zero, List.cons.injEq, and_true] at e1 e3
      obtain ⟨c1, c2⟩ := hc e3
      refine ⟨changes_products hne ?_, fun _ => changes_products hne ?_⟩
      · simp only [List.map_cons, List.map_nil, List.sum_cons, List.sum_nil, add_zero, momentumOf, e1.1, e1.2, mp, mq, c1]
      · simp only [List.map_cons, List.map_nil, List.sum_cons, List.sum_nil, add_zero, energyOf, e1.1, e1.2, mp, mq, c2,
          hz]
    | three m =>
      obtain ⟨⟨out, s'⟩, ho, rfl⟩ := Option.map_eq_some_iff.1 h
      have hP : Produces db T.oc w.eq w.declared w.cs.thrE rng p q s out := ⟨m, s', .inr ⟨hnl, ho⟩⟩
      have hne : out ≠ [] := by
        intro h0; subst h0
        unfold InElastic.interact3 at ho
        split at ho
        · simp only at ho; split at ho
          · cases ho
          · cases ho
        · cases ho
      refine ⟨hprod _ hmod hnl out s' rfl hP hne, fun hcons => ?_⟩
      obtain ⟨hsum, hops⟩ := hcons ⟨_, hmod⟩
      obtain ⟨a', b', p1, p2, p3, r1, r2, r3, hA2, hB2, hex, rfl, -, -, hc, -⟩ :=
        C48_three_products hwf.count hnl hdb.masses hops rng hr p q s s' out ho
      obtain rfl : a = a' := Option.some.inj (hA.symm.trans hA2)
      obtain rfl : b = b' := Option.some.inj (hB'.symm.trans hB2)
      obtain ⟨e1, e2⟩ := hmass [p1, p2, p3] _ hex hP
      have e3 := e2 hsum
      simp only [List.map_cons, List.map_nil, List.sum_cons, List.sum_nil, add_zero, List.cons.injEq, and_true] at e1 e3
      obtain ⟨c1, c2⟩ := hc e3
      refine ⟨changes_products hne ?_, fun _ => changes_products hne ?_⟩
      · simp only [List.map_cons, List.map_nil, List.sum_cons, List.sum_nil, add_zero, momentumOf, e1.1, e1.2.1, e1.2.2,
          mp, mq, c1]
      · simp only [List.map_cons, List.map_nil, List.sum_cons, List.sum_nil, add_zero, energyOf, e1.1, e1.2.1, e1.2.2,
          mp, mq, c2, hz]

/-! ## C66 for the library's models -/

/-- What is in the species ranges plus what is in the product list. -/
def grandTotal {G : Type} [AddCommMonoid G] (n : ℕ) (φ : Part W → G) (st : DState (Part W) S ℝ) : G :=
  (∑ C ∈ Finset.range n, ((liveM st.mem (st.range C)).map φ).sum) + (st.results.map φ).sum

/-- The reported tests that ended in an interaction, with the equation performed. -/
def performed (eqs : ℕ → ℕ → List (WEq W)) (st : DState (Part W) S ℝ) : List (WEq W) :=
  st.log.filterMap fun ev => if ev.path.first < 0 then none else (eqs ev.A ev.B)[ev.path.first.toNat]?

theorem whole_changes {G : Type} [AddCommGroup G] {T : Tools W} {eqs : ℕ → ℕ → List (WEq W)} {n : ℕ}
    {c : CellConst S W} (φ : Part W → G) (d : WEq W → G)
    (h : ∀ A B, A ≤ B → B < n → ∀ w ∈ eqs A B, ∀ p q : Part W, p.species.toNat = A → q.species.toNat = B →
      ∀ s, (∃ y, w.cs.sigma (p.vel - q.vel).abs = .ok y ∧ 0 < y) →
      Changes φ p q (d w) ((w.act T c.rng c.inplace p q s).getD (p, q, [], s))) :
    Balances (wholeEnv T n eqs c) φ (fun A B j => ((eqs A B)[j]?.map d).getD 0) := by
  intro A B hAB hB j e he a b s ha hb hpos
  obtain ⟨w, hw, rfl⟩ := toEqn_rhs he
  have hs : ∃ y, w.cs.sigma (a.vel - b.vel).abs = .ok y ∧ 0 < y := by
    change 0 < (match w.cs.sigma (a.vel - b.vel).abs with | .ok c => c | .error _ => 0) at hpos
    split at hpos
    · rename_i y hy; exact ⟨y, hy, hpos⟩
    · exact absurd hpos (lt_irrefl _)
  have := h A B hAB hB w (List.mem_of_getElem? hw) a b ha hb s hs
  simp only [hw, Option.map_some, Option.getD_some]
  exact this

theorem source_sum {G : Type} [AddCommGroup G] (eqs : ℕ → ℕ → List (WEq W)) (d : WEq W → G) (st : DState (Part W) S ℝ) :
    (st.log.map (Event.source fun A B j => ((eqs A B)[j]?.map d).getD 0)).sum = ((performed eqs st).map d).sum := by
  unfold performed
  induction st.log with
  | nil => rfl
  | cons ev l ih =>
    rw [List.map_cons, List.sum_cons, ih]
    unfold Event.source
    by_cases h : ev.path.first < 0
    · rw [if_pos h, zero_add, List.filterMap_cons_none (by rw [if_pos h])]
    · rw [if_neg h]
      cases hw : (eqs ev.A ev.B)[ev.path.first.toNat]? with
      | none => rw [List.filterMap_cons_none (by rw [if_neg h, hw])]; simp [hw]
      | some w => rw [List.filterMap_cons_some (by rw [if_neg h, hw])]; simp [hw]

/-- The driver over a database put together by the library changes an additive quantity by what the interactions
performed stand for. -/
theorem whole_balance {G : Type} [AddCommGroup G] {T : Tools W} {eqs : ℕ → ℕ → List (WEq W)} {n : ℕ}
    {c : CellConst S W} (hin : c.inplace = true) (hv : c.rng.Valid) (φ : Part W → G) (d : WEq W → G)
    (h : ∀ A B, A ≤ B → B < n → ∀ w ∈ eqs A B, ∀ p q : Part W, p.species.toNat = A → q.species.toNat = B →
      ∀ s, (∃ y, w.cs.sigma (p.vel - q.vel).abs = .ok y ∧ 0 < y) →
      Changes φ p q (d w) ((w.act T c.rng c.inplace p q s).getD (p, q, [], s)))
    {fi fs : ℕ} {st0 st : DState (Part W) S ℝ} (hev : TestsEvaluate eqs st) (hwf : WFRanges n st0.range)
    (hlog : st0.log = []) (hom : Homogeneous (wholeEnv T n eqs c) st0)
    (hrun : driver (wholeEnv T n eqs c) fi fs st0 = .ok st) :
    grandTotal n φ st = grandTotal n φ st0 + ((performed eqs st).map d).sum := by
  have := C66_run_balance (wholeEnv T n eqs c) hin hv (wholeEnv_keeps T n eqs c) φ _ (whole_changes φ d h)
    fi fs st0 st hev.nonneg hwf hom hrun
  rw [hlog, List.map_nil, List.sum_nil, add_zero, source_sum] at this
  exact this

theorem changes_none {G : Type} [AddCommMonoid G] {φ : Part W → G} {p q : Part W} {s : S} :
    Changes φ p q 0 (p, q, [], s) := ⟨fun _ => (add_zero _).symm, fun h => absurd rfl h⟩

/-- **C66**  Total mass: if the inelastic equations conserve mass, a run conserves the mass of live plus produced
particles; likewise for charge, or any other property of the species. -/
theorem C66_mass_and_charge {T : Tools W} {db : Registry ℝ} {eqs : ℕ → ℕ → List (WEq W)} (hdb : WholeDB T db eqs)
    {n : ℕ} (hn : n ≤ db.length) {c : CellConst S W} (hin : c.inplace = true) (hv : c.rng.Valid) (f : Props ℝ → ℝ)
    (hf : ∀ A B, A ≤ B → B < n → ∀ w ∈ eqs A B, w.IsInelastic → SameSum db f w.eq)
    {fi fs : ℕ} {st0 st : DState (Part W) S ℝ} (hev : TestsEvaluate eqs st) (hwf : WFRanges n st0.range)
    (hlog : st0.log = []) (hom : Homogeneous (wholeEnv T n eqs c) st0)
    (hrun : driver (wholeEnv T n eqs c) fi fs st0 = .ok st) :
    grandTotal n (fun p => speciesVal db f p.species.toNat) st =
      grandTotal n (fun p => speciesVal db f p.species.toNat) st0 := by
  rw [whole_balance hin hv _ (fun _ => (0 : ℝ)) ?_ hev hwf hlog hom hrun]
  · simp
  · intro A B hAB hB w hw p q hp hq s _
    cases h : w.act T c.rng c.inplace p q s with
    | none => exact changes_none
    | some r => exact (act_changes hdb hv.unit hAB (by omega) hw hp hq h).1 f (hf A B hAB hB w hw)

/-- **C66**  Total momentum: if the inelastic equations conserve mass and their expressions leave velocities alone, a
run conserves the momentum of live plus produced particles. -/
theorem C66_momentum {T : Tools W} {db : Registry ℝ} {eqs : ℕ → ℕ → List (WEq W)} (hdb : WholeDB T db eqs)
    {n : ℕ} (hn : n ≤ db.length) {c : CellConst S W} (hin : c.inplace = true) (hv : c.rng.Valid)
    (hf : ∀ A B, A ≤ B → B < n → ∀ w ∈ eqs A B, w.IsInelastic → SameSum db Props.mass w.eq ∧ OpsKeepVel T.oc w.eq)
    {fi fs : ℕ} {st0 st : DState (Part W) S ℝ} (hev : TestsEvaluate eqs st) (hwf : WFRanges n st0.range)
    (hlog : st0.log = []) (hom : Homogeneous (wholeEnv T n eqs c) st0)
    (hrun : driver (wholeEnv T n eqs c) fi fs st0 = .ok st) :
    grandTotal n (momentumOf db) st = grandTotal n (momentumOf db) st0 := by
  rw [whole_balance hin hv _ (fun _ => (0 : Vec)) ?_ hev hwf hlog hom hrun]
  · simp
  · intro A B hAB hB w hw p q hp hq s _
    cases h : w.act T c.rng c.inplace p q s with
    | none => exact changes_none
    | some r => exact ((act_changes hdb hv.unit hAB (by omega) hw hp hq h).2 (hf A B hAB hB w hw)).1

/-! ## C72: every interaction performed is possible -/

/-- A reasonable `cross_section` element: no negative speeds in a table; for Lotz, proper shells and a search that
returns a root not below the start of the search. -/
def CSDoc.Sane (solve : RootFinder) : CSDoc → Prop
  | .data rows => ∀ r ∈ rows, ∀ v, r.1 = .speed v → 0 ≤ v
  | .lotz ps => RootFinder.Exact solve ∧ ∀ p ∈ ps, p.Proper
  | _ => True

/-- The equations loaded come from reasonable documents. -/
def SaneDB (T : Tools W) (db : Registry ℝ) (n : ℕ) (eqs : ℕ → ℕ → List (WEq W)) : Prop :=
  ∀ A B, A ≤ B → B < n → ∀ w ∈ eqs A B,
    (∃ d, completeEq T db w.eq d = .ok w ∧ d.cs.Sane T.solve) ∨ w.Created db A B

/-- The model of an inelastic equation has two or three products, the energy change declared (if any) takes no more
than the threshold energy, and a product is placed at the centre of charge only if the reactants carry charge. -/
def WEq.Runnable (db : Registry ℝ) (w : WEq W) : Prop :=
  ∀ m, w.model = .inelastic m → (∀ x, w.declared = some x → -w.cs.thrE ≤ x) ∧
    ∃ i, (m = .two i ∨ m = .three i) ∧ (UsesCQ i →
      speciesVal db Props.charge w.eq.A.species.toNat + speciesVal db Props.charge w.eq.B.species.toNat ≠ 0)

theorem load_built {solve : RootFinder} {ex : Bool} {mu : ℝ} {d : CSDoc} (hs : d.Sane solve) {x : XSec}
    (h : d.load solve ex mu = .ok x) : Built mu x := by
  cases d with
  | constant v t => exact .constant h
  | vhs p t => exact .vhs h
  | inverse k t => exact .inverse h
  | log A B t => exact .log h
  | lotz ps => exact .lotz hs.1 hs.2 h
  | data rows =>
    obtain ⟨h1, h2, -⟩ := C57_loaded mu rows
    refine .data h1 (fun d hd => ?_) h
    obtain ⟨r, hr, -, he⟩ := h2 d hd
    rw [he]
    cases hr1 : r.1 with
    | energy e => exact Real.sqrt_nonneg _
    | speed v => exact hs r hr v hr1

/-- An equation whose cross section is positive at the relative speed of a pair can be performed. -/
theorem act_defined {T : Tools W} {db : Registry ℝ} {eqs : ℕ → ℕ → List (WEq W)} (hdb : WholeDB T db eqs)
    {n : ℕ} (hn : n ≤ db.length) (hs : SaneDB T db n eqs) (rng : RNG S ℝ) (ip : Bool) {A B : ℕ} (hAB : A ≤ B)
    (hB : B < n) {w : WEq W} (hw : w ∈ eqs A B) (p q : Part W) {y : ℝ}
    (hy : w.cs.sigma (p.vel - q.vel).abs = .ok y) (hpos : 0 < y) :
    (w.cs.thrE ≤ 1 / 2 * w.mu.value * (p.vel - q.vel).normSq ∨ w.Created db A B) ∧
    (w.Runnable db → ∀ s, ∃ r, w.act T rng ip p q s = some r) := by
  have hcreated : w.Created db A B → (w.cs.thrE ≤ 1 / 2 * w.mu.value * (p.vel - q.vel).normSq ∨ w.Created db A B) ∧
      (w.Runnable db → ∀ s, ∃ r, w.act T rng ip p q s = some r) := fun hc =>
    ⟨.inr hc, fun _ s => ⟨_, by unfold WEq.act; rw [hc.1]⟩⟩
  rcases hdb.eqn A B hAB (by omega) w hw with ⟨-, -, hwf, -⟩ | hcr
  swap
  · exact hcreated hcr
  rcases hs A B hAB hB w hw with ⟨d, hd, hsane⟩ | hcr
  swap
  · exact hcreated hcr
  obtain ⟨a, b, hA, hB', -, hmu, hcs, hm, hdec, -⟩ := completeEq_ok hd
  have ha := hdb.masses a (List.mem_of_getElem? hA)
  have hb := hdb.masses b (List.mem_of_getElem? hB')
  have hmuv : w.mu.value = a.mass * b.mass / (a.mass + b.mass) := by rw [hmu]; rfl
  have hmu0 : 0 < a.mass * b.mass / (a.mass + b.mass) := by positivity
  have hE : w.cs.thrE ≤ 1 / 2 * w.mu.value * (p.vel - q.vel).normSq := by
    by_contra hlow
    have hz := C65_threshold hmu0 (load_built hsane hcs) (v := (p.vel - q.vel).abs) (Vec.abs_nonneg _)
      (by rw [Vec.abs_sq, ← hmuv]; exact not_le.1 hlow)
    rw [hz] at hy
    cases hy
    exact lt_irrefl _ hpos
  refine ⟨.inl hE, fun hrun s => ?_⟩
  rcases loadModel_ok hm with ⟨-, hmod⟩ | ⟨-, hmod⟩ | ⟨-, m, hmod, hnl⟩
  · exact ⟨_, by unfold WEq.act; rw [hmod]⟩
  · exact ⟨_, by unfold WEq.act; rw [hmod]⟩
  · obtain ⟨hx, i, hi, hcq⟩ := hrun m hmod
    rw [← hdec] at hnl
    rw [speciesVal_some hA, speciesVal_some hB'] at hcq
    have hEn : 0 ≤ 1 / 2 * (a.mass * b.mass / (a.mass + b.mass)) * (p.vel - q.vel).normSq +
        w.declared.getD (-w.cs.thrE) := by
      rw [← hmuv]
      cases hd0 : w.declared with
      | none => rw [Option.getD_none]; linarith
      | some x => rw [Option.getD_some]; linarith [hx x hd0]
    rcases hi with rfl | rfl
    · obtain ⟨out, s', h⟩ := (C47_defined_iff hwf.count hnl hdb.masses rng p q s hA hB').2 ⟨hEn, hcq⟩
      exact ⟨_, by unfold WEq.act; rw [hmod]; simp only [h]; rfl⟩
    · obtain ⟨out, s', h⟩ := (C48_defined_iff hwf.count hnl hdb.masses rng p q s hA hB').2 ⟨hEn, hcq⟩
      exact ⟨_, by unfold WEq.act; rw [hmod]; simp only [h]; rfl⟩

/-- Species of the reported pairs, in both modes. -/
theorem run_species {P S K : Type} [Field K] [LinearOrder K] [IsStrictOrderedRing K] [FloorRing K]
    (env : DriverEnv P S K) (hv : env.rng.Valid) (hk : InPlaceKeeps env env.species) (fi fs : ℕ)
    (st0 st : DState P S K) (hwf : WFRanges env.nSpecies st0.range) (hf : Fresh st0)
    (hom : Homogeneous env st0) (hrun : driver env fi fs st0 = .ok st) :
    ∀ ev ∈ st.log, env.species ev.a = ev.A ∧ env.species ev.b = ev.B := by
  cases hin : env.inplace with
  | true => exact (C41_homogeneous env hin hv hk fi fs st0 st hwf hf hom hrun).2
  | false =>
    obtain ⟨g, hreach⟩ := driver_reach env hv fi fs st0 st hrun
    clear hrun
    have : Homogeneous env st ∧ ∀ ev ∈ st.log, env.species ev.a = ev.A ∧ env.species ev.b = ev.B := by
      induction hreach with
      | refl =>
        refine ⟨hom, fun ev hev => ?_⟩
        rw [show ({ st0 with gen := g } : DState P S K).log = st0.log from rfl, hf.1] at hev
        cases hev
      | @tail st1 _ _ hstep ih =>
        obtain ⟨A, B, m, p, q, g, _, hAB, hB, hne, hp, hq, hpq⟩ := hstep
        have h2 := pairTest_fields env A B m p q { st1 with gen := g }
        simp only at h2
        obtain ⟨hm, hr, -⟩ := h2.2.2 hin
        refine ⟨fun C hC z => by rw [hm, hr]; exact ih.1 C hC z, fun ev hev => ?_⟩
        rw [h2.2.1] at hev
        rcases List.mem_append.1 hev with hev | hev
        · exact ih.2 ev hev
        · rw [List.mem_singleton.1 hev]
          exact ⟨ih.1 A (by omega) p hp.1 hp.2, ih.1 B hB q hq.1 hq.2⟩
    exact this.2

/-- **C72**  In every run, each interaction performed belongs to an equation of the pair's species whose cross section
is positive at the relative speed of the pair and whose threshold energy the pair has (if the equation was
loaded and not created), and the model of that equation gives finite results for the pair whatever random numbers come; the products reported
are the products of that model. -/
theorem C72_interactions_possible {T : Tools W} {db : Registry ℝ} {eqs : ℕ → ℕ → List (WEq W)}
    (hdb : WholeDB T db eqs) {n : ℕ} (hn : n ≤ db.length) (hs : SaneDB T db n eqs)
    (hrunnable : ∀ A B, A ≤ B → B < n → ∀ w ∈ eqs A B, w.Runnable db)
    {c : CellConst S W} (hv : c.rng.Valid)
    {fi fs : ℕ} {st0 st : DState (Part W) S ℝ} (hev : TestsEvaluate eqs st) (hwf : WFRanges n st0.range)
    (hf : Fresh st0) (hom : Homogeneous (wholeEnv T n eqs c) st0)
    (hrun : driver (wholeEnv T n eqs c) fi fs st0 = .ok st) :
    ∀ ev ∈ st.log, 0 ≤ ev.path.first → ∃ w, (eqs ev.A ev.B)[ev.path.first.toNat]? = some w ∧
      ev.a.species.toNat = ev.A ∧ ev.b.species.toNat = ev.B ∧
      (∃ y, w.cs.sigma (ev.a.vel - ev.b.vel).abs = .ok y ∧ 0 < y) ∧
      (w.eq.A = Term.single ev.A ∧ w.eq.B = Term.single ev.B ∧
        w.cs.thrE ≤ 1 / 2 * w.mu.value * (ev.a.vel - ev.b.vel).normSq ∨ w.Created db ev.A ev.B) ∧
      (∀ s, ∃ r, w.act T c.rng c.inplace ev.a ev.b s = some r) ∧
      ∃ s r, w.act T c.rng c.inplace ev.a ev.b s = some r ∧ ev.prods = r.2.2.1 := by
  intro ev hmem h0
  have hsp := run_species (wholeEnv T n eqs c) hv (wholeEnv_keeps T n eqs c) fi fs st0 st hwf hf hom hrun ev hmem
  obtain ⟨hAB, hB, hcase⟩ := run_events (wholeEnv T n eqs c) hv fi fs st0 st hev.nonneg hf.1 hrun ev hmem
  change ev.B < n at hB
  rcases hcase with ⟨h1, -⟩ | ⟨j, e, s, hj, he, hpos, hpr⟩
  · rw [h1] at h0; exact absurd h0 (by decide)
  · obtain ⟨w, hw, rfl⟩ := toEqn_rhs he
    have hmw := List.mem_of_getElem? hw
    have hy : ∃ y, w.cs.sigma (ev.a.vel - ev.b.vel).abs = .ok y ∧ 0 < y := by
      change 0 < (match w.cs.sigma (ev.a.vel - ev.b.vel).abs with | .ok c => c | .error _ => 0) at hpos
      split at hpos
      · rename_i y hy; exact ⟨y, hy, hpos⟩
      · exact absurd hpos (lt_irrefl _)
    obtain ⟨y, hy1, hy2⟩ := hy
    obtain ⟨hE, hdef⟩ := act_defined hdb hn hs c.rng c.inplace hAB hB hmw ev.a ev.b hy1 hy2
    have hdef' := hdef (hrunnable _ _ hAB hB w hmw)
    have hkind : w.eq.A = Term.single ev.A ∧ w.eq.B = Term.single ev.B ∧
        w.cs.thrE ≤ 1 / 2 * w.mu.value * (ev.a.vel - ev.b.vel).normSq ∨ w.Created db ev.A ev.B := by
      rcases hdb.eqn ev.A ev.B hAB (by omega) w hmw with ⟨eA, eB, -⟩ | hcr
      · exact hE.imp (fun h => ⟨eA, eB, h⟩) id
      · exact .inr hcr
    refine ⟨w, by rw [hj, Int.toNat_natCast]; exact hw, hsp.1, hsp.2, ⟨y, hy1, hy2⟩, hkind, hdef', ?_⟩
    obtain ⟨r, hr⟩ := hdef' s
    refine ⟨s, r, hr, ?_⟩
    have hord : ¬ (wholeEnv T n eqs c).species ev.a > (wholeEnv T n eqs c).species ev.b := by
      rw [hsp.1, hsp.2]; omega
    rw [if_neg hord] at hpr
    rw [hpr]
    show ((w.act T c.rng c.inplace ev.a ev.b s).getD (ev.a, ev.b, [], s)).2.2.1 = _
    rw [hr]; rfl

/-- **C66**  Kinetic energy: without VSS equations, a run changes the kinetic energy of live plus produced particles by
exactly the sum of the energy changes of the interactions performed. -/
theorem C66_energy {T : Tools W} {db : Registry ℝ} {eqs : ℕ → ℕ → List (WEq W)} (hdb : WholeDB T db eqs)
    {n : ℕ} (hn : n ≤ db.length) (hs : SaneDB T db n eqs) {c : CellConst S W} (hin : c.inplace = true)
    (hv : c.rng.Valid)
    (hrunnable : ∀ A B, A ≤ B → B < n → ∀ w ∈ eqs A B, w.Runnable db ∧ ∀ k, w.model ≠ .vss k)
    (hf : ∀ A B, A ≤ B → B < n → ∀ w ∈ eqs A B, w.IsInelastic → SameSum db Props.mass w.eq ∧ OpsKeepVel T.oc w.eq)
    {fi fs : ℕ} {st0 st : DState (Part W) S ℝ} (hev : TestsEvaluate eqs st) (hwf : WFRanges n st0.range)
    (hlog : st0.log = []) (hom : Homogeneous (wholeEnv T n eqs c) st0)
    (hrun : driver (wholeEnv T n eqs c) fi fs st0 = .ok st) :
    grandTotal n (energyOf db) st =
      grandTotal n (energyOf db) st0 + ((performed eqs st).map WEq.energyChange).sum := by
  refine whole_balance hin hv _ _ ?_ hev hwf hlog hom hrun
  intro A B hAB hB w hw p q hp hq s ⟨y, hy1, hy2⟩
  obtain ⟨hr1, hr2⟩ := hrunnable A B hAB hB w hw
  obtain ⟨r, hr⟩ := (act_defined hdb hn hs c.rng c.inplace hAB hB hw p q hy1 hy2).2 hr1 s
  rw [hr]
  exact ((act_changes hdb hv.unit hAB (by omega) hw hp hq hr).2 (hf A B hAB hB w hw)).2 hr2

/-- **C66**  With elastic equations only, a run conserves kinetic energy. -/
theorem C66_energy_elastic {T : Tools W} {db : Registry ℝ} {eqs : ℕ → ℕ → List (WEq W)} (hdb : WholeDB T db eqs)
    {n : ℕ} (hn : n ≤ db.length) {c : CellConst S W} (hin : c.inplace = true) (hv : c.rng.Valid)
    (hel : ∀ A B, A ≤ B → B < n → ∀ w ∈ eqs A B, w.model = .elastic)
    {fi fs : ℕ} {st0 st : DState (Part W) S ℝ} (hev : TestsEvaluate eqs st) (hwf : WFRanges n st0.range)
    (hlog : st0.log = []) (hom : Homogeneous (wholeEnv T n eqs c) st0)
    (hrun : driver (wholeEnv T n eqs c) fi fs st0 = .ok st) :
    grandTotal n (energyOf db) st = grandTotal n (energyOf db) st0 := by
  rw [whole_balance hin hv _ (fun _ => (0 : ℝ)) ?_ hev hwf hlog hom hrun]
  · simp
  · intro A B hAB hB w hw p q hp hq s _
    have hmod := hel A B hAB hB w hw
    cases h : w.act T c.rng c.inplace p q s with
    | none => exact changes_none
    | some r =>
      have := ((act_changes hdb hv.unit hAB (by omega) hw hp hq h).2
        (by rintro ⟨m, hm⟩; rw [hmod] at hm; cases hm)).2 (by rw [hmod]; intro k hk; cases hk)
      have hz : w.energyChange = 0 := by unfold WEq.energyChange; rw [hmod]
      rwa [hz] at this

/-- The reported tests that created products. -/
def creating (st : DState (Part W) S ℝ) : List (Event (Part W) ℝ) := st.log.filter fun e => !e.prods.isEmpty

/-- The energy change of the equation performed in a reported test. -/
noncomputable def Event.energyChange (eqs : ℕ → ℕ → List (WEq W)) (ev : Event (Part W) ℝ) : ℝ :=
  if ev.path.first < 0 then 0 else
    match (eqs ev.A ev.B)[ev.path.first.toNat]? with
    | some w => w.energyChange
    | none => 0

/-- **C66**  Out of place, the products reported for a run carry the mass and charge, the momentum, and (without VSS
equations) the kinetic energy plus the energy changes, of the reactants of the tests that created them. -/
theorem C66_products {T : Tools W} {db : Registry ℝ} {eqs : ℕ → ℕ → List (WEq W)} (hdb : WholeDB T db eqs)
    {n : ℕ} (hn : n ≤ db.length) {c : CellConst S W} (hout : c.inplace = false) (hv : c.rng.Valid)
    {fi fs : ℕ} {st0 st : DState (Part W) S ℝ} (hev : TestsEvaluate eqs st)
    (hlog : st0.log = []) (hres : st0.results = []) (hom : Homogeneous (wholeEnv T n eqs c) st0)
    (hrun : driver (wholeEnv T n eqs c) fi fs st0 = .ok st) :
    (∀ f : Props ℝ → ℝ, (∀ A B, A ≤ B → B < n → ∀ w ∈ eqs A B, w.IsInelastic → SameSum db f w.eq) →
      (st.results.map fun p => speciesVal db f p.species.toNat).sum = ((creating st).map fun e =>
        speciesVal db f e.a.species.toNat + speciesVal db f e.b.species.toNat).sum) ∧
    ((∀ A B, A ≤ B → B < n → ∀ w ∈ eqs A B, w.IsInelastic → SameSum db Props.mass w.eq ∧ OpsKeepVel T.oc w.eq) →
      (st.results.map (momentumOf db)).sum = ((creating st).map fun e => momentumOf db e.a + momentumOf db e.b).sum ∧
      (SaneDB T db n eqs → (∀ A B, A ≤ B → B < n → ∀ w ∈ eqs A B, w.Runnable db ∧ ∀ k, w.model ≠ .vss k) →
        (st.results.map (energyOf db)).sum = ((creating st).map fun e =>
          energyOf db e.a + energyOf db e.b + e.energyChange eqs).sum)) := by
  have zero : ∀ {G : Type} [AddCommGroup G] (ev : Event (Part W) ℝ),
      ev.source (fun A B j => ((eqs A B)[j]?.map fun _ => (0 : G)).getD 0) = 0 := by
    intro G _ ev
    unfold Event.source
    split
    · rfl
    · show ((eqs ev.A ev.B)[ev.path.first.toNat]?.map fun _ => (0 : G)).getD 0 = 0
      cases (eqs ev.A ev.B)[ev.path.first.toNat]? <;> rfl
  refine ⟨fun f hf => ?_, fun hf => ⟨?_, fun hs hrunnable => ?_⟩⟩
  · have := C66_out_of_place_balance (wholeEnv T n eqs c) hout hv (fun p => speciesVal db f p.species.toNat) _
      (whole_changes _ (fun _ => (0 : ℝ)) ?_) fi fs st0 st hev.nonneg hlog hom hrun
    · rw [hres] at this
      simpa [zero, creating] using this
    · intro A B hAB hB w hw p q hp hq s _
      cases h : w.act T c.rng c.inplace p q s with
      | none => exact changes_none
      | some r => exact (act_changes hdb hv.unit hAB (by omega) hw hp hq h).1 f (hf A B hAB hB w hw)
  · have := C66_out_of_place_balance (wholeEnv T n eqs c) hout hv (momentumOf db) _
      (whole_changes _ (fun _ => (0 : Vec)) ?_) fi fs st0 st hev.nonneg hlog hom hrun
    · rw [hres] at this
      simpa [zero, creating] using this
    · intro A B hAB hB w hw p q hp hq s _
      cases h : w.act T c.rng c.inplace p q s with
      | none => exact changes_none
      | some r => exact ((act_changes hdb hv.unit hAB (by omega) hw hp hq h).2 (hf A B hAB hB w hw)).1
  · have := C66_out_of_place_balance (wholeEnv T n eqs c) hout hv (energyOf db) _
      (whole_changes _ WEq.energyChange ?_) fi fs st0 st hev.nonneg hlog hom hrun
    · rw [hres, List.map_nil, List.sum_nil, zero_add] at this
      rw [this, creating]
      congr 1
      refine List.map_congr_left fun ev _ => ?_
      congr 1
      unfold Event.source Event.energyChange
      split
      · rfl
      · show ((eqs ev.A ev.B)[ev.path.first.toNat]?.map WEq.energyChange).getD 0 = _
        cases (eqs ev.A ev.B)[ev.path.first.toNat]? <;> rfl
    · intro A B hAB hB w hw p q hp hq s ⟨y, hy1, hy2⟩
      obtain ⟨hr1, hr2⟩ := hrunnable A B hAB hB w hw
      obtain ⟨r, hr⟩ := (act_defined hdb hn hs c.rng c.inplace hAB hB hw p q hy1 hy2).2 hr1 s
      rw [hr]
      exact ((act_changes hdb hv.unit hAB (by omega) hw hp hq hr).2 (hf A B hAB hB w hw)).2 hr2

/-! ## The hypothesis `WholeDB` holds for what the library loads -/

/-- The equations `eqs A B` are those of the table, each with the cross section and model of its document. -/
def Assembled (T : Tools W) (d : RDB ℝ) (eqs : ℕ → ℕ → List (WEq W)) : Prop :=
  ∀ A B, A ≤ B → B < d.props.length → ∃ s, d.table.get? A B = some s ∧
    List.Forall₂ (fun e w => ∃ i, completeEq T d.props e i = .ok w) s.rhs (eqs A B)

theorem wholeDB_of_init {T : Tools W} {doc : Doc} {f : Filter} {cs ms : List String} {props : Registry ℝ}
    (hnd : NodupNames props) (hm : ∀ x ∈ props, 0 < x.mass) {d : RDB ℝ}
    (h : initBinary doc f cs ms (RDB.fresh props) = .ok d) {eqs : ℕ → ℕ → List (WEq W)} (ha : Assembled T d eqs) :
    WholeDB T d.props eqs := by
  obtain ⟨h1, h2, h3⟩ := initBinary_spec h
  have hnd' : NodupNames d.props := by rw [h1]; exact (nodupNames_of_perm (sortProps_perm props)).2 hnd
  refine ⟨fun x hx => hm x ((sortProps_perm props).mem_iff.1 (by rw [h1] at hx; exact hx)), ?_⟩
  intro A B hAB hB w hw
  obtain ⟨s, hs, hF⟩ := ha A B hAB hB
  obtain ⟨e, he, i, hi⟩ := forall₂_mem_right hF hw
  obtain ⟨-, -, hC⟩ := C07_complete_and_symmetric hnd h A B
  obtain ⟨-, hC⟩ := hC s hs
  obtain ⟨_, _, _, _, hwe, _⟩ := completeEq_ok hi
  obtain ⟨eA, eB⟩ := hC e he
  rw [min_eq_left hAB] at eA
  rw [max_eq_right hAB] at eB
  refine .inl ?_
  unfold WEq.Loaded
  rw [hwe]
  refine ⟨eA, eB, ?_, i, hi⟩
  unfold UTable.get? at hs
  split at hs
  swap
  · cases hs
  rename_i hij
  rw [min_eq_left hAB, max_eq_right hAB] at hs
  obtain ⟨es, hes, hcell⟩ := h3 A B hAB hB
  rw [hcell] at hs
  have hs' := Option.some.inj hs
  rw [← hs'] at he
  have hrs : ((RDB.fresh props).table.resize d.props.length).cell A B = {} := by
    simp [RDB.fresh, UTable.resize]
  simp only [hrs, List.nil_append] at he
  obtain ⟨k, hk, x, hx, hload⟩ := forall₂_mem_right ((loadAll_ok _ _).1 hes) he
  obtain ⟨a, hA'⟩ : ∃ a, d.props[A]? = some a := ⟨_, List.getElem?_eq_getElem (by omega : A < d.props.length)⟩
  obtain ⟨b, hB'⟩ : ∃ b, d.props[B]? = some b := ⟨_, List.getElem?_eq_getElem hB⟩
  obtain ⟨y, hy, hr⟩ := cellNodes_reactants hnd' hA' hB' hk
  rw [hx] at hy
  cases hy
  exact C70_loaded_wellFormed hnd' (reactants_pos hr) hload

/-! ## C73: cross sections have values -/

/-- The parameters of a cross section are physical, and the speed `v` is one the model is meant for: not zero for
models that diverge there, not beyond the zero of `Log`, and inside the table of `DATA` unless the table
ends with zero or can be extrapolated.  For Lotz, a search that returns roots and shells without the exponential
correction, or with any correction not above one at a speed at which all shells are open or all are closed. -/
def CSDoc.Covers (solve : RootFinder) (ex : Bool) (mu v : ℝ) : CSDoc → Prop
  | .constant value _ => 0 ≤ value
  | .vhs p _ => p.Good
  | .inverse k thr => 0 ≤ k ∧ (0 < v ∨ 0 < loadThreshold mu thr)
  | .log A B thr => 0 < B ∧ (0 < v ∨ 0 < loadThreshold mu thr) ∧ v ≤ (10 : ℝ) ^ (A / B)
  | .data rows => (∀ r ∈ rows, 0 ≤ r.2 ∧ ∀ w, r.1 = .speed w → 0 ≤ w) ∧
      ((∃ r ∈ rows, v ≤ match r.1 with | .energy e => Real.sqrt (e / (1 / 2 * mu)) | .speed w => w) ∨
       (∃ l d, loadTable mu rows = l ++ [d] ∧ d.2 = 0) ∨
       (ex = true ∧ ∃ l d0 d1 d2, loadTable mu rows = l ++ [d0, d1, d2] ∧ 0 < d1.2 ∧ endSlope d0 d1 d2 < 0))
  | .lotz ps => solve.Exact ∧ ((∀ p ∈ ps, p.Plain) ∨
      ((∀ p ∈ ps, 0 < p.beta ∧ p.P ≠ 0 ∧ 0 ≤ p.a * p.q ∧ 0 ≤ p.b ∧ p.b ≤ 1 ∧ 0 ≤ p.c) ∧
       ((∀ p ∈ ps, 1 / Real.sqrt p.beta ≤ v) ∨ ∀ p ∈ ps, v < 1 / Real.sqrt p.beta)))

theorem ThresholdRule.value {x : XSec} {mu e : ℝ} {f : ℝ → Except XErr ℝ} (h : ThresholdRule x mu e f) {v : ℝ}
    (hv : 0 ≤ v) (hf : e ≤ 1 / 2 * mu * v ^ 2 → ∃ c, f v = .ok c ∧ 0 ≤ c) : ∃ c, x.sigma v = .ok c ∧ 0 ≤ c := by
  rcases lt_or_ge (1 / 2 * mu * v ^ 2) e with hlt | hge
  · exact ⟨0, (h.2 v hv).1 hlt, le_rfl⟩
  · rw [(h.2 v hv).2 hge]; exact hf hge

/-- A Lotz cross section with correction, where all shells are open or all are closed. -/
theorem lotz_corrected_nonneg {solve : RootFinder} (hs : solve.Exact) {ps : List LotzPar} {mu v : ℝ} {x : XSec}
    (hd : ∀ p ∈ ps, 0 < p.beta ∧ p.P ≠ 0 ∧ 0 ≤ p.a * p.q ∧ 0 ≤ p.b ∧ p.b ≤ 1 ∧ 0 ≤ p.c)
    (h : mkLotz solve ps mu = .ok x)
    (hv : (∀ p ∈ ps, 1 / Real.sqrt p.beta ≤ v) ∨ ∀ p ∈ ps, v < 1 / Real.sqrt p.beta) :
    ∃ c, x.sigma v = .ok c ∧ 0 ≤ c := by
  have hps : ∀ p ∈ ps, p.Proper := fun p hp => ⟨(hd p hp).1, (hd p hp).2.1⟩
  obtain ⟨vmin, vmax, thr, z, hr, hthr, -, -, h2, -⟩ := mkLotz_ok h
  refine ⟨_, h2 v, ?_⟩
  rw [lotzSigma_eq]
  split
  · exact le_rfl
  rename_i hlt
  rcases hv with hv | hv
  · unfold lotzSum
    apply List.sum_nonneg
    intro r hr
    obtain ⟨p, hp, rfl⟩ := List.mem_map.1 hr
    obtain ⟨hb, hP, ha, hb0, hb1, hc⟩ := hd p hp
    have hq := Real.sqrt_pos.2 hb
    have h1 : 1 ≤ v * v * p.beta := by
      have h := hv p hp
      rw [div_le_iff₀ hq] at h
      have e : v * v * p.beta = (v * Real.sqrt p.beta) * (v * Real.sqrt p.beta) := by
        linear_combination -(v * v) * Real.mul_self_sqrt hb.le
      rw [e]; nlinarith
    have hE : Real.exp (-p.c * (v * v * p.beta - 1)) ≤ 1 := Real.exp_le_one_iff.2 (by nlinarith)
    have hE0 := Real.exp_pos (-p.c * (v * v * p.beta - 1))
    have hf : 0 ≤ 1 - p.b * Real.exp (-p.c * (v * v * p.beta - 1)) := by nlinarith
    have hl := Real.log_nonneg h1
    unfold lotzTerm
    have hx : 0 < v * v * p.beta := by linarith
    positivity
  · exfalso
    have hmin : vmin ≤ thr := by
      have hle := (lotzRange_spec hr).1
      split at hthr
      · rw [hthr]; exact hle
      · exact (hs _ _ _ _ hthr).2
    obtain ⟨⟨p, hp, he⟩, -⟩ := lotzRange_attained hr
    have := hv p hp
    linarith [not_lt.1 hlt]

/-- **C73**  A cross section that was built has a finite nonnegative value at every speed it covers. -/
theorem C73_evaluates {solve : RootFinder} {ex : Bool} {mu v : ℝ} (hmu : 0 < mu) (hv : 0 ≤ v)
    {d : CSDoc} (hd : d.Covers solve ex mu v) {x : XSec} (h : d.load solve ex mu = .ok x) :
    ∃ c, x.sigma v = .ok c ∧ 0 ≤ c := by
  have pick : ∀ {mk : Except XErr XSec} {e : ℝ} {f : ℝ → Except XErr ℝ}, mk = .ok x →
      (e < 0 → mk = .error .badThreshold) ∧ (0 ≤ e → ∃ y, mk = .ok y ∧ ThresholdRule y mu e f) →
      ThresholdRule x mu e f := by
    intro mk e f h1 h2
    rcases lt_or_ge e 0 with hn | hp
    · rw [h2.1 hn] at h1; cases h1
    · obtain ⟨y, hy, hr⟩ := h2.2 hp
      rw [hy] at h1; cases h1; exact hr
  have vpos : ∀ {e : ℝ}, (0 < v ∨ 0 < e) → e ≤ 1 / 2 * mu * v ^ 2 → 0 < v := by
    intro e h1 h2
    rcases h1 with h1 | h1
    · exact h1
    · rcases hv.eq_or_lt with h0 | h0
      · rw [← h0] at h2; norm_num at h2; linarith
      · exact h0
  cases d with
  | constant value thr =>
    exact (pick (mk := mkConstant _ _ _) h (C54_constant hmu value _)).value hv fun _ => ⟨_, rfl, hd⟩
  | vhs p thr =>
    refine (pick (mk := mkVHS _ _ _) h (C54_vhs hmu p _)).value hv fun _ => ⟨_, rfl, ?_⟩
    obtain ⟨h1, h2, h3, h4, h5⟩ := hd
    have : 0 < 2 * p.KB * p.Tref / (mu * v ^ 2 + p.tiny) := by positivity
    have := Real.rpow_pos_of_pos this (p.viscTLaw - 1 / 2)
    positivity
  | inverse k thr =>
    refine (pick (mk := mkInverse _ _ _) h (C54_inverse hmu k _)).value hv fun he => ?_
    have h0 := vpos hd.2 he
    exact ⟨k / v, by rw [if_neg h0.ne'], div_nonneg hd.1 hv⟩
  | log A B thr =>
    refine (pick (mk := mkLog _ _ _ _) h (C54_log hmu A B _)).value hv fun he => ?_
    have h0 := vpos hd.2.1 he
    refine ⟨_, by rw [if_neg h0.ne'], ?_⟩
    have h10 : 0 < Real.log 10 := Real.log_pos (by norm_num)
    have hl := Real.log_le_log h0 hd.2.2
    rw [Real.log_rpow (by norm_num)] at hl
    have : Real.log v / Real.log 10 ≤ A / B := by rw [div_le_iff₀ h10]; exact hl
    have hB := hd.1
    rw [le_div_iff₀ hB] at this
    linarith
  | data rows =>
    obtain ⟨hr, hcase⟩ := hd
    obtain ⟨h1, h2, h3⟩ := C57_loaded mu rows
    have hnn : ∀ d ∈ loadTable mu rows, 0 ≤ d.1 ∧ 0 ≤ d.2 := by
      intro d hd
      obtain ⟨r, hr', e2, e1⟩ := h2 d hd
      refine ⟨?_, by rw [e2]; exact (hr r hr').1⟩
      rw [e1]
      cases hr1 : r.1 with
      | energy e => exact Real.sqrt_nonneg _
      | speed w => exact (hr r hr').2 w hr1
    have inside : (∃ d ∈ loadTable mu rows, v ≤ d.1) → ∃ c, x.sigma v = .ok c ∧ 0 ≤ c :=
      fun hin => C57_nonneg h1 h (fun d hd => (hnn d hd).2) hin
    rcases hcase with ⟨r, hr', hle⟩ | ⟨l, d, hl, h0⟩ | ⟨rfl, l, d0, d1, d2, hl, hp1, hs⟩
    · obtain ⟨d, hd, e1⟩ := h3 r hr'
      exact inside ⟨d, hd, by rw [e1]; exact hle⟩
    · rcases lt_or_ge d.1 v with hlt | hge
      · have h' : mkData ex mu (l ++ [d]) = .ok x := by rw [← hl]; exact h
        exact ⟨0, C59_zero (hl ▸ h1) h' h0 hlt, le_rfl⟩
      · exact inside ⟨d, by rw [hl]; simp, hge⟩
    · rcases lt_or_ge d2.1 v with hlt | hge
      · have h' : mkData true mu (l ++ [d0, d1, d2]) = .ok x := by rw [← hl]; exact h
        by_cases hz : d2.2 = 0
        · have h'' : mkData true mu ((l ++ [d0, d1]) ++ [d2]) = .ok x := by
            rw [List.append_assoc]; exact h'
          exact ⟨0, C59_zero (by rw [List.append_assoc]; exact hl ▸ h1) h'' hz hlt, le_rfl⟩
        · obtain ⟨s, hs, hpos, -⟩ := C59_extrapolates (hl ▸ h1) (hnn d0 (by rw [hl]; simp)).1 h' hp1 hz hs hlt
          exact ⟨s, hs, hpos.le⟩
      · exact inside ⟨d2, by rw [hl]; simp, hge⟩
  | lotz ps =>
    obtain ⟨hs, hd | ⟨hd, hv'⟩⟩ := hd
    · obtain ⟨-, f, -, hf, -⟩ := C64_crossSection (fun p hp => (hd p hp).1) h
      exact ⟨f v, hf v, (C71_plain hs hd h hv).1 v _ (hf v)⟩
    · exact lotz_corrected_nonneg hs hd h hv'

/-- So the tests of a run have values if the cross sections of the pairs tested cover the relative speeds met. -/
theorem C73_run {T : Tools W} {db : Registry ℝ} (hm : ∀ x ∈ db, 0 < x.mass) {eqs : ℕ → ℕ → List (WEq W)}
    {st : DState (Part W) S ℝ}
    (h : ∀ ev ∈ st.log, ∀ w ∈ eqs ev.A ev.B, ∃ d, completeEq T db w.eq d = .ok w ∧
      d.cs.Covers T.solve T.extrapolate w.mu.value (ev.a.vel - ev.b.vel).abs) : TestsEvaluate eqs st := by
  intro ev hev w hw
  obtain ⟨d, hd, hc⟩ := h ev hev w hw
  obtain ⟨a, b, hA, hB, -, hmu, hcs, -⟩ := completeEq_ok hd
  have ha := hm a (List.mem_of_getElem? hA)
  have hb := hm b (List.mem_of_getElem? hB)
  have hmuv : w.mu.value = a.mass * b.mass / (a.mass + b.mass) := by rw [hmu]; rfl
  rw [hmuv] at hc
  exact C73_evaluates (by positivity) (Vec.abs_nonneg _) hc hcs

/-! ## A run -/

namespace WholeExample

/-- Excitation of hydrogen by electrons, cross section 3 above a threshold of 10. -/
def eq : LEq := { exExcite with csModel := "constant" }

def inter : InterDoc := { cs := .constant 3 (some (.energy 10)) }

/-- The generator always returns 0. -/
def zeros : RNG Unit ℝ := ⟨fun s => (0, s), fun s => (0, s)⟩

theorem zeros_valid : zeros.Valid := ⟨fun _ => ⟨le_rfl, zero_le_one⟩, fun _ => ⟨le_rfl, one_pos⟩⟩

noncomputable def cell (ip : Bool) : CellConst Unit Unit := ⟨fun _ _ => 5, 1, 2 / 15, fun _ => 1, ip, zeros⟩

/-- An electron of speed 5 and an atom at rest. -/
def start : DState (Part Unit) Unit ℝ where
  mem k := if k = 0 then ⟨0, ⟨5, 0, 0⟩, 0, ()⟩ else ⟨0, ⟨0, 0, 0⟩, 1, ()⟩
  range A := if A = 0 then (0, 1) else if A = 1 then (1, 2) else (2, 2)
  results := []
  erased := []
  log := []
  gen := ()

noncomputable def xs : XSec where
  sigma v := .ok (if v ≥ Real.sqrt (10 / (1 / 2 * (1 * 2000 / (1 + 2000)))) then 3 else 0)
  thrE := 10
  maxSV vmax := .ok (if vmax ≥ Real.sqrt (10 / (1 / 2 * (1 * 2000 / (1 + 2000)))) then (3 * vmax, vmax) else (0, 0))

theorem fast : Real.sqrt (10 / (1 / 2 * (1 * 2000 / (1 + 2000)))) ≤ 5 := by
  rw [Real.sqrt_le_left (by norm_num)]; norm_num

theorem eq_wf : WellFormed exReal eq :=
  ⟨⟨_, rfl⟩, ⟨_, rfl⟩, by simp [eq, exExcite, Term.single], by simp [eq, exExcite, Term.single],
    by simp [eq, exExcite, Term.single, exReal]⟩

/-- The equation is completed; the masses add up; a run of the driver performs it. -/
theorem run (T : Tools Unit) (ip : Bool) : ∃ w : WEq Unit, completeEq T exReal eq inter = .ok w ∧ w.Runnable exReal ∧
    SameSum exReal Props.mass w.eq ∧ w.energyChange = -10 ∧
    let eqs := fun A B => if A = 0 ∧ B = 1 then [w] else []
    WholeDB T exReal eqs ∧ SaneDB T exReal 2 eqs ∧ WFRanges 2 start.range ∧
    Homogeneous (wholeEnv T 2 eqs (cell ip)) start ∧
    ∃ st, driver (wholeEnv T 2 eqs (cell ip)) 5 5 start = .ok st ∧ TestsEvaluate eqs st ∧ performed eqs st = [w] := by
  obtain ⟨m, hm⟩ := (C70_two_products T.oc eq_wf none 10 exReal_pos
    (by simp [eq, exExcite, Term.single]) (a := ⟨"e", 1, -1⟩) (b := ⟨"H", 2000, 0⟩) (p1 := ⟨"e", 1, -1⟩)
    (p2 := ⟨"H*", 2000, 0⟩) rfl rfl rfl).2 (by norm_num)
  have hxs : mkConstant 3 (1 * 2000 / (1 + 2000)) 10 = .ok xs := by
    unfold mkConstant setThreshold
    rw [if_neg (by norm_num)]
    rfl
  have hmu : (ReducedMass.mk' (1 : ℝ) 2000).value = 1 * 2000 / (1 + 2000) := rfl
  have hw : completeEq T exReal eq inter = .ok ⟨eq, ReducedMass.mk' 1 2000, xs, .inelastic (.two m), none⟩ := by
    unfold completeEq
    rw [show exReal[eq.A.species.toNat]? = some ⟨"e", 1, -1⟩ from rfl,
      show exReal[eq.B.species.toNat]? = some ⟨"H", 2000, 0⟩ from rfl]
    have h1 : inter.cs.load T.solve T.extrapolate (ReducedMass.mk' (1 : ℝ) 2000).value = .ok xs := by
      rw [hmu]; exact hxs
    have h2 : loadModel T exReal eq inter xs = .ok (.inelastic (.two m)) := by
      unfold loadModel
      rw [if_neg (by decide), if_neg (by decide), if_pos (by decide)]
      rw [show newLoad exReal T.oc eq inter.declared xs.thrE = .ok (.two m) from hm]
    dsimp only
    rw [if_pos (by decide), h1]
    dsimp only
    rw [h2]
    rfl
  generalize hwd : (⟨eq, ReducedMass.mk' 1 2000, xs, .inelastic (.two m), none⟩ : WEq Unit) = w at hw
  have hweq : w.eq = eq := by rw [← hwd]
  have hwcs : w.cs = xs := by rw [← hwd]
  have hvel : ((start.mem 0).vel - (start.mem 1).vel).abs = 5 := by
    show Real.sqrt ((5 - 0) ^ 2 + (0 - 0) ^ 2 + (0 - 0) ^ 2) = (5 : ℝ)
    rw [show ((5 - 0) ^ 2 + (0 - 0) ^ 2 + (0 - 0) ^ 2 : ℝ) = 5 ^ 2 by norm_num]
    exact Real.sqrt_sq (by norm_num)
  refine ⟨w, hw, ?_, ?_, ?_, ?_, ?_, ?_, ?_, ?_⟩
  · intro m' hm'
    rw [← hwd] at hm'
    cases hm'
    refine ⟨by rw [← hwd]; simp, m, .inl rfl, fun _ => ?_⟩
    rw [hweq]
    norm_num [speciesVal, eq, exExcite, exReal, Term.single]
  · rw [hweq]
    show (1 : ℝ) + (2000 + 0) = 1 + 2000
    norm_num
  · rw [← hwd]; rfl
  · refine ⟨exReal_pos, fun A B _ _ x hx => ?_⟩
    split at hx
    · rename_i h
      obtain ⟨rfl, rfl⟩ := h
      rw [List.mem_singleton.1 hx]
      refine .inl ?_
      unfold WEq.Loaded
      rw [hweq]
      exact ⟨rfl, rfl, eq_wf, inter, hw⟩
    · cases hx
  · intro A B _ _ x hx
    dsimp only at hx
    split at hx
    · rw [List.mem_singleton.1 hx, hweq]
      exact .inl ⟨inter, hw, trivial⟩
    · cases hx
  · refine ⟨fun A hA => ?_, fun A hA B hB hne z => ?_⟩
    · obtain rfl | rfl : A = 0 ∨ A = 1 := by omega
      all_goals decide
    · obtain ⟨rfl, rfl⟩ | ⟨rfl, rfl⟩ : A = 0 ∧ B = 1 ∨ A = 1 ∧ B = 0 := by omega
      all_goals (simp only [start]; norm_num; try omega)
  · intro C hC z h1 h2
    change C < 2 at hC
    obtain rfl | rfl : C = 0 ∨ C = 1 := by omega
    · change z < 1 at h2
      obtain rfl : z = 0 := by omega
      rfl
    · change 1 ≤ z at h1
      change z < 2 at h2
      obtain rfl : z = 1 := by omega
      rfl
  · set eqs : ℕ → ℕ → List (WEq Unit) := fun A B => if A = 0 ∧ B = 1 then [w] else [] with heqs
    set env := wholeEnv T 2 eqs (cell ip) with henv
    have e00 : estimatePair env start 0 0 = .ok (none, start) := rfl
    have e11 : estimatePair env start 1 1 = .ok (none, start) := rfl
    have hmax : findMaxSigmaVProduct ((env.rhs 0 1).map Eqn.maxSigmaV) (env.maxRelVel 0 1) = 15 := by
      show findMaxSigmaVProduct [(w.toEqn T zeros ip).maxSigmaV] 5 = 15
      have : (w.toEqn T zeros ip).maxSigmaV 5 = 15 := by
        show (match w.cs.maxSV 5 with | .ok r => r.1 | .error _ => 0) = (15 : ℝ)
        rw [hwcs]
        show (if (5 : ℝ) ≥ _ then ((3 : ℝ) * 5, (5 : ℝ)) else (0, 0)).1 = 15
        rw [if_pos fast]
        norm_num
      simp [findMaxSigmaVProduct, this]
    have e01 : estimatePair env start 0 1 = .ok (some ⟨2, 15⟩, start) := by
      unfold estimatePair
      rw [if_neg (show ¬ (env.rhs 0 1).length = 0 from Nat.one_ne_zero), if_neg (by decide)]
      dsimp only
      rw [hmax]
      show Except.ok (some (⟨promote (estimateTests (1 : ℝ) 1 1 1 (2 / 15) 15 1 false) 0, 15⟩ : TestData ℝ), _) = _
      have : promote (estimateTests (1 : ℝ) 1 1 1 (2 / 15) 15 1 false) 0 = 2 := by
        norm_num [promote, estimateTests]
      rw [this]
    have hsel : selectRandomPair env.rng false 5 (start.range 0) (start.range 1) start.gen = some (0, 1, ()) := by
      show selectRandomPair zeros false 5 (0, 1) (1, 2) () = _
      norm_num [selectRandomPair, selectB, zeros, pickPos, rsize]
    have hloop : testLoop env 5 0 1 15 5 2 start = .ok (pairTest env 0 1 15 0 1 { start with gen := () }) := by
      unfold testLoop
      rw [if_pos (by norm_num), if_neg (by decide), hsel]
      dsimp only
      unfold testLoop
      rw [if_neg (by norm_num)]
    have hdrv : driver env 5 5 start = .ok (pairTest env 0 1 15 0 1 { start with gen := () }) := by
      unfold driver
      rw [show speciesPairs env.nSpecies = [(0, 0), (0, 1), (1, 1)] from rfl]
      simp only [estimateAll, e00, e01, e11, collideAll, hloop]
    have hlog := (pairTest_fields env 0 1 15 0 1 { start with gen := () }).2.1
    simp only at hlog
    refine ⟨_, hdrv, ?_, ?_⟩
    · intro ev hev x hx
      rw [hlog] at hev
      rw [List.mem_singleton.1 hev] at hx ⊢
      rw [List.mem_singleton.1 hx, hwcs]
      exact ⟨3, by show Except.ok _ = _; rw [hvel, if_pos fast], by norm_num⟩
    · unfold performed
      rw [hlog]
      have hpath : (setInteract env (env.rhs 0 1) 15 (start.mem 0) (start.mem 1) ()).1 =
          calculateOutPath [(w.toEqn T zeros ip).sigma ((start.mem 0).vel - (start.mem 1).vel).abs] 15
            ((start.mem 0).vel - (start.mem 1).vel).abs 0 0 := by
        unfold setInteract performPath
        dsimp only
        split
        · split
          · rfl
          · split <;> rfl
        · rfl
      have hsig : (w.toEqn T zeros ip).sigma 5 = 3 := by
        show (match w.cs.sigma 5 with | .ok c => c | .error _ => 0) = (3 : ℝ)
        rw [hwcs]
        show (if (5 : ℝ) ≥ _ then (3 : ℝ) else 0) = 3
        rw [if_pos fast]
      have hfirst : (setInteract env (env.rhs 0 1) 15 (start.mem 0) (start.mem 1) ()).1.first = 0 := by
        rw [hpath, hvel, hsig]
        norm_num [calculateOutPath, csTotal, pickLoop]
      show List.filterMap _ [_] = [w]
      rw [List.filterMap_cons_some (b := w)]
      · rfl
      · dsimp only
        rw [hfirst]
        rfl

/-- In that run the kinetic energy drops by 10 and the interaction is possible for the pair. -/
example (T : Tools Unit) : ∃ (eqs : ℕ → ℕ → List (WEq Unit)) (st : DState (Part Unit) Unit ℝ),
    driver (wholeEnv T 2 eqs (cell true)) 5 5 start = .ok st ∧
    grandTotal 2 (energyOf exReal) st = grandTotal 2 (energyOf exReal) start - 10 ∧
    grandTotal 2 (momentumOf exReal) st = grandTotal 2 (momentumOf exReal) start ∧
    ∃ ev ∈ st.log, 0 ≤ ev.path.first := by
  obtain ⟨w, hw, hrun, hsame, hE, h1, h2, h3, h4, st, h5, h6, h7⟩ := run T true
  have hweq : w.eq = eq := (completeEq_ok hw).choose_spec.choose_spec.2.2.1
  have hops : OpsKeepVel T.oc w.eq := by
    rw [hweq]; exact NoOps.keepVel (by simp [NoOps, eq, exExcite, productOps, Term.single])
  have hall : ∀ A B, A ≤ B → B < 2 → ∀ x ∈ (fun A B => if A = 0 ∧ B = 1 then [w] else []) A B, x = w := by
    intro A B _ _ x hx
    dsimp only at hx
    split at hx
    · exact List.mem_singleton.1 hx
    · cases hx
  have hvss : ∀ k, w.model ≠ .vss k := by
    intro k hk
    unfold WEq.energyChange at hE
    rw [hk] at hE
    norm_num at hE
  have e1 := C66_energy h1 (n := 2) (by decide) h2 (c := cell true) rfl zeros_valid
    (fun A B hAB hB x hx => by rw [hall A B hAB hB x hx]; exact ⟨hrun, hvss⟩)
    (fun A B hAB hB x hx _ => by rw [hall A B hAB hB x hx]; exact ⟨hsame, hops⟩) h6 h3 rfl h4 h5
  have e2 := C66_momentum h1 (n := 2) (by decide) (c := cell true) rfl zeros_valid
    (fun A B hAB hB x hx _ => by rw [hall A B hAB hB x hx]; exact ⟨hsame, hops⟩) h6 h3 rfl h4 h5
  refine ⟨_, st, h5, ?_, e2, ?_⟩
  · rw [e1, h7]
    simp [hE]
    ring
  · by_contra hno
    push Not at hno
    have : performed (fun A B => if A = 0 ∧ B = 1 then [w] else []) st = [] := by
      unfold performed
      rw [List.filterMap_eq_nil_iff]
      intro ev hev
      rw [if_pos (hno ev hev)]
    rw [this] at h7
    cases h7

/-- Speeds covered by a logarithmic cross section and by a table. -/
example (solve : RootFinder) : (CSDoc.log 2 1 none).Covers solve false 1 10 ∧
    ¬ (CSDoc.log 2 1 none).Covers solve false 1 1000 ∧
    (CSDoc.data [(.speed 1, 0), (.speed 3, 2)]).Covers solve false 1 2 := by
  refine ⟨⟨by norm_num, .inl (by norm_num), by norm_num⟩, fun h => ?_, ?_, .inl ⟨(.speed 3, 2), by simp, by norm_num⟩⟩
  · have := h.2.2
    norm_num at this
  · intro r hr
    simp only [List.mem_cons, List.not_mem_nil, or_false] at hr
    rcases hr with rfl | rfl
    · exact ⟨le_rfl, fun w hw => by cases hw; norm_num⟩
    · exact ⟨by norm_num, fun w hw => by cases hw; norm_num⟩

/-- Speeds covered by two shells with corrections: at or above the larger threshold, and below the smaller. -/
example : (CSDoc.lotz [⟨1, 1, 1, 1, 1 / 2, 1 / 5⟩, ⟨4, 1 / 4, 10, 2, 1, 2⟩]).Covers idealRoot false 1 3 ∧
    (CSDoc.lotz [⟨1, 1, 1, 1, 1 / 2, 1 / 5⟩, ⟨4, 1 / 4, 10, 2, 1, 2⟩]).Covers idealRoot false 1 (1 / 2) := by
  have hq : Real.sqrt (1 / 4) = 1 / 2 := by
    rw [show (1 : ℝ) / 4 = (1 / 2) ^ 2 by norm_num, Real.sqrt_sq (by norm_num)]
  have hp : ∀ p ∈ [(⟨1, 1, 1, 1, 1 / 2, 1 / 5⟩ : LotzPar), ⟨4, 1 / 4, 10, 2, 1, 2⟩],
      0 < p.beta ∧ p.P ≠ 0 ∧ 0 ≤ p.a * p.q ∧ 0 ≤ p.b ∧ p.b ≤ 1 ∧ 0 ≤ p.c := by
    intro p hp
    simp only [List.mem_cons, List.not_mem_nil, or_false] at hp
    rcases hp with rfl | rfl <;> norm_num
  refine ⟨⟨idealRoot_good.1, .inr ⟨hp, .inl ?_⟩⟩, ⟨idealRoot_good.1, .inr ⟨hp, .inr ?_⟩⟩⟩ <;>
  · intro p hp
    simp only [List.mem_cons, List.not_mem_nil, or_false] at hp
    rcases hp with rfl | rfl
    · simp only [Real.sqrt_one]; norm_num
    · simp only [hq]; norm_num

end WholeExample

end Chimp
