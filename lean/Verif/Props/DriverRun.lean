import Verif.Props.DriverCount
import Verif.Props.OutPath

/-!
# Properties C66, C67: conservation over a whole run, order of the reactants

and a concrete cell on which the hypotheses of the driver theorems hold.
-/

namespace Chimp

variable {P S K : Type} [Field K] [LinearOrder K]

/-! ## C67 -/

/-- **C67**  Whenever a pair interacts, the interaction model of the selected equation is given the pair
in order of increasing species index (whatever the order in which it was selected), the modified
values go back to the particles they came from, and the products reported are the model's. -/
theorem C67_species_order (env : DriverEnv P S K) (rhs : List (Eqn P S K)) (m : K) (a b : P) (s : S) :
    let r := setInteract env rhs m a b s
    (r.2.1 = a ∧ r.2.2.1 = b ∧ r.2.2.2.1 = []) ∨
    ∃ e s' x y, rhs[r.1.first.toNat]? = some e ∧ 0 ≤ r.1.first ∧ env.species x ≤ env.species y ∧
      r.2.2.2.1 = (e.act x y s').2.2.1 ∧
      ((x = a ∧ y = b ∧ r.2.1 = (e.act x y s').1 ∧ r.2.2.1 = (e.act x y s').2.1) ∨
       (x = b ∧ y = a ∧ r.2.2.1 = (e.act x y s').1 ∧ r.2.1 = (e.act x y s').2.1)) := by
  intro r
  rcases setInteract_cases env rhs m a b s with ⟨-, h⟩ | ⟨h0, e, _, s', he, h | h⟩
  · exact .inl h
  · exact .inr ⟨e, s', b, a, he, h0, h.1.le, h.2.2.2, .inr ⟨rfl, rfl, h.2.2.1, h.2.1⟩⟩
  · exact .inr ⟨e, s', a, b, he, h0, not_lt.1 h.1, h.2.2.2, .inl ⟨rfl, rfl, h.2.1, h.2.2.1⟩⟩

variable [IsStrictOrderedRing K]

/-- With nonnegative cross sections the selected equation is open at the relative speed of the pair. -/
theorem setInteract_open (env : DriverEnv P S K) (hv : env.rng.Valid) (rhs : List (Eqn P S K)) (m : K)
    (a b : P) (s : S) (hnn : ∀ e ∈ rhs, 0 ≤ e.sigma (env.relSpeed a b)) :
    let r := setInteract env rhs m a b s
    0 ≤ r.1.first → ∀ e, rhs[r.1.first.toNat]? = some e → 0 < e.sigma (env.relSpeed a b) := by
  intro r h0 e he
  have hpath : r.1 = calculateOutPath (rhs.map fun e => e.sigma (env.relSpeed a b)) m
      (env.relSpeed a b) (env.rng.rand s).1 (env.rng.randExc (env.rng.rand s).2).1 := by
    simp only [r, setInteract, performPath_fst]
  have h := C30_valid_open_channel (rhs.map fun e => e.sigma (env.relSpeed a b))
    (by intro c hc; obtain ⟨e, he, rfl⟩ := List.mem_map.1 hc; exact hnn e he) m
    (env.relSpeed a b) (env.rng.rand s).1 (env.rng.randExc (env.rng.rand s).2).1
    (hv.randExc_mem _).1
  simp only at h
  rw [← hpath] at h
  rcases h with h | ⟨j, c, hj, h1, _, hc⟩
  · omega
  · rw [h1] at he
    simp only [Int.toNat_natCast] at he
    rw [List.getElem?_map, he] at hj
    simp only [Option.map_some, Option.some.injEq] at hj
    rw [hj]; exact hc

/-- What one pair test does when cross sections are nonnegative: nothing, or the interaction of one open equation. -/
theorem setInteract_choice (env : DriverEnv P S K) (hv : env.rng.Valid) (rhs : List (Eqn P S K)) (m : K)
    (a b : P) (s : S) (hnn : ∀ e ∈ rhs, 0 ≤ e.sigma (env.relSpeed a b)) :
    let r := setInteract env rhs m a b s
    (r.1.first = -1 ∧ r.2.1 = a ∧ r.2.2.1 = b ∧ r.2.2.2.1 = []) ∨
    ∃ (j : ℕ) (e : Eqn P S K) (s' : S), r.1.first = j ∧ rhs[j]? = some e ∧
      0 < e.sigma (env.relSpeed a b) ∧
      ((env.species a > env.species b ∧
          r.2.1 = (e.act b a s').2.1 ∧ r.2.2.1 = (e.act b a s').1 ∧
          r.2.2.2.1 = (e.act b a s').2.2.1) ∨
       (¬ env.species a > env.species b ∧
          r.2.1 = (e.act a b s').1 ∧ r.2.2.1 = (e.act a b s').2.1 ∧
          r.2.2.2.1 = (e.act a b s').2.2.1)) := by
  simp only
  have hC := C30_valid_open_channel (rhs.map fun e => e.sigma (env.relSpeed a b))
    (by intro c hc; obtain ⟨e, he, rfl⟩ := List.mem_map.1 hc; exact hnn e he) m
    (env.relSpeed a b) (env.rng.rand s).1 (env.rng.randExc (env.rng.rand s).2).1
    (hv.randExc_mem _).1
  unfold setInteract performPath
  simp only at hC ⊢
  generalize calculateOutPath (rhs.map fun e => e.sigma (env.relSpeed a b)) m
    (env.relSpeed a b) (env.rng.rand s).1 (env.rng.randExc (env.rng.rand s).2).1 = path at hC ⊢
  rcases hC with ⟨h, -⟩ | ⟨j, c, hj, h1, -, hc⟩
  · have h0 : ¬ path.first ≥ 0 := by rw [h]; decide
    rw [if_neg h0]
    exact .inl ⟨h, rfl, rfl, rfl⟩
  · right
    rw [List.getElem?_map] at hj
    cases he : rhs[j]? with
    | none => rw [he] at hj; cases hj
    | some e =>
      rw [he] at hj
      simp only [Option.map_some, Option.some.injEq] at hj
      have h0 : path.first ≥ 0 := by rw [h1]; exact Int.natCast_nonneg j
      have he' : rhs[path.first.toNat]? = some e := by rw [h1]; simpa using he
      rw [if_pos h0, he']
      simp only
      by_cases hs : env.species a > env.species b
      · simp only [hs, if_true]
        exact ⟨j, e, _, h1, he, hj ▸ hc, .inl ⟨trivial, rfl, rfl, rfl⟩⟩
      · simp only [hs, if_false]
        exact ⟨j, e, _, h1, he, hj ▸ hc, .inr ⟨not_false, rfl, rfl, rfl⟩⟩

/-! ## C66: specification -/

/-- Every equation conserves the additive quantity `φ` (on particles of its two species, at speeds where
its cross section is positive): if the model creates products they carry what the reactants
carried; otherwise the modified reactants do. -/
def Conserves {G : Type} [AddCommMonoid G] (env : DriverEnv P S K) (φ : P → G) : Prop :=
  ∀ A B, A ≤ B → B < env.nSpecies → ∀ e ∈ env.rhs A B, ∀ a b s,
    env.species a = A → env.species b = B → 0 < e.sigma (env.relSpeed a b) →
    ((e.act a b s).2.2.1 = [] → φ (e.act a b s).1 + φ (e.act a b s).2.1 = φ a + φ b) ∧
    ((e.act a b s).2.2.1 ≠ [] → ((e.act a b s).2.2.1.map φ).sum = φ a + φ b)

/-- Every equation changes the additive quantity `φ` by a fixed amount: the `j`-th equation of species `A` and `B`
by `δ A B j`. -/
def Balances {G : Type} [AddCommMonoid G] (env : DriverEnv P S K) (φ : P → G) (δ : ℕ → ℕ → ℕ → G) : Prop :=
  ∀ A B, A ≤ B → B < env.nSpecies → ∀ (j : ℕ) (e : Eqn P S K), (env.rhs A B)[j]? = some e → ∀ a b s,
    env.species a = A → env.species b = B → 0 < e.sigma (env.relSpeed a b) →
    ((e.act a b s).2.2.1 = [] → φ (e.act a b s).1 + φ (e.act a b s).2.1 = φ a + φ b + δ A B j) ∧
    ((e.act a b s).2.2.1 ≠ [] → ((e.act a b s).2.2.1.map φ).sum = φ a + φ b + δ A B j)

/-- The change belonging to one reported test: that of the equation performed, nothing if there was none. -/
def Event.source {G : Type} [AddCommMonoid G] (δ : ℕ → ℕ → ℕ → G) (ev : Event P K) : G :=
  if ev.path.first < 0 then 0 else δ ev.A ev.B ev.path.first.toNat

/-- Amount of `φ` in the species ranges of a cell. -/
def cellTotal {G : Type} [AddCommMonoid G] (n : ℕ) (φ : P → G) (st : DState P S K) : G :=
  ∑ C ∈ Finset.range n, ((liveM st.mem (st.range C)).map φ).sum

omit [IsStrictOrderedRing K] in
private theorem sum_ite_range {G : Type} [AddCommMonoid G] (n A : ℕ) (hA : A < n) (φ : P → G) (x : P) :
    ∑ C ∈ Finset.range n, ((if C = A then ({x} : Multiset P) else 0).map φ).sum = φ x := by
  rw [Finset.sum_eq_single A]
  · simp
  · intro C _ hC; simp [hC]
  · intro h; exact absurd (Finset.mem_range.2 hA) h

/-- All cross sections consulted in the reported tests were nonnegative. -/
def NonnegTests (env : DriverEnv P S K) (st : DState P S K) : Prop :=
  ∀ ev ∈ st.log, ∀ e ∈ env.rhs ev.A ev.B, 0 ≤ e.sigma (env.relSpeed ev.a ev.b)

omit [IsStrictOrderedRing K] in
theorem TestStep.log_append [FloorRing K] {env : DriverEnv P S K} {st st' : DState P S K} (h : TestStep env st st') :
    ∃ ev, st'.log = st.log ++ [ev] := by
  obtain ⟨A, B, m, p, q, g, _, -⟩ := h
  exact ⟨_, (pairTest_fields env A B m p q { st with gen := g }).2.1⟩

omit [IsStrictOrderedRing K] in
theorem NonnegTests.before [FloorRing K] {env : DriverEnv P S K} {st st' : DState P S K} (h : NonnegTests env st')
    (hs : TestStep env st st') : NonnegTests env st := by
  obtain ⟨ev, he⟩ := hs.log_append
  exact fun x hx => h x (by rw [he]; exact List.mem_append_left _ hx)

private structure BalInv {G : Type} [AddCommGroup G] (env : DriverEnv P S K) (φ : P → G)
    (δ : ℕ → ℕ → ℕ → G) (st0 st : DState P S K) : Prop where
  wf : WFRanges env.nSpecies st.range
  hom : Homogeneous env st
  tot : cellTotal env.nSpecies φ st + (st.results.map φ).sum + (st0.log.map (Event.source δ)).sum =
    cellTotal env.nSpecies φ st0 + (st0.results.map φ).sum + (st.log.map (Event.source δ)).sum

private theorem balInv_step {G : Type} [AddCommGroup G] (env : DriverEnv P S K)
    (hin : env.inplace = true) (hv : env.rng.Valid) (hk : InPlaceKeeps env env.species)
    (φ : P → G) (δ : ℕ → ℕ → ℕ → G) (hc : Balances env φ δ)
    (st0 st st' : DState P S K) (hnn : NonnegTests env st') (hinv : BalInv env φ δ st0 st)
    (hstep : TestStep env st st') :
    BalInv env φ δ st0 st' := by
  have hwf' := (hstep.range_shrinks hinv.wf).1
  obtain ⟨A, B, m, p, q, g, _, hAB, hB, hne, hp, hq, hpq⟩ := hstep
  have hA : A < env.nSpecies := by omega
  have h1 := pairTest_inplace env hin env.nSpecies A B m p q { st with gen := g } hinv.wf hA hB hp hq hpq
  have h2 := pairTest_fields env A B m p q { st with gen := g }
  have hspa : env.species (st.mem p) = A := hinv.hom A hA p hp.1 hp.2
  have hspb : env.species (st.mem q) = B := hinv.hom B hB q hq.1 hq.2
  have hcases := setInteract_choice env hv (env.rhs A B) m (st.mem p) (st.mem q) g
    (fun e he => hnn ⟨A, B, p, q, st.mem p, st.mem q, _, _⟩ (by rw [h2.2.1]; exact List.mem_append_right _ (List.mem_singleton.2 rfl)) e he)
  simp only at h1 h2 hcases
  generalize setInteract env (env.rhs A B) m (st.mem p) (st.mem q) g = r at h1 h2 hcases
  generalize pairTest env A B m p q { st with gen := g } = st' at h1 h2 hwf'
  -- what the interaction did
  set d : G := Event.source δ (⟨A, B, p, q, st.mem p, st.mem q, r.1, r.2.2.2.1⟩ : Event P K) with hd
  have hcons : (r.2.2.2.1 = [] → φ r.2.1 + φ r.2.2.1 = φ (st.mem p) + φ (st.mem q) + d) ∧
      (r.2.2.2.1 ≠ [] → (r.2.2.2.1.map φ).sum = φ (st.mem p) + φ (st.mem q) + d) ∧
      env.species r.2.1 = A ∧ env.species r.2.2.1 = B := by
    rcases hcases with ⟨h0, h⟩ | ⟨j, e, s', h0, hie, hpos, h | h⟩
    · have hd0 : d = 0 := by rw [hd]; unfold Event.source; rw [if_pos (by rw [h0]; decide)]
      rw [h.1, h.2.1, h.2.2, hd0, add_zero]; exact ⟨fun _ => rfl, fun h => absurd rfl h, hspa, hspb⟩
    · rw [hspa, hspb] at h; omega
    · have hd0 : d = δ A B j := by
        rw [hd]; unfold Event.source; rw [if_neg (by rw [h0]; exact not_lt.2 (Int.natCast_nonneg j))]
        rw [h0, Int.toNat_natCast]
      have hcc := hc A B hAB hB j e hie (st.mem p) (st.mem q) s' hspa hspb hpos
      have hkk := hk A B e (List.mem_of_getElem? hie) (st.mem p) (st.mem q) s'
      rw [h.2.1, h.2.2.1, h.2.2.2, hd0]
      exact ⟨hcc.1, hcc.2, hkk.1.trans hspa, hkk.2.trans hspb⟩
  have hlogs : (st'.log.map (Event.source δ)).sum = (st.log.map (Event.source δ)).sum + d := by
    rw [h2.2.1, List.map_append, List.sum_append]; simp [hd]
  have hsumA := sum_ite_range env.nSpecies A hA φ
  have hsumB := sum_ite_range env.nSpecies B hB φ
  by_cases hprod : r.2.2.2.1 = []
  · obtain ⟨hr, he, hl⟩ := h1.1 hprod
    refine ⟨hwf', ?_, ?_⟩
    · intro C hC z hz1 hz2
      have hmem : st'.mem z ∈ liveM st'.mem (st'.range C) := mem_liveM.2 ⟨z, hz1, hz2, rfl⟩
      have h3 : st'.mem z ∈ liveM st.mem (st.range C) + (if C = A then {r.2.1} else 0) +
          (if C = B then {r.2.2.1} else 0) := by
        rw [← hl C hC]
        exact Multiset.mem_add.2 (.inl (Multiset.mem_add.2 (.inl hmem)))
      rcases Multiset.mem_add.1 h3 with h3 | h3
      · rcases Multiset.mem_add.1 h3 with h3 | h3
        · obtain ⟨y, hy1, hy2, hy⟩ := mem_liveM.1 h3
          rw [← hy]; exact hinv.hom C hC y hy1 hy2
        · split at h3
          · rename_i hCA
            rw [Multiset.mem_singleton.1 h3, hcons.2.2.1, hCA]
          · simp at h3
      · split at h3
        · rename_i hCB
          rw [Multiset.mem_singleton.1 h3, hcons.2.2.2, hCB]
        · simp at h3
    · rw [hlogs, ← add_assoc, ← hinv.tot, h2.1, hprod, List.append_nil]
      have h4 : ∑ C ∈ Finset.range env.nSpecies, ((liveM st'.mem (st'.range C) +
            (if C = A then {st.mem p} else 0) + (if C = B then {st.mem q} else 0)).map φ).sum =
          ∑ C ∈ Finset.range env.nSpecies, ((liveM st.mem (st.range C) +
            (if C = A then {r.2.1} else 0) + (if C = B then {r.2.2.1} else 0)).map φ).sum := by
        refine Finset.sum_congr rfl fun C hC => ?_
        rw [hl C (Finset.mem_range.1 hC)]
      simp only [Multiset.map_add, Multiset.sum_add, Finset.sum_add_distrib, hsumA, hsumB] at h4
      have h5 := hcons.1 hprod
      unfold cellTotal
      rw [add_assoc, add_assoc, h5] at h4
      rw [add_comm (φ (st.mem p) + φ (st.mem q)) d,
        ← add_assoc (∑ C ∈ Finset.range env.nSpecies, ((liveM st.mem (st.range C)).map φ).sum)] at h4
      have h6 := add_right_cancel h4
      rw [h6]
      abel
  · obtain ⟨hr, -, hl⟩ := h1.2 hprod
    refine ⟨hwf', ?_, ?_⟩
    · intro C hC z hz1 hz2
      have hmem : st'.mem z ∈ liveM st.mem (st.range C) := by
        rw [← hl C hC]
        exact Multiset.mem_add.2 (.inl (Multiset.mem_add.2 (.inl (mem_liveM.2 ⟨z, hz1, hz2, rfl⟩))))
      obtain ⟨y, hy1, hy2, hy⟩ := mem_liveM.1 hmem
      rw [← hy]; exact hinv.hom C hC y hy1 hy2
    · rw [hlogs, ← add_assoc, ← hinv.tot, h2.1, List.map_append, List.sum_append]
      have h4 : ∑ C ∈ Finset.range env.nSpecies, ((liveM st'.mem (st'.range C) +
            (if C = A then {st.mem p} else 0) + (if C = B then {st.mem q} else 0)).map φ).sum =
          ∑ C ∈ Finset.range env.nSpecies, ((liveM st.mem (st.range C)).map φ).sum := by
        refine Finset.sum_congr rfl fun C hC => ?_
        rw [hl C (Finset.mem_range.1 hC)]
      simp only [Multiset.map_add, Multiset.sum_add, Finset.sum_add_distrib, hsumA, hsumB] at h4
      have h5 := hcons.2.1 hprod
      unfold cellTotal
      rw [h5, ← h4]
      abel

variable [FloorRing K]

/-- **C66**  If every equation changes an additive quantity by a fixed amount, then after a run the amount carried
by the particles left in the species ranges plus the amount carried by the product list has changed
by the sum of the changes of the interactions performed. -/
theorem C66_run_balance {G : Type} [AddCommGroup G] (env : DriverEnv P S K)
    (hin : env.inplace = true) (hv : env.rng.Valid) (hk : InPlaceKeeps env env.species)
    (φ : P → G) (δ : ℕ → ℕ → ℕ → G) (hc : Balances env φ δ)
    (fi fs : ℕ) (st0 st : DState P S K) (hnn : NonnegTests env st) (hwf : WFRanges env.nSpecies st0.range)
    (hom : Homogeneous env st0) (hrun : driver env fi fs st0 = .ok st) :
    cellTotal env.nSpecies φ st + (st.results.map φ).sum + (st0.log.map (Event.source δ)).sum =
      cellTotal env.nSpecies φ st0 + (st0.results.map φ).sum + (st.log.map (Event.source δ)).sum := by
  obtain ⟨g, hreach⟩ := driver_reach env hv fi fs st0 st hrun
  have h0 : BalInv env φ δ st0 { st0 with gen := g } := ⟨hwf, hom, rfl⟩
  clear hrun
  have : BalInv env φ δ st0 st := by
    induction hreach with
    | refl => exact h0
    | tail _ hstep ih => exact balInv_step env hin hv hk φ δ hc st0 _ _ hnn (ih (hnn.before hstep)) hstep
  exact this.tot

/-- **C66**  If every equation conserves an additive quantity, the driver conserves it: the amount carried
by the particles left in the species ranges plus the amount carried by the product list is the same
after the run as before. -/
theorem C66_run_conserves {G : Type} [AddCommGroup G] (env : DriverEnv P S K)
    (hin : env.inplace = true) (hv : env.rng.Valid) (hk : InPlaceKeeps env env.species)
    (φ : P → G) (hc : Conserves env φ)
    (fi fs : ℕ) (st0 st : DState P S K) (hnn : NonnegTests env st) (hwf : WFRanges env.nSpecies st0.range)
    (hom : Homogeneous env st0) (hrun : driver env fi fs st0 = .ok st) :
    cellTotal env.nSpecies φ st + (st.results.map φ).sum =
      cellTotal env.nSpecies φ st0 + (st0.results.map φ).sum := by
  have hb : Balances env φ (fun _ _ _ => (0 : G)) := by
    intro A B hAB hB j e he a b s ha hb hpos
    simpa using hc A B hAB hB e (List.mem_of_getElem? he) a b s ha hb hpos
  have hz : ∀ l : List (Event P K), (l.map (Event.source fun _ _ _ => (0 : G))).sum = 0 := by
    intro l
    induction l with
    | nil => rfl
    | cons x l ih => rw [List.map_cons, List.sum_cons, ih]; simp [Event.source]
  simpa only [hz, add_zero] using C66_run_balance env hin hv hk φ _ hb fi fs st0 st hnn hwf hom hrun

/-- **C66**  With out-of-place interactions the products reported for a run carry exactly what the
reactants of the tests that created products carried, plus the changes of the interactions performed. -/
theorem C66_out_of_place_balance {G : Type} [AddCommMonoid G] (env : DriverEnv P S K)
    (hout : env.inplace = false) (hv : env.rng.Valid) (φ : P → G) (δ : ℕ → ℕ → ℕ → G)
    (hc : Balances env φ δ) (fi fs : ℕ) (st0 st : DState P S K) (hnn : NonnegTests env st)
    (hlog : st0.log = []) (hom : Homogeneous env st0) (hrun : driver env fi fs st0 = .ok st) :
    (st.results.map φ).sum = (st0.results.map φ).sum +
      ((st.log.filter (fun e => !e.prods.isEmpty)).map (fun e => φ e.a + φ e.b + e.source δ)).sum := by
  obtain ⟨g, hreach⟩ := driver_reach env hv fi fs st0 st hrun
  clear hrun
  have : Homogeneous env st ∧ (st.results.map φ).sum = (st0.results.map φ).sum +
      ((st.log.filter (fun e => !e.prods.isEmpty)).map (fun e => φ e.a + φ e.b + e.source δ)).sum := by
    induction hreach with
    | refl => exact ⟨hom, by simp [hlog]⟩
    | @tail st1 _ _ hstep ih =>
      replace ih := ih (hnn.before hstep)
      obtain ⟨A, B, m, p, q, g, _, hAB, hB, hne, hp, hq, hpq⟩ := hstep
      have h2 := pairTest_fields env A B m p q { st1 with gen := g }
      have hA : A < env.nSpecies := by omega
      have hspa : env.species (st1.mem p) = A := ih.1 A hA p hp.1 hp.2
      have hspb : env.species (st1.mem q) = B := ih.1 B hB q hq.1 hq.2
      simp only at h2
      have hcases := setInteract_choice env hv (env.rhs A B) m (st1.mem p) (st1.mem q) g
        (fun e he => hnn ⟨A, B, p, q, st1.mem p, st1.mem q, _, _⟩
          (by rw [h2.2.1]; exact List.mem_append_right _ (List.mem_singleton.2 rfl)) e he)
      simp only at hcases
      generalize setInteract env (env.rhs A B) m (st1.mem p) (st1.mem q) g = r at h2 hcases
      obtain ⟨hm, hr, -⟩ := h2.2.2 hout
      refine ⟨?_, ?_⟩
      · intro C hC z; rw [hm, hr]; exact ih.1 C hC z
      · rw [h2.1, h2.2.1, List.map_append, List.sum_append, ih.2, List.filter_append, List.map_append,
          List.sum_append, add_assoc]
        congr 2
        by_cases hprod : r.2.2.2.1 = []
        · simp [hprod]
        · rcases hcases with ⟨-, h⟩ | ⟨j, e, s', h0, hie, hpos, h | h⟩
          · exact absurd h.2.2 hprod
          · rw [hspa, hspb] at h; omega
          · have := (hc A B hAB hB j e hie (st1.mem p) (st1.mem q) s' hspa hspb hpos).2
            rw [← h.2.2.2] at this
            have hs : Event.source δ (⟨A, B, p, q, st1.mem p, st1.mem q, r.1, r.2.2.2.1⟩ : Event P K) = δ A B j := by
              unfold Event.source
              rw [if_neg (by rw [h0]; exact not_lt.2 (Int.natCast_nonneg j)), h0, Int.toNat_natCast]
            simp [hprod, this hprod, hs]
  exact this.2

/-- **C66**  With out-of-place interactions and conserving equations the products reported for a run carry exactly
what the reactants of the tests that created products carried. -/
theorem C66_out_of_place {G : Type} [AddCommMonoid G] (env : DriverEnv P S K)
    (hout : env.inplace = false) (hv : env.rng.Valid) (φ : P → G) (hc : Conserves env φ)
    (fi fs : ℕ) (st0 st : DState P S K) (hnn : NonnegTests env st) (hlog : st0.log = [])
    (hom : Homogeneous env st0) (hrun : driver env fi fs st0 = .ok st) :
    (st.results.map φ).sum = (st0.results.map φ).sum +
      ((st.log.filter (fun e => !e.prods.isEmpty)).map (fun e => φ e.a + φ e.b)).sum := by
  have hb : Balances env φ (fun _ _ _ => (0 : G)) := by
    intro A B hAB hB j e he a b s ha hb hpos
    simpa using hc A B hAB hB e (List.mem_of_getElem? he) a b s ha hb hpos
  have := C66_out_of_place_balance env hout hv φ _ hb fi fs st0 st hnn hlog hom hrun
  simpa [Event.source] using this

/-- What a report says about the test: the pair tested, and either nothing happened, or an open equation of that
pair was performed and the products are those of its model on the two particles in order of species. -/
theorem run_events (env : DriverEnv P S K) (hv : env.rng.Valid) (fi fs : ℕ) (st0 st : DState P S K)
    (hnn : NonnegTests env st) (hlog : st0.log = []) (hrun : driver env fi fs st0 = .ok st) :
    ∀ ev ∈ st.log, ev.A ≤ ev.B ∧ ev.B < env.nSpecies ∧
      ((ev.path.first = -1 ∧ ev.prods = []) ∨
       ∃ (j : ℕ) (e : Eqn P S K) (s : S), ev.path.first = j ∧ (env.rhs ev.A ev.B)[j]? = some e ∧
        0 < e.sigma (env.relSpeed ev.a ev.b) ∧
        ev.prods = (if env.species ev.a > env.species ev.b then e.act ev.b ev.a s
          else e.act ev.a ev.b s).2.2.1) := by
  obtain ⟨g, hreach⟩ := driver_reach env hv fi fs st0 st hrun
  clear hrun
  induction hreach with
  | refl => intro ev hev; rw [show ({ st0 with gen := g } : DState P S K).log = st0.log from rfl, hlog] at hev; cases hev
  | @tail st1 _ _ hstep ih =>
    replace ih := ih (hnn.before hstep)
    obtain ⟨A, B, m, p, q, g, _, hAB, hB, hne, hp, hq, hpq⟩ := hstep
    have h2 := (pairTest_fields env A B m p q { st1 with gen := g }).2.1
    simp only at h2
    have hcases := setInteract_choice env hv (env.rhs A B) m (st1.mem p) (st1.mem q) g
      (fun e he => hnn ⟨A, B, p, q, st1.mem p, st1.mem q, _, _⟩
        (by rw [h2]; exact List.mem_append_right _ (List.mem_singleton.2 rfl)) e he)
    simp only at hcases
    generalize setInteract env (env.rhs A B) m (st1.mem p) (st1.mem q) g = r at h2 hcases
    intro ev hev
    rw [h2] at hev
    rcases List.mem_append.1 hev with hev | hev
    · exact ih ev hev
    · rw [List.mem_singleton.1 hev]
      refine ⟨hAB, hB, ?_⟩
      rcases hcases with ⟨h0, -, -, h⟩ | ⟨j, e, s', h0, hie, hpos, h | h⟩
      · exact .inl ⟨h0, h⟩
      · exact .inr ⟨j, e, s', h0, hie, hpos, by rw [if_pos h.1]; exact h.2.2.2⟩
      · exact .inr ⟨j, e, s', h0, hie, hpos, by rw [if_neg h.1]; exact h.2.2.2⟩

/-! ## A concrete cell -/

namespace DriverExample

/-- A particle: identity, species, charge. -/
structure Pt where
  id : ℕ
  sp : ℕ
  q : ℤ
deriving DecidableEq

/-- Draws 0, 1/4, 1/2, 3/4, 0, ... -/
def rng : RNG ℕ ℚ where
  rand s := ((s % 4 : ℕ) / 4, s + 1)
  randExc s := ((s % 4 : ℕ) / 4, s + 1)

/-- Two species; 0-0 collisions exchange one unit of charge in place, 0-1 collisions turn the pair into
one product, 1-1 has no interactions. -/
def env (inplace : Bool) : DriverEnv Pt ℕ ℚ where
  nSpecies := 2
  rhs A B :=
    if A = 0 ∧ B = 0 then
      [⟨fun _ => 0, fun _ => 0, fun a b s => (a, b, [], s)⟩,
       ⟨fun _ => 1, fun v => v, fun a b s => ({ a with q := a.q + 1 }, { b with q := b.q - 1 }, [], s)⟩]
    else if A = 0 ∧ B = 1 then
      [⟨fun _ => 1, fun v => v, fun a b s => (a, b, [⟨100 + a.id + 10 * b.id, 2, a.q + b.q⟩], s)⟩]
    else []
  maxRelVel _ _ := 1
  volume := 1
  dt := 1/4
  weight _ := 1
  species := Pt.sp
  relSpeed _ _ := 1
  inplace := inplace
  rng := rng

/-- Four particles of species 0 and three of species 1. -/
def cell : DState Pt ℕ ℚ where
  mem i := if i < 4 then ⟨i, 0, 0⟩ else ⟨i, 1, i⟩
  range C := if C = 0 then (0, 4) else if C = 1 then (4, 7) else (7, 7)
  results := []
  erased := []
  log := []
  gen := 0

theorem rng_valid : rng.Valid := by
  have : ∀ s : ℕ, (0 : ℚ) ≤ ((s % 4 : ℕ) : ℚ) / 4 ∧ ((s % 4 : ℕ) : ℚ) / 4 < 1 := by
    intro s
    have h : ((s % 4 : ℕ) : ℚ) < 4 := by exact_mod_cast Nat.mod_lt s (by norm_num)
    exact ⟨by positivity, by rw [div_lt_one (by norm_num)]; exact h⟩
  exact ⟨fun s => ⟨(this s).1, (this s).2.le⟩, fun s => this s⟩

theorem rng_fair : rng.Fair := by
  have hit : ∀ (j s : ℕ), (fun s => (rng.randExc s).2)^[j] s = s + j := by
    intro j
    induction j with
    | zero => intro s; rfl
    | succ j ih => intro s; rw [Function.iterate_succ_apply, ih]; simp only [rng]; omega
  intro s n hn k
  have hd : ∀ j, rng.excDraw s j = (((s + j) % 4 : ℕ) : ℚ) / 4 := by
    intro j; rw [RNG.excDraw, hit]; rfl
  have hn' : (2 : ℚ) ≤ n := by exact_mod_cast hn
  by_cases hk : k = 0
  · refine ⟨3 * s + 3, ?_⟩
    have h3 : (s + (3 * s + 3)) % 4 = 3 := by omega
    rw [hd, h3, hk]
    intro hc
    rw [Int.floor_eq_iff] at hc
    push_cast at hc
    linarith [hc.2]
  · refine ⟨3 * s, ?_⟩
    have h3 : (s + 3 * s) % 4 = 0 := by omega
    rw [hd, h3]
    simp
    exact fun h => hk h.symm

theorem cell_wf : WFRanges 2 cell.range := by
  constructor
  · decide
  · intro A hA B hB hAB p
    have : (A = 0 ∧ B = 1) ∨ (A = 1 ∧ B = 0) := by omega
    rcases this with ⟨rfl, rfl⟩ | ⟨rfl, rfl⟩ <;> simp [cell] <;> omega

theorem cell_hom (ip : Bool) : Homogeneous (env ip) cell := by
  intro C hC z h1 h2
  have hC' : C = 0 ∨ C = 1 := by change C < 2 at hC; omega
  rcases hC' with rfl | rfl
  · simp [cell] at h1 h2; simp [cell, env, h2]
  · simp [cell] at h1 h2; simp [cell, env, Nat.not_lt.2 h1]

theorem keeps_id (ip : Bool) : InPlaceKeeps (env ip) (fun p => (p.id, p.sp)) := by
  intro A B e he a b s
  simp only [env] at he
  split at he
  · simp only [List.mem_cons, List.not_mem_nil, or_false] at he
    rcases he with rfl | rfl <;> exact ⟨rfl, rfl⟩
  · split at he
    · simp only [List.mem_cons, List.not_mem_nil, or_false] at he
      subst he; exact ⟨rfl, rfl⟩
    · simp at he

theorem conserves_charge (ip : Bool) : Conserves (env ip) Pt.q := by
  intro A B _ _ e he a b s _ _ hpos
  simp only [env] at he
  split at he
  · simp only [List.mem_cons, List.not_mem_nil, or_false] at he
    rcases he with rfl | rfl
    · simp at hpos
    · simp
  · split at he
    · simp only [List.mem_cons, List.not_mem_nil, or_false] at he
      subst he; simp
    · simp at he

/-- What the run does: pairs tested (two species, two identities each), positions queued, identities of
the products, ranges at the end. -/
def summary (r : Except DErr (DState Pt ℕ ℚ)) : List (List ℕ) :=
  match r with
  | .ok st => st.log.map (fun e => [e.A, e.B, e.a.id, e.b.id]) ++ [st.erased,
      st.results.map Pt.id, [(st.range 0).1, (st.range 0).2, (st.range 1).1, (st.range 1).2]]
  | .error _ => []

/-- In place: one 0-0 test, then two 0-1 tests (estimates 2 and 3, both integers) that consume four
particles. -/
example : summary (driver (env true) 10 10 cell) =
    [[0, 0, 2, 3], [0, 1, 2, 6], [0, 1, 1, 5], [3, 6, 2, 5], [162, 151], [0, 2, 4, 5]] := by
  decide +kernel

/-- Out of place: the same number of tests, nothing consumed. -/
example : summary (driver (env false) 10 10 cell) =
    [[0, 0, 2, 3], [0, 1, 2, 6], [0, 1, 2, 6], [], [162, 162], [0, 4, 4, 7]] := by
  decide +kernel

/-- The cell is a fresh, well-formed, homogeneous cell with a valid fair generator, different
identities, and a database conserving charge; a run exists. -/
example : Fresh cell ∧ WFRanges (env true).nSpecies cell.range ∧ (env true).rng.Valid ∧
    (env true).rng.Fair ∧ Homogeneous (env true) cell ∧
    InPlaceKeeps (env true) (fun p => (p.id, p.sp)) ∧ Conserves (env true) Pt.q ∧
    ∃ fi fs st, driver (env true) fi fs cell = .ok st := by
  refine ⟨⟨rfl, rfl⟩, cell_wf, rng_valid, rng_fair, cell_hom true, keeps_id true,
    conserves_charge true, ?_⟩
  refine C38_driver_finishes (env true) rng_valid rng_fair cell cell_wf ?_
  intro A B hAB hB _
  have : (A = 0 ∨ A = 1) ∧ (B = 0 ∨ B = 1) := by change B < 2 at hB; omega
  obtain ⟨rfl | rfl, rfl | rfl⟩ := this <;> decide

/-- The identities of the particles in the cell are different, as C40 asks. -/
example : ∀ C < (env true).nSpecies, ∀ D < (env true).nSpecies,
      ((liveM cell.mem (cell.range C)).map Pt.id).Nodup ∧
      (C ≠ D → Disjoint ((liveM cell.mem (cell.range C)).map Pt.id)
        ((liveM cell.mem (cell.range D)).map Pt.id)) := by
  have h0 : (liveM cell.mem (cell.range 0)).map Pt.id = {0, 1, 2, 3} := by decide +kernel
  have h1 : (liveM cell.mem (cell.range 1)).map Pt.id = {4, 5, 6} := by decide +kernel
  intro C hC D hD
  have : (C = 0 ∨ C = 1) ∧ (D = 0 ∨ D = 1) := by
    change C < 2 at hC; change D < 2 at hD; omega
  obtain ⟨rfl | rfl, rfl | rfl⟩ := this <;> simp only [h0, h1]
  all_goals refine ⟨by decide, fun h => ?_⟩
  all_goals first | exact absurd rfl h | (rw [Multiset.disjoint_left]; decide)

end DriverExample

end Chimp
