import Verif.Model.Simulation
import Verif.Props.DriverRun
import Verif.Props.Example

/-!
# Property C104: a simulation around the driver

What holds over any number of cells and time steps for a program that groups the particles by species, calls the driver,
erases the queued positions, inserts the results and moves the particles.
-/

namespace Chimp

section

variable {P S K : Type}

/-! ## Specification -/

/-- What the user's code does between collisions: each particle is changed by `move t`, and all of them end up in some
cell. -/
def Flies (flight : ℕ → List (List P) → List (List P)) (move : ℕ → P → P) : Prop :=
  ∀ t cells, (flight t cells).flatten.Perm (cells.flatten.map (move t))

/-- Products are of species that the driver knows. -/
def ProductsKnown (env : DriverEnv P S K) : Prop :=
  ∀ A B, A ≤ B → B < env.nSpecies → ∀ e ∈ env.rhs A B, ∀ a b s, env.species a = A → env.species b = B →
    ∀ x ∈ (e.act a b s).2.2.1, env.species x < env.nSpecies

/-- The amount of `φ` in all cells. -/
def worldTotal {G : Type} [AddCommMonoid G] (φ : P → G) (cells : List (List P)) : G := (cells.flatten.map φ).sum

variable [Field K] [LinearOrder K]

/-- Every cross section consulted in the tests had a nonnegative value. -/
def NonnegEvents (env : DriverEnv P S K) (log : List (Event P K)) : Prop :=
  ∀ ev ∈ log, ∀ e ∈ env.rhs ev.A ev.B, 0 ≤ e.sigma (env.relSpeed ev.a ev.b)

variable [FloorRing K] [IsStrictOrderedRing K]

/-! ## One cell -/

omit [Field K] [LinearOrder K] [FloorRing K] [IsStrictOrderedRing K] in
theorem loadCell_wf {key : P → ℕ} {n : ℕ} {nsort : List P → List P} (hs : NSorts key n nsort) {l : List P}
    (hl : ∀ p ∈ l, key p < n) (x : P) (g : S) : WFRanges n (loadCell (K := K) nsort key n x l g).range :=
  (C85_sorted hs hl x).2.1

omit [Field K] [LinearOrder K] [FloorRing K] [IsStrictOrderedRing K] in
theorem loadCell_live {key : P → ℕ} {n : ℕ} {nsort : List P → List P} (hs : NSorts key n nsort) {l : List P}
    (hl : ∀ p ∈ l, key p < n) (x : P) (g : S) {i : ℕ} (hi : i < n) :
    liveM (loadCell (K := K) nsort key n x l g).mem ((loadCell (K := K) nsort key n x l g).range i) =
      ((l.filter fun p => key p = i : List P) : Multiset P) :=
  (C85_sorted hs hl x).2.2.1 i hi

omit [Field K] [LinearOrder K] [FloorRing K] [IsStrictOrderedRing K] in
theorem loadCell_key {key : P → ℕ} {n : ℕ} {nsort : List P → List P} (hs : NSorts key n nsort) {l : List P}
    (hl : ∀ p ∈ l, key p < n) (x : P) (g : S) {i : ℕ} (hi : i < n) {z : ℕ}
    (h1 : ((loadCell (K := K) nsort key n x l g).range i).1 ≤ z)
    (h2 : z < ((loadCell (K := K) nsort key n x l g).range i).2) :
    key ((loadCell (K := K) nsort key n x l g).mem z) = i := by
  obtain ⟨p, -, h3, h4⟩ := (C85_sorted hs hl x).2.2.2.1 i hi z h1 h2
  show key (((sortBySpecies nsort key n l).1[z]?).getD x) = i
  rw [h3]; exact h4

/-- The particles of all species together are all the particles. -/
theorem sum_filter_key {key : P → ℕ} {n : ℕ} : ∀ {l : List P}, (∀ p ∈ l, key p < n) →
    ∑ i ∈ Finset.range n, ((l.filter fun p => key p = i : List P) : Multiset P) = (l : Multiset P)
  | [], _ => by simp
  | p :: l, h => by
    have ih := sum_filter_key (l := l) fun q hq => h q (List.mem_cons_of_mem _ hq)
    have hp : key p < n := h p List.mem_cons_self
    have : ∀ i, (((p :: l).filter fun p => key p = i : List P) : Multiset P) =
        (if key p = i then {p} else 0) + ((l.filter fun p => key p = i : List P) : Multiset P) := by
      intro i
      rw [List.filter_cons]
      by_cases hc : key p = i
      · simp [hc]
      · simp [hc]
    simp only [this, Finset.sum_add_distrib, ih]
    rw [Finset.sum_ite_eq (Finset.range n) (key p) fun _ => ({p} : Multiset P), if_pos (Finset.mem_range.2 hp)]
    rfl

theorem sum_singletons (s : Finset ℕ) (mem : ℕ → P) : ∑ z ∈ s, ({mem z} : Multiset P) = s.val.map mem := by
  rw [Finset.sum_eq_multiset_sum, ← Multiset.sum_map_singleton (s.val.map mem), Multiset.map_map]
  rfl

/-- **C104**  Erasing the queued positions is right: what is then in the array are the particles in the species ranges,
and the results. -/
theorem C104_erase (env : DriverEnv P S K) (hin : env.inplace = true) (hv : env.rng.Valid) {nsort : List P → List P}
    (hs : NSorts env.species env.nSpecies nsort) (x : P) (fi fs : ℕ) {l : List P}
    (hl : ∀ p ∈ l, env.species p < env.nSpecies) (g : S) {st : DState P S K}
    (hrun : driver env fi fs (loadCell nsort env.species env.nSpecies x l g) = .ok st) :
    (unloadCell l.length st : Multiset P) =
      ∑ C ∈ Finset.range env.nSpecies, liveM st.mem (st.range C) + (st.results : Multiset P) := by
  have hwf := loadCell_wf (K := K) hs hl x g
  obtain ⟨-, he, -, hr, hwf'⟩ := C39_erasure_queue env hin hv fi fs _ st hwf ⟨rfl, rfl⟩ hrun
  have hcov := (C85_sorted hs hl x).2.2.2.2
  rw [unloadCell, ← Multiset.coe_add]
  congr 1
  have h1 : (((List.range l.length).filter fun z => decide (z ∉ st.erased)).map st.mem : Multiset P) =
      ((Finset.range l.length).filter (fun z => z ∉ st.erased)).val.map st.mem := rfl
  have h2 : (Finset.range l.length).filter (fun z => z ∉ st.erased) =
      (Finset.range env.nSpecies).biUnion fun C => Finset.Ico (st.range C).1 (st.range C).2 := by
    ext z
    simp only [Finset.mem_filter, Finset.mem_range, Finset.mem_biUnion, Finset.mem_Ico]
    rw [hcov z, he z]
    constructor
    · rintro ⟨⟨C, hC, h3, h4⟩, h5⟩
      refine ⟨C, hC, (hr C).1.trans_le h3, ?_⟩
      by_contra h6
      exact h5 ⟨C, hC, not_lt.1 h6, h4⟩
    · rintro ⟨C, hC, h3, h4⟩
      have hz : ((sortBySpecies nsort env.species env.nSpecies l).2 C).1 ≤ z ∧
          z < ((sortBySpecies nsort env.species env.nSpecies l).2 C).2 :=
        ⟨(hr C).1.symm.trans_le h3, h4.trans_le (hr C).2⟩
      refine ⟨⟨C, hC, hz⟩, ?_⟩
      rintro ⟨D, hD, h5, h6⟩
      have hCD : C = D := by
        by_contra hne
        exact hwf.disj C hC D hD hne z ⟨hz, ⟨(hr D).1.symm.trans_le ((hwf'.le D hD).trans h5), h6⟩⟩
      subst hCD
      omega
  rw [h1, h2, ← sum_singletons, Finset.sum_biUnion]
  · exact Finset.sum_congr rfl fun C _ => sum_singletons _ _
  · intro C hC D hD hne
    rw [Function.onFun, Finset.disjoint_left]
    intro z h3 h4
    rw [Finset.mem_Ico] at h3 h4
    exact hwf'.disj C (Finset.mem_range.1 hC) D (Finset.mem_range.1 hD) hne z ⟨h3, h4⟩

omit [Field K] [LinearOrder K] [FloorRing K] [IsStrictOrderedRing K] in
/-- The products of a test are those of one of the equations. -/
theorem TestsOf.prods_from {env : DriverEnv P S K} {st0 st : DState P S K} (hlog : st0.log = [])
    (h : TestsOf env st0 st) : ∀ ev ∈ st.log, ev.A ≤ ev.B ∧ ev.B < env.nSpecies ∧
      (ev.prods = [] ∨ ∃ e ∈ env.rhs ev.A ev.B, ∃ s,
        (env.species ev.b < env.species ev.a ∧ ev.prods = (e.act ev.b ev.a s).2.2.1) ∨
        ev.prods = (e.act ev.a ev.b s).2.2.1) := by
  obtain ⟨g, hreach⟩ := h
  induction hreach with
  | refl => simp [hlog]
  | @tail st1 st2 _ hstep ih =>
    obtain ⟨A, B, p, q, r, _, hAB, hB, -, -, -, -, hr⟩ := hstep
    intro ev hev
    have hl := (applyPair_fields env.inplace A B p q r st1).2.1
    rw [hl, List.mem_append, List.mem_singleton] at hev
    rcases hev with hev | rfl
    · exact ih ev hev
    · refine ⟨hAB, hB, ?_⟩
      rcases hr with ⟨-, -, -, h⟩ | ⟨-, e, he, s', -, ⟨h1, -, -, h2⟩ | ⟨-, -, -, h2⟩⟩
      · exact .inl h
      · exact .inr ⟨e, he, s', .inl ⟨h1, h2⟩⟩
      · exact .inr ⟨e, he, s', .inr h2⟩

/-- All results are of known species. -/
theorem results_known (env : DriverEnv P S K) (hin : env.inplace = true) (hv : env.rng.Valid)
    (hk : InPlaceKeeps env env.species) (hpk : ProductsKnown env) (fi fs : ℕ) (st0 st : DState P S K)
    (hwf : WFRanges env.nSpecies st0.range) (hf : Fresh st0) (hom : Homogeneous env st0)
    (hres : ∀ x ∈ st0.results, env.species x < env.nSpecies) (hrun : driver env fi fs st0 = .ok st) :
    ∀ x ∈ st.results, env.species x < env.nSpecies := by
  have h1 := (C41_homogeneous env hin hv hk fi fs st0 st hwf hf hom hrun).2
  have h2 := (driver_tests hv hrun).prods_from hf.1
  rw [C43_results_grow env hv fi fs st0 st hf.1 hrun]
  intro x hx
  rcases List.mem_append.1 hx with hx | hx
  · exact hres x hx
  · obtain ⟨ev, hev, hx⟩ := List.mem_flatMap.1 hx
    obtain ⟨ha, hb⟩ := h1 ev hev
    obtain ⟨hAB, hB, h3 | ⟨e, he, s, ⟨h4, -⟩ | h4⟩⟩ := h2 ev hev
    · rw [h3] at hx; cases hx
    · omega
    · rw [h4] at hx
      exact hpk ev.A ev.B hAB hB e he ev.a ev.b s ha hb x hx

/-- What the collisions of one cell do. -/
theorem runCell_facts (env : DriverEnv P S K) (hin : env.inplace = true) (hv : env.rng.Valid)
    (hk : InPlaceKeeps env env.species) (hpk : ProductsKnown env) {nsort : List P → List P}
    (hs : NSorts env.species env.nSpecies nsort) (x : P) (fi fs : ℕ) {l l' : List P} {evs : List (Event P K)} {g g' : S}
    (hl : ∀ p ∈ l, env.species p < env.nSpecies) (h : runCell env nsort x fi fs l g = .ok (l', evs, g')) :
    (∀ p ∈ l', env.species p < env.nSpecies) ∧
    (∀ (G : Type) [AddCommGroup G] (φ : P → G) (δ : ℕ → ℕ → ℕ → G), Balances env φ δ → NonnegEvents env evs →
      (l'.map φ).sum = (l.map φ).sum + (evs.map (Event.source δ)).sum) ∧
    l'.length + 2 * consumingCount evs = l.length + (evs.flatMap Event.prods).length := by
  unfold runCell at h
  dsimp only at h
  split at h
  swap
  · simp only [Except.ok.injEq, Prod.mk.injEq] at h
    obtain ⟨rfl, rfl, -⟩ := h
    exact ⟨hl, fun G _ φ δ _ _ => by simp, by simp [consumingCount]⟩
  · split at h
    · cases h
    · rename_i st hrun
      simp only [Except.ok.injEq, Prod.mk.injEq] at h
      obtain ⟨rfl, rfl, -⟩ := h
      have hwf := loadCell_wf (K := K) hs hl x g
      have hom : Homogeneous env (loadCell (K := K) nsort env.species env.nSpecies x l g) :=
        fun C hC z h1 h2 => loadCell_key hs hl x g hC h1 h2
      have her := C104_erase env hin hv hs x fi fs hl g hrun
      have hsurv := C39_survivors_plus_consumed env hin hv env.species hk fi fs _ st hwf ⟨rfl, rfl⟩ hrun
      refine ⟨?_, ?_, ?_⟩
      · intro p hp
        have hp' : p ∈ (unloadCell l.length st : Multiset P) := hp
        rw [her, Multiset.mem_add] at hp'
        rcases hp' with hp' | hp'
        · obtain ⟨C, hC, hpC⟩ := Multiset.mem_sum.1 hp'
          have hC' := Finset.mem_range.1 hC
          have h3 : env.species p ∈ (liveM st.mem (st.range C)).map env.species :=
            Multiset.mem_map_of_mem _ hpC
          have h4 := Multiset.mem_of_le (Multiset.le_add_right _ ((consumedM C st.log).map env.species)) h3
          rw [hsurv C hC', loadCell_live hs hl x g hC'] at h4
          obtain ⟨q, hq, hqp⟩ := Multiset.mem_map.1 h4
          rw [← hqp]
          exact hl q (List.mem_of_mem_filter hq)
        · exact results_known env hin hv hk hpk fi fs _ st hwf ⟨rfl, rfl⟩ hom (by simp [loadCell]) hrun p hp'
      · intro G _ φ δ hb hnn
        have h3 := C66_run_balance env hin hv hk φ δ hb fi fs _ st hnn hwf hom hrun
        have h4 : ((unloadCell l.length st).map φ).sum = cellTotal env.nSpecies φ st + (st.results.map φ).sum := by
          have := congrArg (fun m : Multiset P => (m.map φ).sum) her
          simp only [Multiset.map_coe, Multiset.sum_coe, Multiset.map_add, Multiset.sum_add] at this
          rw [this, cellTotal]
          congr 1
          rw [← Multiset.coe_mapAddMonoidHom, map_sum, ← Multiset.coe_sumAddMonoidHom, map_sum]
        have h5 : cellTotal env.nSpecies φ (loadCell (K := K) nsort env.species env.nSpecies x l g) = (l.map φ).sum := by
          have := congrArg (fun m : Multiset P => (m.map φ).sum) (sum_filter_key hl)
          simp only [Multiset.map_coe, Multiset.sum_coe] at this
          rw [← this, cellTotal, ← Multiset.coe_mapAddMonoidHom, map_sum, ← Multiset.coe_sumAddMonoidHom, map_sum]
          refine Finset.sum_congr rfl fun C hC => ?_
          rw [loadCell_live hs hl x g (Finset.mem_range.1 hC)]
        rw [h5] at h3
        simpa [loadCell, h4] using h3
      · obtain ⟨hnd, he, hlen, hr, hwf'⟩ := C39_erasure_queue env hin hv fi fs _ st hwf ⟨rfl, rfl⟩ hrun
        have hsub : ∀ z ∈ st.erased, z < l.length := by
          intro z hz
          obtain ⟨C, hC, h3, h4⟩ := (he z).1 hz
          exact ((C85_sorted hs hl x).2.2.2.2 z).2
            ⟨C, hC, (hr C).1.symm.trans_le ((hwf'.le C hC).trans h3), h4⟩
        have hres := C43_results_grow env hv fi fs _ st rfl hrun
        rw [show (loadCell (K := K) nsort env.species env.nSpecies x l g).results = [] from rfl, List.nil_append] at hres
        have hcard : ((List.range l.length).filter fun z => decide (z ∉ st.erased)).length + st.erased.length =
            l.length := by
          have h5 : st.erased.Perm ((List.range l.length).filter fun z => decide (z ∈ st.erased)) := by
            refine (List.perm_ext_iff_of_nodup hnd (List.nodup_range.filter _)).2 fun z => ?_
            simp only [List.mem_filter, List.mem_range, decide_eq_true_eq]
            exact ⟨fun h => ⟨hsub z h, h⟩, fun h => h.2⟩
          have h6 := List.length_eq_length_filter_add (l := List.range l.length) fun z => decide (z ∈ st.erased)
          rw [List.length_range] at h6
          have h7 := h5.length_eq
          simp only [decide_not]
          omega
        rw [unloadCell, List.length_append, List.length_map, ← hres, ← hlen]
        omega

/-! ## All cells -/

/-- What the collisions of one time step do. -/
theorem runCells_facts (env : DriverEnv P S K) (hin : env.inplace = true) (hv : env.rng.Valid)
    (hk : InPlaceKeeps env env.species) (hpk : ProductsKnown env) {nsort : List P → List P}
    (hs : NSorts env.species env.nSpecies nsort) (d : ℕ → List P → CellData K) (x : P) (fi fs : ℕ) :
    ∀ (k : ℕ) (cells : List (List P)) {cells' : List (List P)} {evs : List (Event P K)} {g g' : S},
      (∀ p ∈ cells.flatten, env.species p < env.nSpecies) →
      runCells env d nsort x fi fs k cells g = .ok (cells', evs, g') →
      cells'.length = cells.length ∧
      (∀ p ∈ cells'.flatten, env.species p < env.nSpecies) ∧
      (∀ (G : Type) [AddCommGroup G] (φ : P → G) (δ : ℕ → ℕ → ℕ → G), Balances env φ δ → NonnegEvents env evs →
        worldTotal φ cells' = worldTotal φ cells + (evs.map (Event.source δ)).sum) ∧
      cells'.flatten.length + 2 * consumingCount evs = cells.flatten.length + (evs.flatMap Event.prods).length
  | _, [], _, _, _, _, _, h => by
    simp only [runCells, Except.ok.injEq, Prod.mk.injEq] at h
    obtain ⟨rfl, rfl, -⟩ := h
    exact ⟨rfl, by simp, fun G _ φ δ _ _ => by simp, by simp [consumingCount]⟩
  | k, l :: ls, cells', evs, g, g', hl, h => by
    simp only [runCells] at h
    split at h
    · cases h
    · rename_i l' evs1 g1 h1
      split at h
      · cases h
      · rename_i ls' evs2 g2 h2
        simp only [Except.ok.injEq, Prod.mk.injEq] at h
        obtain ⟨rfl, rfl, -⟩ := h
        obtain ⟨a1, a2, a3⟩ := runCell_facts (env.inCell (d k l)) hin hv hk hpk hs x fi fs
          (fun p hp => hl p (by simp [hp])) h1
        obtain ⟨b0, b1, b2, b3⟩ := runCells_facts env hin hv hk hpk hs d x fi fs (k + 1) ls
          (fun p hp => hl p (by rw [List.flatten_cons]; exact List.mem_append_right _ hp)) h2
        refine ⟨by simp [b0], ?_, ?_, ?_⟩
        · intro p hp
          rw [List.flatten_cons] at hp
          rcases List.mem_append.1 hp with hp | hp
          · exact a1 p hp
          · exact b1 p hp
        · intro G _ φ δ hb hnn
          have c1 := a2 G φ δ hb fun ev hev => hnn ev (List.mem_append_left _ hev)
          have c2 := b2 G φ δ hb fun ev hev => hnn ev (List.mem_append_right _ hev)
          unfold worldTotal at c2 ⊢
          simp only [List.flatten_cons, List.map_append, List.sum_append, c1, c2]
          abel
        · have hc : consumingCount (evs1 ++ evs2) = consumingCount evs1 + consumingCount evs2 := by
            simp [consumingCount]
          simp only [List.flatten_cons, List.length_append, List.flatMap_append, hc]
          omega

/-! ## C104 -/

/-- What any number of time steps do. -/
theorem simulate_facts (env : DriverEnv P S K) (hin : env.inplace = true) (hv : env.rng.Valid)
    (hk : InPlaceKeeps env env.species) (hpk : ProductsKnown env) {nsort : List P → List P}
    (hs : NSorts env.species env.nSpecies nsort) (d : ℕ → ℕ → List P → CellData K)
    {flight : ℕ → List (List P) → List (List P)} {move : ℕ → P → P} (hfl : Flies flight move)
    (hsp : ∀ t p, env.species (move t p) = env.species p) (x : P) (fi fs : ℕ) :
    ∀ (m t : ℕ) (cells : List (List P)) {cells' : List (List P)} {evs : List (Event P K)} {g g' : S},
      (∀ p ∈ cells.flatten, env.species p < env.nSpecies) →
      simulate env d flight nsort x fi fs t m cells g = .ok (cells', evs, g') →
      (∀ p ∈ cells'.flatten, env.species p < env.nSpecies) ∧
      (∀ (G : Type) [AddCommGroup G] (φ : P → G) (δ : ℕ → ℕ → ℕ → G), Balances env φ δ → NonnegEvents env evs →
        (∀ t p, φ (move t p) = φ p) →
        worldTotal φ cells' = worldTotal φ cells + (evs.map (Event.source δ)).sum) ∧
      cells'.flatten.length + 2 * consumingCount evs = cells.flatten.length + (evs.flatMap Event.prods).length
  | 0, _, _, _, _, _, _, hl, h => by
    simp only [simulate, Except.ok.injEq, Prod.mk.injEq] at h
    obtain ⟨rfl, rfl, -⟩ := h
    exact ⟨hl, fun G _ φ δ _ _ _ => by simp, by simp [consumingCount]⟩
  | m + 1, t, cells, cells', evs, g, g', hl, h => by
    simp only [simulate] at h
    split at h
    · cases h
    · rename_i cells1 evs1 g1 h1
      split at h
      · cases h
      · rename_i cells2 evs2 g2 h2
        simp only [Except.ok.injEq, Prod.mk.injEq] at h
        obtain ⟨rfl, rfl, -⟩ := h
        obtain ⟨-, a1, a2, a3⟩ := runCells_facts env hin hv hk hpk hs (d t) x fi fs 0 cells hl h1
        have hperm := hfl t cells1
        have hl2 : ∀ p ∈ (flight t cells1).flatten, env.species p < env.nSpecies := by
          intro p hp
          obtain ⟨q, hq, rfl⟩ := List.mem_map.1 (hperm.mem_iff.1 hp)
          rw [hsp]
          exact a1 q hq
        obtain ⟨b1, b2, b3⟩ := simulate_facts env hin hv hk hpk hs d hfl hsp x fi fs m (t + 1) _ hl2 h2
        refine ⟨b1, ?_, ?_⟩
        · intro G _ φ δ hb hnn hφ
          have c1 := a2 G φ δ hb fun ev hev => hnn ev (List.mem_append_left _ hev)
          have c2 := b2 G φ δ hb (fun ev hev => hnn ev (List.mem_append_right _ hev)) hφ
          have c3 : worldTotal φ (flight t cells1) = worldTotal φ cells1 := by
            unfold worldTotal
            rw [(hperm.map φ).sum_eq, List.map_map]
            congr 1
            exact List.map_congr_left fun p _ => hφ t p
          rw [c2, c3, c1, List.map_append, List.sum_append, add_assoc]
        · have hc : consumingCount (evs1 ++ evs2) = consumingCount evs1 + consumingCount evs2 := by
            simp [consumingCount]
          have h3 := hperm.length_eq
          rw [List.length_map] at h3
          simp only [List.flatMap_append, List.length_append, hc]
          omega

/-- **C104**  A simulation of any number of steps in any number of cells.  Let the equations change an additive quantity
each by a fixed amount, and let the motion of the particles keep it.  Then the amount in all cells at the end is the
amount at the start plus the changes of all interactions performed in all cells and steps. -/
theorem C104_balance {G : Type} [AddCommGroup G] (env : DriverEnv P S K) (hin : env.inplace = true) (hv : env.rng.Valid)
    (hk : InPlaceKeeps env env.species) (hpk : ProductsKnown env) {nsort : List P → List P}
    (hs : NSorts env.species env.nSpecies nsort) (d : ℕ → ℕ → List P → CellData K)
    {flight : ℕ → List (List P) → List (List P)} {move : ℕ → P → P} (hfl : Flies flight move)
    (hsp : ∀ t p, env.species (move t p) = env.species p) (φ : P → G) (hφ : ∀ t p, φ (move t p) = φ p)
    (δ : ℕ → ℕ → ℕ → G) (hb : Balances env φ δ) (x : P) (fi fs t m : ℕ) {cells cells' : List (List P)}
    {evs : List (Event P K)} {g g' : S} (hl : ∀ p ∈ cells.flatten, env.species p < env.nSpecies)
    (h : simulate env d flight nsort x fi fs t m cells g = .ok (cells', evs, g')) (hnn : NonnegEvents env evs) :
    worldTotal φ cells' = worldTotal φ cells + (evs.map (Event.source δ)).sum :=
  (simulate_facts env hin hv hk hpk hs d hfl hsp x fi fs m t cells hl h).2.1 G φ δ hb hnn hφ

/-- **C104**  All particles stay of known species, and their number is what it was, less two for each test that gave
products, plus the number of products. -/
theorem C104_number (env : DriverEnv P S K) (hin : env.inplace = true) (hv : env.rng.Valid)
    (hk : InPlaceKeeps env env.species) (hpk : ProductsKnown env) {nsort : List P → List P}
    (hs : NSorts env.species env.nSpecies nsort) (d : ℕ → ℕ → List P → CellData K)
    {flight : ℕ → List (List P) → List (List P)} {move : ℕ → P → P} (hfl : Flies flight move)
    (hsp : ∀ t p, env.species (move t p) = env.species p) (x : P) (fi fs t m : ℕ) {cells cells' : List (List P)}
    {evs : List (Event P K)} {g g' : S} (hl : ∀ p ∈ cells.flatten, env.species p < env.nSpecies)
    (h : simulate env d flight nsort x fi fs t m cells g = .ok (cells', evs, g')) :
    (∀ p ∈ cells'.flatten, env.species p < env.nSpecies) ∧
    cells'.flatten.length + 2 * (evs.filter fun e => !e.prods.isEmpty).length =
      cells.flatten.length + (evs.flatMap Event.prods).length := by
  obtain ⟨h1, -, h2⟩ := simulate_facts env hin hv hk hpk hs d hfl hsp x fi fs m t cells hl h
  exact ⟨h1, by rw [← h2]; simp [consumingCount]⟩

/-! ### The simulation returns -/

omit [Field K] [LinearOrder K] [FloorRing K] [IsStrictOrderedRing K] in
/-- `ready` says that the driver does not meet an empty species. -/
theorem ready_iff (env : DriverEnv P S K) (st : DState P S K) : ready env st = true ↔
    ∀ A B, A ≤ B → B < env.nSpecies → env.rhs A B ≠ [] → 0 < rsize (st.range A) ∧ 0 < rsize (st.range B) := by
  unfold ready
  rw [List.all_eq_true]
  constructor
  · intro h A B hAB hB hne
    have := h (A, B) ((mem_speciesPairs _ _ _).2 ⟨hAB, hB⟩)
    simpa [hne] using this
  · rintro h ⟨A, B⟩ hx
    obtain ⟨hAB, hB⟩ := (mem_speciesPairs _ _ _).1 hx
    by_cases hne : env.rhs A B = []
    · simp [hne]
    · simp [h A B hAB hB hne]

omit [IsStrictOrderedRing K] in
theorem runCell_not_ub (env : DriverEnv P S K) (nsort : List P → List P) (x : P) (fi fs : ℕ) (l : List P) (g : S) :
    runCell env nsort x fi fs l g ≠ .error .ub := by
  intro h
  unfold runCell at h
  dsimp only at h
  split at h
  · rename_i hr
    split at h
    · rename_i e he
      simp only [Except.error.injEq] at h
      subst h
      obtain ⟨A, B, hAB, hB, hne, h0⟩ := (C44_empty_species_ub_iff env fi fs _).1 he
      have := (ready_iff env _).1 hr A B hAB hB hne
      omega
    · cases h
  · cases h

omit [IsStrictOrderedRing K] in
theorem runCell_mono (env : DriverEnv P S K) (nsort : List P → List P) (x : P) {fi fi' fs fs' : ℕ} (hi : fi ≤ fi')
    (hs : fs ≤ fs') {l : List P} {g : S} {r : List P × List (Event P K) × S}
    (h : runCell env nsort x fi fs l g = .ok r) : runCell env nsort x fi' fs' l g = .ok r := by
  unfold runCell at h ⊢
  dsimp only at h ⊢
  split at h
  · rename_i hr
    rw [if_pos hr]
    split at h
    · cases h
    · rename_i st hst
      rw [driver_mono env fi fi' fs fs' hi hs _ _ hst]
      exact h
  · rename_i hr
    rw [if_neg hr]
    exact h

theorem runCell_returns (env : DriverEnv P S K) (hv : env.rng.Valid) (hfair : env.rng.Fair) {nsort : List P → List P}
    (hs : NSorts env.species env.nSpecies nsort) (x : P) {l : List P}
    (hl : ∀ p ∈ l, env.species p < env.nSpecies) (g : S) : ∃ fi fs r, runCell env nsort x fi fs l g = .ok r := by
  by_cases hr : ready env (loadCell (K := K) nsort env.species env.nSpecies x l g) = true
  · obtain ⟨fi, fs, st, hst⟩ := C38_driver_finishes env hv hfair
      (loadCell (K := K) nsort env.species env.nSpecies x l g) (loadCell_wf hs hl x g) (fun A B hAB hB hne => by
        have := (ready_iff env _).1 hr A B hAB hB hne
        unfold rsize at this
        omega)
    refine ⟨fi, fs, (unloadCell l.length st, st.log, st.gen), ?_⟩
    unfold runCell
    dsimp only
    rw [if_pos hr, hst]
  · refine ⟨0, 0, (l, [], g), ?_⟩
    unfold runCell
    dsimp only
    rw [if_neg hr]

omit [IsStrictOrderedRing K] in
theorem runCells_not_ub (env : DriverEnv P S K) (d : ℕ → List P → CellData K) (nsort : List P → List P) (x : P)
    (fi fs : ℕ) : ∀ (k : ℕ) (cells : List (List P)) (g : S), runCells env d nsort x fi fs k cells g ≠ .error .ub
  | _, [], _, h => by simp [runCells] at h
  | k, l :: ls, g, h => by
    simp only [runCells] at h
    split at h
    · rename_i e he
      simp only [Except.error.injEq] at h
      exact runCell_not_ub _ _ _ _ _ _ _ (h ▸ he)
    · split at h
      · rename_i e he
        simp only [Except.error.injEq] at h
        exact runCells_not_ub env d nsort x fi fs (k + 1) ls _ (h ▸ he)
      · cases h

omit [IsStrictOrderedRing K] in
theorem runCells_mono (env : DriverEnv P S K) (d : ℕ → List P → CellData K) (nsort : List P → List P) (x : P)
    {fi fi' fs fs' : ℕ} (hi : fi ≤ fi') (hs : fs ≤ fs') : ∀ (k : ℕ) (cells : List (List P)) {g : S}
    {r : List (List P) × List (Event P K) × S},
    runCells env d nsort x fi fs k cells g = .ok r → runCells env d nsort x fi' fs' k cells g = .ok r
  | _, [], _, _, h => by simpa [runCells] using h
  | k, l :: ls, g, r, h => by
    simp only [runCells] at h ⊢
    split at h
    · cases h
    · rename_i l' evs g1 h1
      rw [runCell_mono _ _ _ hi hs h1]
      dsimp only
      split at h
      · cases h
      · rename_i ls' evs' g2 h2
        rw [runCells_mono env d nsort x hi hs (k + 1) ls h2]
        exact h

theorem runCells_returns (env : DriverEnv P S K) (hv : env.rng.Valid) (hfair : env.rng.Fair) {nsort : List P → List P}
    (hs : NSorts env.species env.nSpecies nsort) (d : ℕ → List P → CellData K) (x : P) :
    ∀ (k : ℕ) (cells : List (List P)) (g : S), (∀ p ∈ cells.flatten, env.species p < env.nSpecies) →
      ∃ fi fs r, runCells env d nsort x fi fs k cells g = .ok r
  | _, [], g, _ => ⟨0, 0, ([], [], g), rfl⟩
  | k, l :: ls, g, hl => by
    obtain ⟨fi, fs, ⟨l', evs, g1⟩, h1⟩ := runCell_returns (env.inCell (d k l)) hv hfair hs x
      (l := l) (fun p hp => hl p (by simp [hp])) g
    obtain ⟨fi', fs', ⟨ls', evs', g2⟩, h2⟩ := runCells_returns env hv hfair hs d x (k + 1) ls g1
      (fun p hp => hl p (by rw [List.flatten_cons]; exact List.mem_append_right _ hp))
    refine ⟨max fi fi', max fs fs', (l' :: ls', evs ++ evs', g2), ?_⟩
    simp only [runCells]
    rw [runCell_mono _ _ _ (le_max_left _ _) (le_max_left _ _) h1]
    dsimp only
    rw [runCells_mono _ _ _ _ (le_max_right _ _) (le_max_right _ _) _ _ h2]

omit [IsStrictOrderedRing K] in
theorem simulate_mono (env : DriverEnv P S K) (d : ℕ → ℕ → List P → CellData K)
    (flight : ℕ → List (List P) → List (List P)) (nsort : List P → List P) (x : P) {fi fi' fs fs' : ℕ} (hi : fi ≤ fi')
    (hs : fs ≤ fs') : ∀ (m t : ℕ) (cells : List (List P)) {g : S} {r : List (List P) × List (Event P K) × S},
    simulate env d flight nsort x fi fs t m cells g = .ok r → simulate env d flight nsort x fi' fs' t m cells g = .ok r
  | 0, _, _, _, _, h => by simpa [simulate] using h
  | m + 1, t, cells, g, r, h => by
    simp only [simulate] at h ⊢
    split at h
    · cases h
    · rename_i cells1 evs g1 h1
      rw [runCells_mono _ _ _ _ hi hs _ _ h1]
      dsimp only
      split at h
      · cases h
      · rename_i cells2 evs' g2 h2
        rw [simulate_mono env d flight nsort x hi hs m (t + 1) _ h2]
        exact h

omit [IsStrictOrderedRing K] in
theorem loadCell_size {key : P → ℕ} {n : ℕ} {nsort : List P → List P} (hs : NSorts key n nsort) {l : List P}
    (hl : ∀ p ∈ l, key p < n) (x : P) (g : S) {i : ℕ} (hi : i < n) :
    0 < rsize ((loadCell (K := K) nsort key n x l g).range i) ↔ ∃ p ∈ l, key p = i := by
  have h1 := loadCell_live (K := K) hs hl x g hi
  constructor
  · intro h
    unfold rsize at h
    have : (loadCell (K := K) nsort key n x l g).mem ((loadCell (K := K) nsort key n x l g).range i).1 ∈
        liveM (loadCell (K := K) nsort key n x l g).mem ((loadCell (K := K) nsort key n x l g).range i) :=
      mem_liveM.2 ⟨_, le_rfl, by omega, rfl⟩
    rw [h1] at this
    have := List.mem_filter.1 (Multiset.mem_coe.1 this)
    exact ⟨_, this.1, by simpa using this.2⟩
  · rintro ⟨p, hp, hk⟩
    have : p ∈ liveM (loadCell (K := K) nsort key n x l g).mem ((loadCell (K := K) nsort key n x l g).range i) := by
      rw [h1]
      exact Multiset.mem_coe.2 (List.mem_filter.2 ⟨hp, by simpa using hk⟩)
    obtain ⟨z, h2, h3, -⟩ := mem_liveM.1 this
    unfold rsize
    omega

omit [IsStrictOrderedRing K] in
/-- **C104**  The driver is called for exactly the cells in which no species with interactions is missing; others are
left alone. -/
theorem C104_cells (env : DriverEnv P S K) {nsort : List P → List P}
    (hs : NSorts env.species env.nSpecies nsort) (x : P) (fi fs : ℕ) {l : List P}
    (hl : ∀ p ∈ l, env.species p < env.nSpecies) (g : S) :
    ((∀ A B, A ≤ B → B < env.nSpecies → env.rhs A B ≠ [] →
        (∃ p ∈ l, env.species p = A) ∧ ∃ p ∈ l, env.species p = B) →
      runCell env nsort x fi fs l g = (driver env fi fs (loadCell nsort env.species env.nSpecies x l g)).map
        fun st => (unloadCell l.length st, st.log, st.gen)) ∧
    (∀ A B, A ≤ B → B < env.nSpecies → env.rhs A B ≠ [] → ∀ C, C = A ∨ C = B → (∀ p ∈ l, env.species p ≠ C) →
      runCell env nsort x fi fs l g = .ok (l, [], g)) := by
  have key : ∀ {C}, C < env.nSpecies →
      (0 < rsize ((loadCell (K := K) nsort env.species env.nSpecies x l g).range C) ↔ ∃ p ∈ l, env.species p = C) :=
    fun hC => loadCell_size hs hl x g hC
  unfold runCell
  dsimp only
  constructor
  · intro h
    rw [if_pos ((ready_iff env _).2 fun A B hAB hB hne =>
      ⟨(key (by omega)).2 (h A B hAB hB hne).1, (key hB).2 (h A B hAB hB hne).2⟩)]
    cases driver env fi fs (loadCell nsort env.species env.nSpecies x l g) <;> rfl
  · intro A B hAB hB hne C hC hmiss
    rw [if_neg]
    intro hr
    have := (ready_iff env _).1 hr A B hAB hB hne
    rcases hC with rfl | rfl
    · obtain ⟨p, hp, hpC⟩ := (key (by omega)).1 this.1
      exact hmiss p hp hpC
    · obtain ⟨p, hp, hpC⟩ := (key hB).1 this.2
      exact hmiss p hp hpC

omit [IsStrictOrderedRing K] in
/-- The cells of a time step are worked through in order: the cells of `ls'` find the generator as those of `ls` leave
it, and are numbered after them. -/
theorem runCells_append (env : DriverEnv P S K) (d : ℕ → List P → CellData K) (nsort : List P → List P) (x : P)
    (fi fs : ℕ) : ∀ (k : ℕ) (ls ls' : List (List P)) (g : S),
    runCells env d nsort x fi fs k (ls ++ ls') g =
      match runCells env d nsort x fi fs k ls g with
      | .error e => .error e
      | .ok r =>
        (runCells env d nsort x fi fs (k + ls.length) ls' r.2.2).map fun r' => (r.1 ++ r'.1, r.2.1 ++ r'.2.1, r'.2.2)
  | k, [], ls', g => by
    simp only [List.nil_append, runCells, List.length_nil, add_zero]
    cases runCells env d nsort x fi fs k ls' g <;> rfl
  | k, l :: ls, ls', g => by
    simp only [List.cons_append, runCells]
    cases runCell (env.inCell (d k l)) nsort x fi fs l g with
    | error e => rfl
    | ok r =>
      obtain ⟨l1, evs1, g1⟩ := r
      dsimp only
      rw [runCells_append env d nsort x fi fs (k + 1) ls ls' g1, List.length_cons,
        show k + (ls.length + 1) = k + 1 + ls.length by omega]
      cases runCells env d nsort x fi fs (k + 1) ls g1 with
      | error e => rfl
      | ok r =>
        obtain ⟨l2, evs2, g2⟩ := r
        dsimp only
        cases runCells env d nsort x fi fs (k + 1 + ls.length) ls' g2 with
        | error e => rfl
        | ok r => simp [Except.map, List.append_assoc]

omit [IsStrictOrderedRing K] in
/-- **C104**  A simulation can be interrupted: `m + m'` steps are `m` steps and then `m'` steps, from the cells and the
generator that the first ones leave.  One step is the collisions of that step, cell after
cell with the measurements of the cell, then its flight. -/
theorem C104_steps (env : DriverEnv P S K) (d : ℕ → ℕ → List P → CellData K)
    (flight : ℕ → List (List P) → List (List P)) (nsort : List P → List P) (x : P) (fi fs : ℕ) :
    (∀ (m m' t : ℕ) (cells : List (List P)) (g : S),
      simulate env d flight nsort x fi fs t (m + m') cells g =
        match simulate env d flight nsort x fi fs t m cells g with
        | .error e => .error e
        | .ok r => (simulate env d flight nsort x fi fs (t + m) m' r.1 r.2.2).map
            fun r' => (r'.1, r.2.1 ++ r'.2.1, r'.2.2)) ∧
    (∀ (t : ℕ) (ls ls' : List (List P)) (g : S),
      simulate env d flight nsort x fi fs t 1 (ls ++ ls') g =
        match runCells env (d t) nsort x fi fs 0 ls g with
        | .error e => .error e
        | .ok r => (runCells env (d t) nsort x fi fs ls.length ls' r.2.2).map
            fun r' => (flight t (r.1 ++ r'.1), r.2.1 ++ r'.2.1, r'.2.2)) ∧
    (∀ (t k : ℕ) (l : List P) (g : S),
      runCells env (d t) nsort x fi fs k [l] g =
        (runCell { env with maxRelVel := (d t k l).maxRelVel, volume := (d t k l).volume, dt := (d t k l).dt }
          nsort x fi fs l g).map fun r => ([r.1], r.2)) := by
  refine ⟨?_, ?_, ?_⟩
  · intro m
    induction m with
    | zero =>
      intro m' t cells g
      simp only [simulate, zero_add, add_zero]
      cases simulate env d flight nsort x fi fs t m' cells g <;> rfl
    | succ m ih =>
      intro m' t cells g
      rw [show m + 1 + m' = (m + m') + 1 by omega, show t + (m + 1) = t + 1 + m by omega]
      simp only [simulate]
      cases runCells env (d t) nsort x fi fs 0 cells g with
      | error e => rfl
      | ok r =>
        obtain ⟨c1, evs1, g1⟩ := r
        dsimp only
        rw [ih m' (t + 1) (flight t c1) g1]
        cases simulate env d flight nsort x fi fs (t + 1) m (flight t c1) g1 with
        | error e => rfl
        | ok r =>
          obtain ⟨c2, evs2, g2⟩ := r
          dsimp only
          cases simulate env d flight nsort x fi fs (t + 1 + m) m' c2 g2 with
          | error e => rfl
          | ok r => simp [Except.map, List.append_assoc]
  · intro t ls ls' g
    simp only [simulate]
    rw [runCells_append]
    cases runCells env (d t) nsort x fi fs 0 ls g with
    | error e => rfl
    | ok r =>
      obtain ⟨c1, evs1, g1⟩ := r
      dsimp only
      rw [zero_add]
      cases runCells env (d t) nsort x fi fs ls.length ls' g1 with
      | error e => rfl
      | ok r => simp [Except.map]
  · intro t k l g
    simp only [runCells, DriverEnv.inCell]
    cases runCell { env with maxRelVel := (d t k l).maxRelVel, volume := (d t k l).volume, dt := (d t k l).dt }
      nsort x fi fs l g with
    | error e => rfl
    | ok r => simp [Except.map]

/-- **C104**  The simulation never reads a particle that is not there, and it does not stop short: with a generator that
does not repeat forever, every number of steps comes to its end. -/
theorem C104_returns (env : DriverEnv P S K) (hin : env.inplace = true) (hv : env.rng.Valid) (hfair : env.rng.Fair)
    (hk : InPlaceKeeps env env.species) (hpk : ProductsKnown env) {nsort : List P → List P}
    (hs : NSorts env.species env.nSpecies nsort) (d : ℕ → ℕ → List P → CellData K)
    {flight : ℕ → List (List P) → List (List P)} {move : ℕ → P → P} (hfl : Flies flight move)
    (hsp : ∀ t p, env.species (move t p) = env.species p) (x : P) :
    ∀ (m t : ℕ) (cells : List (List P)) (g : S), (∀ p ∈ cells.flatten, env.species p < env.nSpecies) →
      (∀ fi fs, simulate env d flight nsort x fi fs t m cells g ≠ .error .ub) ∧
      ∃ fi fs r, simulate env d flight nsort x fi fs t m cells g = .ok r
  | 0, _, cells, g, _ => ⟨fun _ _ h => by simp [simulate] at h, 0, 0, (cells, [], g), rfl⟩
  | m + 1, t, cells, g, hl => by
    have hl2 : ∀ {fi fs cells1 evs g1}, runCells env (d t) nsort x fi fs 0 cells g = .ok (cells1, evs, g1) →
        ∀ p ∈ (flight t cells1).flatten, env.species p < env.nSpecies := by
      intro fi fs cells1 evs g1 h1 p hp
      obtain ⟨q, hq, rfl⟩ := List.mem_map.1 ((hfl t cells1).mem_iff.1 hp)
      rw [hsp]
      exact (runCells_facts env hin hv hk hpk hs (d t) x fi fs 0 cells hl h1).2.1 q hq
    constructor
    · intro fi fs h
      simp only [simulate] at h
      split at h
      · rename_i e he
        simp only [Except.error.injEq] at h
        exact runCells_not_ub _ _ _ _ _ _ _ _ _ (h ▸ he)
      · rename_i cells1 evs g1 h1
        split at h
        · rename_i e he
          simp only [Except.error.injEq] at h
          exact (C104_returns env hin hv hfair hk hpk hs d hfl hsp x m (t + 1) _ g1 (hl2 h1)).1 fi fs (h ▸ he)
        · cases h
    · obtain ⟨fi, fs, ⟨cells1, evs, g1⟩, h1⟩ := runCells_returns env hv hfair hs (d t) x 0 cells g hl
      obtain ⟨fi', fs', ⟨cells2, evs', g2⟩, h2⟩ :=
        (C104_returns env hin hv hfair hk hpk hs d hfl hsp x m (t + 1) _ g1 (hl2 h1)).2
      refine ⟨max fi fi', max fs fs', (cells2, evs ++ evs', g2), ?_⟩
      simp only [simulate]
      rw [runCells_mono _ _ _ _ (le_max_left _ _) (le_max_left _ _) _ _ h1]
      dsimp only
      rw [simulate_mono _ _ _ _ _ (le_max_right _ _) (le_max_right _ _) _ _ _ h2]

end

/-! ## The library's models -/

section

variable {W S : Type}

/-- The equations performed in the tests reported. -/
def performedIn (eqs : ℕ → ℕ → List (WEq W)) (log : List (Event (Part W) ℝ)) : List (WEq W) :=
  log.filterMap fun ev => if ev.path.first < 0 then none else (eqs ev.A ev.B)[ev.path.first.toNat]?

/-- Every cross section consulted in the tests reported had a nonnegative value. -/
def EventsEvaluate (eqs : ℕ → ℕ → List (WEq W)) (log : List (Event (Part W) ℝ)) : Prop :=
  ∀ ev ∈ log, ∀ w ∈ eqs ev.A ev.B, ∃ c, w.cs.sigma (ev.a.vel - ev.b.vel).abs = .ok c ∧ 0 ≤ c

theorem mem_expandTerms {l : List Term} {t : Term} (h : t ∈ expandTerms l) : t ∈ l := by
  obtain ⟨u, hu, ht⟩ := List.mem_flatMap.1 h
  rw [List.eq_of_mem_replicate ht]
  exact hu

/-- The products of the library's equations are of species of the database. -/
theorem whole_productsKnown {T : Tools W} {db : Registry ℝ} {eqs : ℕ → ℕ → List (WEq W)} (hdb : WholeDB T db eqs)
    (c : CellConst S W) : ProductsKnown (wholeEnv T db.length eqs c) := by
  intro A B hAB hB e he a b s ha hb x hx
  obtain ⟨w, hw, rfl⟩ := List.mem_map.1 he
  change a.species.toNat = A at ha
  change b.species.toNat = B at hb
  change B < db.length at hB
  show x.species.toNat < db.length
  change x ∈ ((w.act T c.rng c.inplace a b s).getD (a, b, [], s)).2.2.1 at hx
  have hcol : ∀ f : Vec → Vec → S → Vec × Vec × S, x ∈ (actWith f c.inplace a b s).2.2.1 →
      x.species.toNat < db.length := by
    intro f hx
    unfold actWith at hx
    dsimp only at hx
    split at hx
    · cases hx
    · simp only [List.mem_cons, List.not_mem_nil, or_false] at hx
      rcases hx with rfl | rfl
      · show a.species.toNat < _; omega
      · show b.species.toNat < _; omega
  have hin : ∀ m s', (w.model = .inelastic (.two m) ∧ m.interact2 c.rng a b s = some s') ∨
      (w.model = .inelastic (.three m) ∧ m.interact3 c.rng a b s = some s') → x ∈ s'.1 → x.species.toNat < db.length := by
    rintro m ⟨out, s'⟩ h hx
    rcases hdb.eqn A B hAB hB w hw with ⟨-, -, hwf, d, hd⟩ | hcr
    · obtain ⟨-, -, -, -, -, -, -, hm, hdec, -⟩ := completeEq_ok hd
      have hP : Produces db T.oc w.eq w.declared w.cs.thrE c.rng a b s out := by
        rw [hdec]
        rcases h with ⟨h1, h2⟩ | ⟨h1, h2⟩ <;>
        · rcases loadModel_ok hm with ⟨-, h3⟩ | ⟨-, h3⟩ | ⟨-, i, h3, h4⟩
          · rw [h1] at h3; cases h3
          · rw [h1] at h3; cases h3
          · rw [h1] at h3
            cases h3
            first
              | exact ⟨m, s', .inl ⟨h4, h2⟩⟩
              | exact ⟨m, s', .inr ⟨h4, h2⟩⟩
      have hsp := C49_species_in_order hwf.count hdb.masses c.rng a b s out hP
      obtain ⟨t, ht, hts⟩ := List.mem_map.1 (hsp ▸ List.mem_map_of_mem hx : x.species ∈ _)
      obtain ⟨p, hp⟩ := hwf.species t (mem_expandTerms ht)
      rw [← hts]
      exact (List.getElem?_eq_some_iff.1 hp).1
    · rcases h with ⟨h1, -⟩ | ⟨h1, -⟩ <;> (rw [hcr.1] at h1; cases h1)
  unfold WEq.act at hx
  split at hx
  · exact hcol (elasticCollide c.rng w.mu) hx
  · rename_i k _
    exact hcol (vssCollide T.pow k c.rng w.mu) hx
  · rename_i m hm
    cases hi : m.interact2 c.rng a b s with
    | none => rw [hi] at hx; cases hx
    | some r => rw [hi] at hx; exact hin m r (.inl ⟨hm, hi⟩) hx
  · rename_i m hm
    cases hi : m.interact3 c.rng a b s with
    | none => rw [hi] at hx; cases hx
    | some r => rw [hi] at hx; exact hin m r (.inr ⟨hm, hi⟩) hx
  · cases hx

/-- **C104**  For the database of the library: if the inelastic equations balance mass, charge or another property of
the species, its total over all cells never changes; if they balance mass and their expressions leave velocities alone,
and the motion keeps momentum, the total momentum never changes; and if moreover there is no VSS equation and the motion
keeps kinetic energy, the kinetic energy changes by the energy changes of the equations performed. -/
theorem C104_library {T : Tools W} {db : Registry ℝ} {eqs : ℕ → ℕ → List (WEq W)} (hdb : WholeDB T db eqs)
    {c : CellConst S W} (hin : c.inplace = true) (hv : c.rng.Valid) {nsort : List (Part W) → List (Part W)}
    (hs : NSorts (fun p : Part W => p.species.toNat) db.length nsort) (d : ℕ → ℕ → List (Part W) → CellData ℝ)
    {flight : ℕ → List (List (Part W)) → List (List (Part W))} {move : ℕ → Part W → Part W} (hfl : Flies flight move)
    (hsp : ∀ t p, (move t p).species = p.species) (x : Part W) (fi fs t m : ℕ) {cells cells' : List (List (Part W))}
    {evs : List (Event (Part W) ℝ)} {g g' : S} (hl : ∀ p ∈ cells.flatten, p.species.toNat < db.length)
    (h : simulate (wholeEnv T db.length eqs c) d flight nsort x fi fs t m cells g = .ok (cells', evs, g'))
    (hev : EventsEvaluate eqs evs) :
    (∀ f : Props ℝ → ℝ, (∀ A B, A ≤ B → B < db.length → ∀ w ∈ eqs A B, w.IsInelastic → SameSum db f w.eq) →
      worldTotal (fun p => speciesVal db f p.species.toNat) cells' =
        worldTotal (fun p => speciesVal db f p.species.toNat) cells) ∧
    ((∀ A B, A ≤ B → B < db.length → ∀ w ∈ eqs A B, w.IsInelastic →
        SameSum db Props.mass w.eq ∧ OpsKeepVel T.oc w.eq) →
      ((∀ t p, momentumOf db (move t p) = momentumOf db p) →
        worldTotal (momentumOf db) cells' = worldTotal (momentumOf db) cells) ∧
      (SaneDB T db db.length eqs →
        (∀ A B, A ≤ B → B < db.length → ∀ w ∈ eqs A B, w.Runnable db ∧ ∀ k, w.model ≠ .vss k) →
        (∀ t p, energyOf db (move t p) = energyOf db p) →
        worldTotal (energyOf db) cells' =
          worldTotal (energyOf db) cells + ((performedIn eqs evs).map WEq.energyChange).sum)) := by
  have hnn : NonnegEvents (wholeEnv T db.length eqs c) evs := by
    intro ev hmem e he
    obtain ⟨w, hw, rfl⟩ := List.mem_map.1 he
    obtain ⟨c, hc, h0⟩ := hev ev hmem w hw
    show 0 ≤ (match w.cs.sigma (ev.a.vel - ev.b.vel).abs with | .ok c => c | .error _ => 0)
    rw [hc]
    exact h0
  have key : ∀ (G : Type) [AddCommGroup G] (φ : Part W → G) (δ : WEq W → G), (∀ t p, φ (move t p) = φ p) →
      (∀ A B, A ≤ B → B < db.length → ∀ w ∈ eqs A B, ∀ p q : Part W, p.species.toNat = A → q.species.toNat = B →
        ∀ s, (∃ y, w.cs.sigma (p.vel - q.vel).abs = .ok y ∧ 0 < y) →
        Changes φ p q (δ w) ((w.act T c.rng c.inplace p q s).getD (p, q, [], s))) →
      worldTotal φ cells' = worldTotal φ cells + ((performedIn eqs evs).map δ).sum := by
    intro G _ φ δ hφ hch
    rw [C104_balance (wholeEnv T db.length eqs c) hin hv (wholeEnv_keeps T db.length eqs c) (whole_productsKnown hdb c)
      hs d hfl (fun t p => congrArg Int.toNat (hsp t p)) φ hφ _ (whole_changes φ δ hch) x fi fs t m hl h hnn]
    congr 1
    exact source_sum eqs δ
      (⟨fun _ => x, fun _ => (0, 0), [], [], evs, g⟩ : DState (Part W) S ℝ)
  refine ⟨fun f hf => ?_, fun hf => ⟨fun hmv => ?_, fun hsane hrunnable hmv => ?_⟩⟩
  · rw [key ℝ _ (fun _ => (0 : ℝ)) (fun t p => by rw [hsp]) ?_]
    · simp
    · intro A B hAB hB w hw p q hp hq s _
      cases h : w.act T c.rng c.inplace p q s with
      | none => exact changes_none
      | some r => exact (act_changes hdb hv.unit hAB hB hw hp hq h).1 f (hf A B hAB hB w hw)
  · rw [key Vec _ (fun _ => (0 : Vec)) hmv ?_]
    · simp
    · intro A B hAB hB w hw p q hp hq s _
      cases h : w.act T c.rng c.inplace p q s with
      | none => exact changes_none
      | some r => exact ((act_changes hdb hv.unit hAB hB hw hp hq h).2 (hf A B hAB hB w hw)).1
  · refine key ℝ _ _ hmv ?_
    intro A B hAB hB w hw p q hp hq s ⟨y, hy1, hy2⟩
    obtain ⟨hr1, hr2⟩ := hrunnable A B hAB hB w hw
    obtain ⟨r, hr⟩ := (act_defined hdb le_rfl hsane c.rng c.inplace hAB hB hw p q hy1 hy2).2 hr1 s
    rw [hr]
    exact ((act_changes hdb hv.unit hAB hB hw hp hq hr).2 (hf A B hAB hB w hw)).2 hr2

end

/-! ## A simulation -/

namespace SimulationExample

open DriverExample

/-- The equations of `DriverExample`; the products are of the third species. -/
def world (inplace : Bool) : DriverEnv Pt ℕ ℚ := { env inplace with nSpecies := 3 }

/-- Between collisions all particles get a mark, and the cells change places. -/
def mark (_ : ℕ) (p : Pt) : Pt := { p with id := p.id + 1000 }
def drift (t : ℕ) (cells : List (List Pt)) : List (List Pt) := (cells.map (List.map (mark t))).reverse

def nsort (l : List Pt) : List Pt := l.insertionSort fun p q => p.sp ≤ q.sp

/-- The time step depends on the number of particles in the cell. -/
def data (_ _ : ℕ) (l : List Pt) : CellData ℚ := ⟨fun _ _ => 1, 1, 1 / (l.length - 2)⟩

/-- Two cells; in the second there is no particle of species 1. -/
def cells : List (List Pt) :=
  [[⟨4, 1, 4⟩, ⟨0, 0, 0⟩, ⟨1, 0, 0⟩, ⟨5, 1, 5⟩, ⟨2, 0, 0⟩, ⟨3, 0, 0⟩], [⟨7, 0, 1⟩, ⟨8, 0, 2⟩]]

theorem drift_flies : Flies drift mark := by
  intro t cells
  unfold drift
  refine (List.reverse_perm _).flatten.trans ?_
  rw [← List.map_flatten]

theorem nsort_ok (n : ℕ) : NSorts Pt.sp n nsort := by
  intro l _
  have : Std.Total fun p q : Pt => p.sp ≤ q.sp := ⟨fun _ _ => le_total _ _⟩
  have : IsTrans Pt fun p q => p.sp ≤ q.sp := ⟨fun _ _ _ => le_trans⟩
  exact ⟨List.perm_insertionSort _ _, List.pairwise_insertionSort _ _⟩

theorem world_keeps (ip : Bool) : InPlaceKeeps (world ip) (world ip).species := fun A B e he a b s =>
  ⟨congrArg Prod.snd (keeps_id ip A B e he a b s).1, congrArg Prod.snd (keeps_id ip A B e he a b s).2⟩

theorem world_rhs {ip : Bool} {A B : ℕ} {e : Eqn Pt ℕ ℚ} (he : e ∈ (world ip).rhs A B) : A = 0 ∧ (B = 0 ∨ B = 1) := by
  simp only [world, env] at he
  split at he
  · rename_i h; exact ⟨h.1, .inl h.2⟩
  · split at he
    · rename_i h; exact ⟨h.1, .inr h.2⟩
    · cases he

theorem world_known (ip : Bool) : ProductsKnown (world ip) := by
  intro A B _ _ e he a b s _ _ x hx
  simp only [world, env] at he
  split at he
  · simp only [List.mem_cons, List.not_mem_nil, or_false] at he
    rcases he with rfl | rfl <;> cases hx
  · split at he
    · simp only [List.mem_cons, List.not_mem_nil, or_false] at he
      subst he
      simp only [List.mem_cons, List.not_mem_nil, or_false] at hx
      subst hx
      show 2 < 3
      decide
    · cases he

theorem world_balances (ip : Bool) : Balances (world ip) Pt.q fun _ _ _ => 0 := by
  intro A B hAB _ j e he a b s ha hb hpos
  have hm := List.mem_of_getElem? he
  obtain ⟨rfl, hB⟩ := world_rhs hm
  simpa using conserves_charge ip 0 B hAB (by show B < 2; omega) e hm a b s ha hb hpos

theorem world_nonneg (ip : Bool) (log : List (Event Pt ℚ)) : NonnegEvents (world ip) log := by
  intro ev _ e he
  simp only [world, env] at he
  split at he
  · simp only [List.mem_cons, List.not_mem_nil, or_false] at he
    rcases he with rfl | rfl
    · exact le_rfl
    · exact zero_le_one
  · split at he
    · simp only [List.mem_cons, List.not_mem_nil, or_false] at he
      subst he
      exact zero_le_one
    · cases he

/-- What is left: for each cell the identities, species and charges; then the tests and the total charge. -/
def summary (r : Except DErr (List (List Pt) × List (Event Pt ℚ) × ℕ)) : List (List (List ℤ)) :=
  match r with
  | .ok (cells, evs, _) => cells.map (List.map fun p => [(p.id : ℤ), p.sp, p.q]) ++
      [evs.map fun e => [(e.A : ℤ), e.B, e.a.id, e.b.id], [[worldTotal Pt.q cells]]]
  | .error _ => []

/-- Three steps: five tests in two cells, one pair becomes one particle; the cell without particles of species 1 is left
alone. -/
example : summary (simulate (world true) data drift nsort ⟨9, 9, 9⟩ 20 20 0 3 cells 0) =
    [[[3007, 0, 1], [3008, 0, 2]],
     [[3000, 0, -1], [3001, 0, -1], [3003, 0, 1], [3004, 1, 4], [3152, 2, 6]],
     [[0, 0, 2, 3], [0, 1, 2, 5], [0, 0, 1000, 1001], [0, 0, 2003, 2000], [0, 0, 2003, 2000]], [[12]]] := by
  decide +kernel

/-- The hypotheses of C104 hold here, so charge is conserved in every number of steps, all of which come to an end. -/
example (t m : ℕ) (g : ℕ) : ∃ fi fs cells' evs g',
    simulate (world true) data drift nsort ⟨9, 9, 9⟩ fi fs t m cells g = .ok (cells', evs, g') ∧
    worldTotal Pt.q cells' = 12 ∧ (∀ p ∈ cells'.flatten, p.sp < 3) := by
  have hl : ∀ p ∈ cells.flatten, (world true).species p < (world true).nSpecies := by
    show ∀ p ∈ cells.flatten, p.sp < 3
    decide
  obtain ⟨fi, fs, ⟨cells', evs, g'⟩, h⟩ := (C104_returns (world true) rfl rng_valid rng_fair (world_keeps true)
    (world_known true) (nsort_ok 3) data drift_flies (fun _ _ => rfl) ⟨9, 9, 9⟩ m t cells g hl).2
  refine ⟨fi, fs, cells', evs, g', h, ?_, ?_⟩
  · rw [C104_balance (world true) rfl rng_valid (world_keeps true) (world_known true) (nsort_ok 3) data drift_flies
      (fun _ _ => rfl) Pt.q (fun _ _ => rfl) _ (world_balances true) _ fi fs t m hl h (world_nonneg true evs)]
    have hz : (evs.map (Event.source fun _ _ _ => (0 : ℤ))).sum = 0 := by
      rw [List.sum_eq_zero]
      intro z hz
      obtain ⟨ev, -, rfl⟩ := List.mem_map.1 hz
      simp [Event.source]
    rw [hz]
    decide
  · exact (C104_number (world true) rfl rng_valid (world_keeps true) (world_known true) (nsort_ok 3) data drift_flies
      (fun _ _ => rfl) _ fi fs t m hl h).1

/-- One particle of each species, the second with charge 1. -/
def pair : List Pt := [⟨0, 0, 0⟩, ⟨1, 1, 1⟩]

/-- Time steps long enough for three tests. -/
def long : DriverEnv Pt ℕ ℚ := { world false with dt := 3 }

/-- Electrons and atoms with the excitation of `WholeExample`, in free flight: the simulation ends after any number of
steps, and mass and momentum are what they were. -/
example (T : Tools Unit) (m : ℕ) (start : List (List (Part Unit))) (hl : ∀ p ∈ start.flatten, p.species.toNat < 4) :
    ∃ (w : WEq Unit) (fi fs : ℕ) (cells' : List (List (Part Unit))) (evs : List (Event (Part Unit) ℝ)) (g' : ℕ),
    let eqs : ℕ → ℕ → List (WEq Unit) := fun A B => if A = 0 ∧ B = 1 then [w] else []
    let c : CellConst ℕ Unit := ⟨fun _ _ => 5, 1, 1, fun _ => 1, true, MainExample.rng⟩
    let move : ℕ → Part Unit → Part Unit := fun _ p => { p with pos := p.pos + p.vel }
    simulate (wholeEnv T 4 eqs c) (fun _ _ _ => ⟨fun _ _ => 5, 1, 1⟩)
      (fun t cells => (cells.map (List.map (move t))).reverse) MainExample.sort ⟨0, 0, 0, ()⟩ fi fs 0 m start 0 =
        .ok (cells', evs, g') ∧
    worldTotal (massOf exReal) cells' = worldTotal (massOf exReal) start ∧
    worldTotal (momentumOf exReal) cells' = worldTotal (momentumOf exReal) start := by
  obtain ⟨w, hw, -, hmass, -, hdb, -⟩ := WholeExample.run T true
  have hsort := MainExample.sort_ok (W := Unit) 4
  have hfl : ∀ move : ℕ → Part Unit → Part Unit,
      Flies (fun t (cells : List (List (Part Unit))) => (cells.map (List.map (move t))).reverse) move := by
    intro move t cells
    refine (List.reverse_perm _).flatten.trans ?_
    rw [← List.map_flatten]
  set eqs : ℕ → ℕ → List (WEq Unit) := fun A B => if A = 0 ∧ B = 1 then [w] else [] with heqs
  set c : CellConst ℕ Unit := ⟨fun _ _ => 5, 1, 1, fun _ => 1, true, MainExample.rng⟩ with hc
  have hmem : ∀ A B, ∀ v ∈ eqs A B, v = w := by
    intro A B v hv
    rw [heqs] at hv
    dsimp only at hv
    split at hv
    · exact List.mem_singleton.1 hv
    · cases hv
  obtain ⟨fi, fs, ⟨cells', evs, g'⟩, h⟩ := (C104_returns (wholeEnv T 4 eqs c) rfl MainExample.rng_valid MainExample.rng_fair
    (wholeEnv_keeps T 4 eqs c) (whole_productsKnown hdb c) hsort (fun _ _ _ => ⟨fun _ _ => 5, 1, 1⟩)
    (hfl fun _ p => { p with pos := p.pos + p.vel }) (fun _ _ => rfl) ⟨0, 0, 0, ()⟩ m 0 start 0 hl).2
  have hev : EventsEvaluate eqs evs := by
    intro ev _ v hv
    rw [hmem _ _ v hv]
    obtain ⟨a, b, hA, hB, -, hmu, hcs, -⟩ := completeEq_ok hw
    have ha := hdb.masses a (List.mem_of_getElem? hA)
    have hb := hdb.masses b (List.mem_of_getElem? hB)
    refine C73_evaluates (d := WholeExample.inter.cs) ?_ (Vec.abs_nonneg _) ?_ hcs
    · show 0 < a.mass * b.mass / (a.mass + b.mass)
      positivity
    · show (0 : ℝ) ≤ 3
      norm_num
  have hops : OpsKeepVel T.oc w.eq := by
    obtain ⟨-, -, -, -, he, -⟩ := completeEq_ok hw
    rw [he]
    exact NoOps.keepVel (by simp [NoOps, WholeExample.eq, exExcite, productOps, Term.single])
  have hlib := C104_library (db := exReal) hdb (c := c) rfl MainExample.rng_valid hsort (fun _ _ _ => ⟨fun _ _ => 5, 1, 1⟩)
    (hfl fun _ p => { p with pos := p.pos + p.vel }) (fun _ _ => rfl) ⟨0, 0, 0, ()⟩ fi fs 0 m hl h hev
  refine ⟨w, fi, fs, cells', evs, g', h, ?_, ?_⟩
  · exact hlib.1 Props.mass fun A B _ _ v hv _ => by rw [hmem A B v hv]; exact hmass
  · exact (hlib.2 fun A B _ _ v hv _ => by rw [hmem A B v hv]; exact ⟨hmass, hops⟩).1 fun _ _ => rfl

end SimulationExample

open DriverExample SimulationExample in
/-- **C104**  In place is needed.  Out of place the queue stays empty and a pair can react again and again: here the
equations conserve charge and no particle has negative charge, but one cell with charge 1 gives products with more
charge than that, although every one of them is a product of the same two particles. -/
theorem C104_out_of_place : ∃ (env : DriverEnv Pt ℕ ℚ) (l l' : List Pt) (evs : List (Event Pt ℚ)) (fi fs g g' : ℕ),
    env.inplace = false ∧ env.rng.Valid ∧ ProductsKnown env ∧ Balances env Pt.q (fun _ _ _ => 0) ∧
    (∀ p ∈ l, env.species p < env.nSpecies ∧ 0 ≤ p.q) ∧
    runCell env nsort ⟨9, 9, 9⟩ fi fs l g = .ok (l', evs, g') ∧
    (l.map Pt.q).sum < ((evs.flatMap Event.prods).map Pt.q).sum ∧
    (l'.map Pt.q).sum = (l.map Pt.q).sum + ((evs.flatMap Event.prods).map Pt.q).sum := by
  have h : ∃ r, runCell long nsort ⟨9, 9, 9⟩ 20 20 pair 0 = .ok r ∧
      (pair.map Pt.q).sum < ((r.2.1.flatMap Event.prods).map Pt.q).sum ∧
      (r.1.map Pt.q).sum = (pair.map Pt.q).sum + ((r.2.1.flatMap Event.prods).map Pt.q).sum := by
    cases hr : runCell long nsort ⟨9, 9, 9⟩ 20 20 pair 0 with
    | error e =>
      have : (match runCell long nsort ⟨9, 9, 9⟩ 20 20 pair 0 with | .ok _ => true | .error _ => false) = true := by
        decide +kernel
      rw [hr] at this
      cases this
    | ok r =>
      have : (match runCell long nsort ⟨9, 9, 9⟩ 20 20 pair 0 with
        | .ok r => decide ((pair.map Pt.q).sum < ((r.2.1.flatMap Event.prods).map Pt.q).sum ∧
            (r.1.map Pt.q).sum = (pair.map Pt.q).sum + ((r.2.1.flatMap Event.prods).map Pt.q).sum)
        | .error _ => false) = true := by
        decide +kernel
      rw [hr] at this
      exact ⟨r, rfl, of_decide_eq_true this⟩
  obtain ⟨⟨l', evs, g'⟩, h1, h2, h3⟩ := h
  exact ⟨long, pair, l', evs, 20, 20, 0, g', rfl, rng_valid, world_known false, world_balances false, by decide, h1, h2, h3⟩

end Chimp
