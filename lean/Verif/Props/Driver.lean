import Verif.Lemmas.Driver

/-!
# Properties C39-C44: bookkeeping of the collision driver
-/

namespace Chimp

variable {P S K : Type} [Field K] [LinearOrder K] [FloorRing K]

/-! ## Specification -/

/-- Particles of species `C` that a reported test took out of the cell: both members of the pair if
products were created, none otherwise. -/
def consumedBy (C : ℕ) (e : Event P K) : Multiset P :=
  if e.prods.isEmpty then 0
  else (if C = e.A then {e.a} else 0) + (if C = e.B then {e.b} else 0)

/-- Particles of species `C` consumed in a run. -/
def consumedM (C : ℕ) (log : List (Event P K)) : Multiset P := (log.map (consumedBy C)).sum

/-- Number of tests that created products. -/
def consumingCount (log : List (Event P K)) : ℕ := (log.filter (fun e => !e.prods.isEmpty)).length

/-- Particles that are modified in place keep the attribute `ident`. -/
def InPlaceKeeps {ι : Type} (env : DriverEnv P S K) (ident : P → ι) : Prop :=
  ∀ A B, ∀ e ∈ env.rhs A B, ∀ a b s,
    ident (e.act a b s).1 = ident a ∧ ident (e.act a b s).2.1 = ident b

/-- A cell before a driver run: nothing reported, nothing queued for erasure. -/
def Fresh (st : DState P S K) : Prop := st.log = [] ∧ st.erased = []

omit [Field K] [LinearOrder K] [FloorRing K] in
theorem Possible.keeps {ι : Type} {env : DriverEnv P S K} {ident : P → ι} (hk : InPlaceKeeps env ident) {A B : ℕ}
    {a b : P} {r : OutPath K × P × P × List P × S} (h : Possible env (env.rhs A B) a b r) :
    ident r.2.1 = ident a ∧ ident r.2.2.1 = ident b := by
  rcases h with ⟨-, h⟩ | ⟨_, e, he, s', _, h | h⟩
  · rw [h.1, h.2.1]; exact ⟨rfl, rfl⟩
  · rw [h.2.1, h.2.2.1]
    exact ⟨(hk A B e he b a s').2, (hk A B e he b a s').1⟩
  · rw [h.2.1, h.2.2.1]
    exact hk A B e he a b s'

omit [Field K] [LinearOrder K] [FloorRing K] in
theorem Possible.created {env : DriverEnv P S K} {A B : ℕ} {a b : P} {r : OutPath K × P × P × List P × S}
    (h : Possible env (env.rhs A B) a b r) (hne : r.2.2.2.1 ≠ []) : 0 ≤ r.1.first := by
  rcases h with ⟨-, h⟩ | h
  · exact absurd h.2.2 hne
  · exact h.1

/-- Invariant of a run in in-place mode, relative to the initial cell `st0`. -/
structure BookInv {ι : Type} (env : DriverEnv P S K) (ident : P → ι) (st0 st : DState P S K) :
    Prop where
  wf : WFRanges env.nSpecies st.range
  lo : ∀ C, (st.range C).1 = (st0.range C).1
  hi : ∀ C, (st.range C).2 ≤ (st0.range C).2
  live : ∀ C < env.nSpecies, (liveM st.mem (st.range C)).map ident +
    (consumedM C st.log).map ident = (liveM st0.mem (st0.range C)).map ident
  nodup : st.erased.Nodup
  erased : ∀ z, z ∈ st.erased ↔ ∃ C < env.nSpecies, (st.range C).2 ≤ z ∧ z < (st0.range C).2
  count : st.erased.length = 2 * consumingCount st.log

omit [Field K] [LinearOrder K] [FloorRing K] in
private theorem consumedM_append (C : ℕ) (l : List (Event P K)) (e : Event P K) :
    consumedM C (l ++ [e]) = consumedM C l + consumedBy C e := by
  simp [consumedM]

omit [Field K] [LinearOrder K] [FloorRing K] in
theorem bookInv_step {ι : Type} (env : DriverEnv P S K) (hin : env.inplace = true)
    (ident : P → ι) (hk : InPlaceKeeps env ident) (st0 st st' : DState P S K)
    (hwf0 : WFRanges env.nSpecies st0.range)
    (hinv : BookInv env ident st0 st) (hstep : GStep env st st') :
    BookInv env ident st0 st' := by
  obtain ⟨A, B, p, q, r, _, hAB, hB, hne, hp, hq, hpq, hr⟩ := hstep
  have hA : A < env.nSpecies := by omega
  have h1 := applyPair_inplace env.nSpecies A B p q r st hr.created hinv.wf hA hB hp hq hpq
  have h2 := applyPair_fields env.inplace A B p q r st
  have h3 := hr.keeps hk
  clear hr
  rw [← hin] at h1
  simp only at h1 h2
  generalize applyPair env.inplace A B p q r st = st' at h1 h2
  by_cases hprod : r.2.2.2.1 = []
  · obtain ⟨hr, he, hl⟩ := h1.1 hprod
    have hev : ∀ C, consumedBy C (⟨A, B, p, q, st.mem p, st.mem q, r.1, r.2.2.2.1⟩ : Event P K) = 0 := by
      intro C; simp [consumedBy, hprod]
    refine ⟨hr ▸ hinv.wf, fun C => by rw [hr]; exact hinv.lo C, fun C => by rw [hr]; exact hinv.hi C,
      ?_, he ▸ hinv.nodup, ?_, ?_⟩
    · intro C hC
      rw [h2.2.1, consumedM_append, hev, add_zero, ← hinv.live C hC]
      congr 1
      have h4 := congrArg (Multiset.map ident) (hl C hC)
      simp only [Multiset.map_add] at h4
      have e1 : Multiset.map ident (if C = A then {r.2.1} else 0) =
          Multiset.map ident (if C = A then {st.mem p} else 0) := by
        split <;> simp [h3.1]
      have e2 : Multiset.map ident (if C = B then {r.2.2.1} else 0) =
          Multiset.map ident (if C = B then {st.mem q} else 0) := by
        split <;> simp [h3.2]
      rw [e1, e2] at h4
      exact add_right_cancel (add_right_cancel h4)
    · intro z; rw [he, hr]; exact hinv.erased z
    · rw [he, h2.2.1, hinv.count]; simp [consumingCount, hprod]
  · obtain ⟨hr, ⟨x, y, he, hxy, hz⟩, hl⟩ := h1.2 hprod
    have hev : ∀ C, consumedBy C (⟨A, B, p, q, st.mem p, st.mem q, r.1, r.2.2.2.1⟩ : Event P K) =
        (if C = A then {st.mem p} else 0) + (if C = B then {st.mem q} else 0) := by
      intro C; simp [consumedBy, hprod]
    have hle : ∀ C, (st'.range C).2 ≤ (st.range C).2 := by intro C; rw [hr]; simp
    have hlo : ∀ C, (st'.range C).1 = (st.range C).1 := by intro C; rw [hr]
    have hnew : ∀ z, (z = x ∨ z = y) → z ∉ st.erased := by
      intro z hzxy hmem
      obtain ⟨C, hC, hc1, hc2⟩ := (hz z).1 hzxy
      obtain ⟨D, hD, hd1, hd2⟩ := (hinv.erased z).1 hmem
      by_cases hCD : C = D
      · subst hCD; omega
      · have hlole : ∀ E < env.nSpecies, (st'.range E).1 ≤ (st'.range E).2 := by
          intro E hE
          rw [hr]
          simp only
          by_cases hEA : E = A <;> by_cases hEB : E = B
          · subst hEA; subst hEB; simp only [if_true]; omega
          · subst hEA; simp only [hEB, if_true, if_false]; omega
          · subst hEB; simp only [hEA, if_true, if_false]; omega
          · simp only [hEA, hEB, if_false]; have := hinv.wf.le E hE; omega
        have := hlole C hC
        have h5 := hinv.wf.le D hD
        have h6 := hinv.hi C
        have h7 := hinv.lo C
        have h8 := hinv.lo D
        have h9 := hlo C
        exact hwf0.disj C hC D hD hCD z ⟨⟨by omega, by omega⟩, ⟨by omega, by omega⟩⟩
    refine ⟨⟨?_, ?_⟩, ?_, ?_, ?_, ?_, ?_, ?_⟩
    · intro C hC
      rw [hr]
      simp only
      by_cases hEA : C = A <;> by_cases hEB : C = B
      · subst hEA; subst hEB; simp only [if_true]; omega
      · subst hEA; simp only [hEB, if_true, if_false]; omega
      · subst hEB; simp only [hEA, if_true, if_false]; omega
      · simp only [hEA, hEB, if_false]; have := hinv.wf.le C hC; omega
    · intro C hC D hD hCD z hzz
      have a1 := hle C; have a2 := hle D; have a3 := hlo C; have a4 := hlo D
      exact hinv.wf.disj C hC D hD hCD z ⟨⟨by omega, by omega⟩, ⟨by omega, by omega⟩⟩
    · intro C; rw [hlo C]; exact hinv.lo C
    · intro C; exact (hle C).trans (hinv.hi C)
    · intro C hC
      rw [h2.2.1, consumedM_append, hev, Multiset.map_add, ← hinv.live C hC, ← hl C hC]
      simp only [Multiset.map_add]
      abel
    · rw [he, List.nodup_append]
      refine ⟨hinv.nodup, by simp [hxy], ?_⟩
      intro a ha b hb hab
      subst hab
      exact hnew a (by simpa using hb) ha
    · intro z
      rw [he]
      simp only [List.mem_append, List.mem_cons, List.not_mem_nil, or_false]
      rw [hz z]
      rw [hinv.erased z]
      constructor
      · rintro (⟨C, hC, h5, h6⟩ | ⟨C, hC, h5, h6⟩)
        · exact ⟨C, hC, (hle C).trans h5, h6⟩
        · exact ⟨C, hC, h5, lt_of_lt_of_le h6 (hinv.hi C)⟩
      · rintro ⟨C, hC, h5, h6⟩
        by_cases h7 : (st.range C).2 ≤ z
        · exact .inl ⟨C, hC, h7, h6⟩
        · exact .inr ⟨C, hC, h5, by omega⟩
    · rw [he, h2.2.1]
      have := hinv.count
      simp [consumingCount, hprod] at this ⊢
      omega

variable [IsStrictOrderedRing K]

/-- Pair tests, each with a possible outcome, from `st0` with some state of the generator to `st`. -/
def TestsOf (env : DriverEnv P S K) (st0 st : DState P S K) : Prop :=
  ∃ g, Relation.ReflTransGen (GStep env) { st0 with gen := g } st

theorem driver_tests {env : DriverEnv P S K} (hv : env.rng.Valid) {fi fs : ℕ} {st0 st : DState P S K}
    (hrun : driver env fi fs st0 = .ok st) : TestsOf env st0 st := by
  obtain ⟨g, hreach⟩ := driver_reach env hv fi fs st0 st hrun
  exact ⟨g, Relation.ReflTransGen.mono (fun _ _ h => TestStep.gstep h) _ _ hreach⟩

omit [Field K] [LinearOrder K] [FloorRing K] [IsStrictOrderedRing K] in
theorem bookInv_run {ι : Type} (env : DriverEnv P S K) (hin : env.inplace = true)
    (ident : P → ι) (hk : InPlaceKeeps env ident)
    (st0 st : DState P S K) (hwf : WFRanges env.nSpecies st0.range) (hf : Fresh st0)
    (hrun : TestsOf env st0 st) : BookInv env ident st0 st := by
  obtain ⟨g, hreach⟩ := hrun
  have h0 : BookInv env ident st0 { st0 with gen := g } := by
    refine ⟨hwf, fun _ => rfl, fun _ => le_rfl, ?_, ?_, ?_, ?_⟩
    · intro C _; simp [hf.1, consumedM]
    · simp [hf.2]
    · intro z; simp [hf.2]
    · simp [hf.1, hf.2, consumingCount]
  induction hreach with
  | refl => exact h0
  | tail _ hstep ih => exact bookInv_step env hin ident hk st0 _ _ hwf ih hstep

/-! ## C39 -/

/-- **C39**  After any driver run in in-place mode, for every species: the particles left in its range
together with those consumed are exactly the particles initially there (as multisets of any
attribute that in-place interactions keep, for instance an identity). -/
theorem C39_survivors_plus_consumed {ι : Type} (env : DriverEnv P S K) (hin : env.inplace = true)
    (hv : env.rng.Valid) (ident : P → ι) (hk : InPlaceKeeps env ident) (fi fs : ℕ)
    (st0 st : DState P S K) (hwf : WFRanges env.nSpecies st0.range) (hf : Fresh st0)
    (hrun : driver env fi fs st0 = .ok st) :
    ∀ C < env.nSpecies, (liveM st.mem (st.range C)).map ident + (consumedM C st.log).map ident =
      (liveM st0.mem (st0.range C)).map ident :=
  (bookInv_run env hin ident hk st0 st hwf hf (driver_tests hv hrun)).live

/-- **C39**  The positions queued for erasure are pairwise different, are exactly the positions given up
by the species ranges (which keep their beginnings), and are two per consuming interaction. -/
theorem C39_erasure_queue (env : DriverEnv P S K) (hin : env.inplace = true)
    (hv : env.rng.Valid) (fi fs : ℕ)
    (st0 st : DState P S K) (hwf : WFRanges env.nSpecies st0.range) (hf : Fresh st0)
    (hrun : driver env fi fs st0 = .ok st) :
    st.erased.Nodup ∧
    (∀ z, z ∈ st.erased ↔ ∃ C < env.nSpecies, (st.range C).2 ≤ z ∧ z < (st0.range C).2) ∧
    st.erased.length = 2 * consumingCount st.log ∧
    (∀ C, (st.range C).1 = (st0.range C).1 ∧ (st.range C).2 ≤ (st0.range C).2) ∧
    WFRanges env.nSpecies st.range := by
  have h := bookInv_run env hin (fun _ => ()) (fun _ _ _ _ _ _ _ => ⟨rfl, rfl⟩) st0 st
    hwf hf (driver_tests hv hrun)
  exact ⟨h.nodup, h.erased, h.count, fun C => ⟨h.lo C, h.hi C⟩, h.wf⟩

/-! ## C40 -/

/-- Invariant for the reported pairs. -/
structure LogInv {ι : Type} (env : DriverEnv P S K) (ident : P → ι) (st0 st : DState P S K) :
    Prop where
  book : BookInv env ident st0 st
  valid : ∀ e ∈ st.log, e.A ≤ e.B ∧ e.B < env.nSpecies ∧ e.p ≠ e.q ∧
    ident e.a ∈ (liveM st0.mem (st0.range e.A)).map ident ∧
    ident e.b ∈ (liveM st0.mem (st0.range e.B)).map ident
  pw : (∀ C < env.nSpecies, ∀ D < env.nSpecies,
      ((liveM st0.mem (st0.range C)).map ident).Nodup ∧
      (C ≠ D → Disjoint ((liveM st0.mem (st0.range C)).map ident)
        ((liveM st0.mem (st0.range D)).map ident))) →
    st.log.Pairwise (fun e e' => e.prods ≠ [] →
      (ident e'.a ≠ ident e.a ∧ ident e'.a ≠ ident e.b ∧
       ident e'.b ≠ ident e.a ∧ ident e'.b ≠ ident e.b))

omit [Field K] [LinearOrder K] [FloorRing K] [IsStrictOrderedRing K] in
theorem logInv_step {ι : Type} (env : DriverEnv P S K) (hin : env.inplace = true)
    (ident : P → ι) (hk : InPlaceKeeps env ident) (st0 st st' : DState P S K)
    (hwf0 : WFRanges env.nSpecies st0.range)
    (hinv : LogInv env ident st0 st) (hstep : GStep env st st') :
    LogInv env ident st0 st' := by
  have hb := bookInv_step env hin ident hk st0 st st' hwf0 hinv.book hstep
  obtain ⟨A, B, p, q, r, _, hAB, hB, hne, hp, hq, hpq, hr⟩ := hstep
  have hA : A < env.nSpecies := by omega
  have h2 := (applyPair_fields env.inplace A B p q r st).2.1
  have hlive := hinv.book.live
  have hmem : ∀ C < env.nSpecies, ∀ z, (st.range C).1 ≤ z ∧ z < (st.range C).2 →
      ident (st.mem z) ∈ (liveM st.mem (st.range C)).map ident := by
    intro C _ z hz
    exact Multiset.mem_map.2 ⟨_, mem_liveM.2 ⟨z, hz.1, hz.2, rfl⟩, rfl⟩
  have hmem0 : ∀ C < env.nSpecies, ∀ z, (st.range C).1 ≤ z ∧ z < (st.range C).2 →
      ident (st.mem z) ∈ (liveM st0.mem (st0.range C)).map ident := by
    intro C hC z hz
    rw [← hlive C hC]
    exact Multiset.mem_add.2 (.inl (hmem C hC z hz))
  refine ⟨hb, ?_, ?_⟩
  · intro e he
    rw [h2] at he
    rcases List.mem_append.1 he with he | he
    · exact hinv.valid e he
    · rw [List.mem_singleton] at he
      subst he
      exact ⟨hAB, hB, hpq, hmem0 A hA p hp, hmem0 B hB q hq⟩
  · intro hnd
    rw [h2, List.pairwise_append]
    refine ⟨hinv.pw hnd, by simp, ?_⟩
    intro e he e' he' hprods
    rw [List.mem_singleton] at he'
    subst he'
    simp only
    -- a consumed particle is not live
    have key : ∀ C < env.nSpecies, ∀ z, (st.range C).1 ≤ z ∧ z < (st.range C).2 →
        ident (st.mem z) ≠ ident e.a ∧ ident (st.mem z) ≠ ident e.b := by
      intro C hC z hz
      have hv := hinv.valid e he
      have hcons : ∀ D < env.nSpecies, ∀ x ∈ consumedBy D e, ident (st.mem z) ≠ ident x := by
        intro D hD x hx heq
        have hxD : ident x ∈ (consumedM D st.log).map ident := by
          refine Multiset.mem_map.2 ⟨x, ?_, rfl⟩
          obtain ⟨l1, l2, hl⟩ := List.append_of_mem he
          rw [hl, consumedM]
          simp [hx]
        by_cases hCD : C = D
        · subst hCD
          have hn := (hnd C hC C hC).1
          rw [← hlive C hC, Multiset.nodup_add] at hn
          exact Multiset.disjoint_left.1 hn.2.2 (hmem C hC z hz) (heq ▸ hxD)
        · have hdis := (hnd C hC D hD).2 hCD
          refine Multiset.disjoint_left.1 hdis (hmem0 C hC z hz) ?_
          rw [← hlive D hD, heq]
          exact Multiset.mem_add.2 (.inr hxD)
      have hpe : e.prods.isEmpty = false := by simpa using hprods
      constructor
      · exact hcons e.A (by omega) e.a (by simp [consumedBy, hpe])
      · exact hcons e.B (by omega) e.b (by simp [consumedBy, hpe])
    exact ⟨(key A hA p hp).1, (key A hA p hp).2, (key B hB q hq).1, (key B hB q hq).2⟩

omit [Field K] [LinearOrder K] [FloorRing K] [IsStrictOrderedRing K] in
theorem logInv_run {ι : Type} (env : DriverEnv P S K) (hin : env.inplace = true)
    (ident : P → ι) (hk : InPlaceKeeps env ident)
    (st0 st : DState P S K) (hwf : WFRanges env.nSpecies st0.range) (hf : Fresh st0)
    (hrun : TestsOf env st0 st) : LogInv env ident st0 st := by
  obtain ⟨g, hreach⟩ := hrun
  have h0 : LogInv env ident st0 { st0 with gen := g } := by
    refine ⟨⟨hwf, fun _ => rfl, fun _ => le_rfl, ?_, ?_, ?_, ?_⟩, ?_, ?_⟩
    · intro C _; simp [hf.1, consumedM]
    · simp [hf.2]
    · intro z; simp [hf.2]
    · simp [hf.1, hf.2, consumingCount]
    · simp [hf.1]
    · simp [hf.1]
  induction hreach with
  | refl => exact h0
  | tail _ hstep ih => exact logInv_step env hin ident hk st0 _ _ hwf ih hstep

/-- **C40**  Every pair tested consists of two different positions holding particles that were initially
in the ranges of the two species tested. -/
theorem C40_pairs_are_live {ι : Type} (env : DriverEnv P S K) (hin : env.inplace = true)
    (hv : env.rng.Valid) (ident : P → ι) (hk : InPlaceKeeps env ident) (fi fs : ℕ)
    (st0 st : DState P S K) (hwf : WFRanges env.nSpecies st0.range) (hf : Fresh st0)
    (hrun : driver env fi fs st0 = .ok st) :
    ∀ e ∈ st.log, e.A ≤ e.B ∧ e.B < env.nSpecies ∧ e.p ≠ e.q ∧
      ident e.a ∈ (liveM st0.mem (st0.range e.A)).map ident ∧
      ident e.b ∈ (liveM st0.mem (st0.range e.B)).map ident :=
  (logInv_run env hin ident hk st0 st hwf hf (driver_tests hv hrun)).valid

/-- **C40**  If the particles in the ranges initially have pairwise different identities, then a particle
consumed by a test takes part in no later test of the run. -/
theorem C40_consumed_never_again {ι : Type} (env : DriverEnv P S K) (hin : env.inplace = true)
    (hv : env.rng.Valid) (ident : P → ι) (hk : InPlaceKeeps env ident) (fi fs : ℕ)
    (st0 st : DState P S K) (hwf : WFRanges env.nSpecies st0.range) (hf : Fresh st0)
    (hid : ∀ C < env.nSpecies, ∀ D < env.nSpecies,
      ((liveM st0.mem (st0.range C)).map ident).Nodup ∧
      (C ≠ D → Disjoint ((liveM st0.mem (st0.range C)).map ident)
        ((liveM st0.mem (st0.range D)).map ident)))
    (hrun : driver env fi fs st0 = .ok st) :
    st.log.Pairwise (fun e e' => e.prods ≠ [] →
      (ident e'.a ≠ ident e.a ∧ ident e'.a ≠ ident e.b ∧
       ident e'.b ≠ ident e.a ∧ ident e'.b ≠ ident e.b)) :=
  (logInv_run env hin ident hk st0 st hwf hf (driver_tests hv hrun)).pw hid

/-! ## C41 -/

/-- Each species range holds only particles of that species. -/
def Homogeneous (env : DriverEnv P S K) (st : DState P S K) : Prop :=
  ∀ C < env.nSpecies, ∀ z, (st.range C).1 ≤ z → z < (st.range C).2 → env.species (st.mem z) = C

omit [Field K] [LinearOrder K] [FloorRing K] [IsStrictOrderedRing K] in
theorem TestsOf.homogeneous {env : DriverEnv P S K} (hin : env.inplace = true) (hk : InPlaceKeeps env env.species)
    {st0 st : DState P S K} (hwf : WFRanges env.nSpecies st0.range) (hf : Fresh st0)
    (hom : Homogeneous env st0) (hrun : TestsOf env st0 st) :
    Homogeneous env st ∧ ∀ e ∈ st.log, env.species e.a = e.A ∧ env.species e.b = e.B := by
  have h := logInv_run env hin env.species hk st0 st hwf hf hrun
  have hall : ∀ C < env.nSpecies, ∀ x ∈ (liveM st0.mem (st0.range C)).map env.species, x = C := by
    intro C hC x hx
    obtain ⟨y, hy, rfl⟩ := Multiset.mem_map.1 hx
    obtain ⟨z, hz1, hz2, rfl⟩ := mem_liveM.1 hy
    exact hom C hC z hz1 hz2
  constructor
  · intro C hC z hz1 hz2
    apply hall C hC
    rw [← h.book.live C hC]
    exact Multiset.mem_add.2 (.inl (Multiset.mem_map.2 ⟨_, mem_liveM.2 ⟨z, hz1, hz2, rfl⟩, rfl⟩))
  · intro e he
    have hv := h.valid e he
    exact ⟨hall e.A (by omega) _ hv.2.2.2.1, hall e.B hv.2.1 _ hv.2.2.2.2⟩

/-- **C41**  Homogeneous species ranges stay homogeneous, and every tested pair consists of one particle
of each of the two species tested. -/
theorem C41_homogeneous (env : DriverEnv P S K) (hin : env.inplace = true)
    (hv : env.rng.Valid) (hk : InPlaceKeeps env env.species) (fi fs : ℕ)
    (st0 st : DState P S K) (hwf : WFRanges env.nSpecies st0.range) (hf : Fresh st0)
    (hom : Homogeneous env st0) (hrun : driver env fi fs st0 = .ok st) :
    Homogeneous env st ∧ ∀ e ∈ st.log, env.species e.a = e.A ∧ env.species e.b = e.B :=
  (driver_tests hv hrun).homogeneous hin hk hwf hf hom

/-! ## C42, C43 -/

omit [Field K] [LinearOrder K] [FloorRing K] [IsStrictOrderedRing K] in
theorem TestsOf.outOfPlace {env : DriverEnv P S K} (hout : env.inplace = false) {st0 st : DState P S K}
    (hrun : TestsOf env st0 st) :
    st.mem = st0.mem ∧ st.range = st0.range ∧ st.erased = st0.erased := by
  obtain ⟨g, hreach⟩ := hrun
  induction hreach with
  | refl => exact ⟨rfl, rfl, rfl⟩
  | @tail st1 _ _ hstep ih =>
    obtain ⟨A, B, p, q, r, _, hAB, hB, hne, hp, hq, hpq, hr⟩ := hstep
    have := (applyPair_fields env.inplace A B p q r st1).2.2 hout
    exact ⟨this.1.trans ih.1, this.2.1.trans ih.2.1, this.2.2.trans ih.2.2⟩

/-- **C42**  With out-of-place interactions a driver run changes neither the particles of the cell nor
its ranges, and queues nothing for erasure. -/
theorem C42_out_of_place (env : DriverEnv P S K) (hout : env.inplace = false)
    (hv : env.rng.Valid) (fi fs : ℕ) (st0 st : DState P S K)
    (hrun : driver env fi fs st0 = .ok st) :
    st.mem = st0.mem ∧ st.range = st0.range ∧ st.erased = st0.erased :=
  (driver_tests hv hrun).outOfPlace hout

omit [Field K] [LinearOrder K] [FloorRing K] [IsStrictOrderedRing K] in
theorem TestsOf.pairs {env : DriverEnv P S K} (hout : env.inplace = false) {st0 st : DState P S K}
    (hlog : st0.log = []) (hrun : TestsOf env st0 st) :
    ∀ e ∈ st.log, e.A ≤ e.B ∧ e.B < env.nSpecies ∧ env.rhs e.A e.B ≠ [] ∧ e.p ≠ e.q ∧
      e.a = st0.mem e.p ∧ (st0.range e.A).1 ≤ e.p ∧ e.p < (st0.range e.A).2 ∧
      e.b = st0.mem e.q ∧ (st0.range e.B).1 ≤ e.q ∧ e.q < (st0.range e.B).2 := by
  obtain ⟨g, hreach⟩ := hrun
  have : st.mem = st0.mem ∧ st.range = st0.range ∧
      ∀ e ∈ st.log, e.A ≤ e.B ∧ e.B < env.nSpecies ∧ env.rhs e.A e.B ≠ [] ∧ e.p ≠ e.q ∧
      e.a = st0.mem e.p ∧ (st0.range e.A).1 ≤ e.p ∧ e.p < (st0.range e.A).2 ∧
      e.b = st0.mem e.q ∧ (st0.range e.B).1 ≤ e.q ∧ e.q < (st0.range e.B).2 := by
    induction hreach with
    | refl => exact ⟨rfl, rfl, by simp [hlog]⟩
    | @tail st1 _ _ hstep ih =>
      obtain ⟨A, B, p, q, r, _, hAB, hB, hne, hp, hq, hpq, hr⟩ := hstep
      have h2 := applyPair_fields env.inplace A B p q r st1
      obtain ⟨hm, hr, -⟩ := h2.2.2 hout
      refine ⟨hm.trans ih.1, hr.trans ih.2.1, fun e he => ?_⟩
      rw [h2.2.1, List.mem_append, List.mem_singleton] at he
      rcases he with he | rfl
      · exact ih.2.2 e he
      · rw [ih.2.1] at hp hq
        exact ⟨hAB, hB, hne, hpq, by rw [← ih.1], hp.1, hp.2, by rw [← ih.1], hq.1, hq.2⟩
  exact this.2.2

/-- **C42**  and every reported test is of two different particles of the cell as it was given, one from the range of
each species. -/
theorem C42_pairs (env : DriverEnv P S K) (hout : env.inplace = false)
    (hv : env.rng.Valid) (fi fs : ℕ) (st0 st : DState P S K) (hlog : st0.log = [])
    (hrun : driver env fi fs st0 = .ok st) :
    ∀ e ∈ st.log, e.A ≤ e.B ∧ e.B < env.nSpecies ∧ env.rhs e.A e.B ≠ [] ∧ e.p ≠ e.q ∧
      e.a = st0.mem e.p ∧ (st0.range e.A).1 ≤ e.p ∧ e.p < (st0.range e.A).2 ∧
      e.b = st0.mem e.q ∧ (st0.range e.B).1 ≤ e.q ∧ e.q < (st0.range e.B).2 :=
  (driver_tests hv hrun).pairs hout hlog

omit [Field K] [LinearOrder K] [FloorRing K] [IsStrictOrderedRing K] in
theorem TestsOf.results {env : DriverEnv P S K} {st0 st : DState P S K} (hf : st0.log = [])
    (hrun : TestsOf env st0 st) : st.results = st0.results ++ st.log.flatMap Event.prods := by
  obtain ⟨g, hreach⟩ := hrun
  induction hreach with
  | refl => simp [hf]
  | @tail st1 _ _ hstep ih =>
    obtain ⟨A, B, p, q, r, _, hAB, hB, hne, hp, hq, hpq, hr⟩ := hstep
    have := applyPair_fields env.inplace A B p q r st1
    simp only at this
    rw [this.1, this.2.1, ih]
    simp

/-- **C43**  In either mode the result list only grows, by exactly the products of the reported tests in
order. -/
theorem C43_results_grow (env : DriverEnv P S K) (hv : env.rng.Valid) (fi fs : ℕ)
    (st0 st : DState P S K) (hf : st0.log = []) (hrun : driver env fi fs st0 = .ok st) :
    st.results = st0.results ++ st.log.flatMap Event.prods :=
  (driver_tests hv hrun).results hf

/-! ## C44 -/

omit [IsStrictOrderedRing K] in
private theorem estimateAll_ub (env : DriverEnv P S K) : ∀ (ps : List (ℕ × ℕ)) (st : DState P S K),
    (estimateAll env ps st = .error .ub ↔ ∃ ab ∈ ps, env.rhs ab.1 ab.2 ≠ [] ∧
      (rsize (st.range ab.1) = 0 ∨ rsize (st.range ab.2) = 0)) ∧
    estimateAll env ps st ≠ .error .timeout := by
  intro ps
  induction ps with
  | nil => intro st; simp [estimateAll]
  | cons ab ps ih =>
    intro st
    obtain ⟨A, B⟩ := ab
    by_cases h1 : env.rhs A B = []
    · have hp : estimatePair env st A B = .ok (none, st) := by simp [estimatePair, h1]
      have hi := ih st
      simp only [estimateAll, hp]
      constructor
      · constructor
        · intro h
          cases he : estimateAll env ps st with
          | error e =>
            rw [he] at h
            simp only [Except.error.injEq] at h
            subst h
            obtain ⟨x, hx, hx2⟩ := hi.1.1 he
            exact ⟨x, List.mem_cons_of_mem _ hx, hx2⟩
          | ok r => rw [he] at h; simp at h
        · rintro ⟨x, hx, hx2⟩
          rcases List.mem_cons.1 hx with rfl | hx
          · exact absurd h1 hx2.1
          · rw [hi.1.2 ⟨x, hx, hx2⟩]
      · intro h
        cases he : estimateAll env ps st with
        | error e => rw [he] at h; simp only [Except.error.injEq] at h; subst h; exact hi.2 he
        | ok r => rw [he] at h; simp at h
    · by_cases h2 : rsize (st.range A) = 0 ∨ rsize (st.range B) = 0
      · have hp : estimatePair env st A B = .error .ub := by simp [estimatePair, h1, h2]
        simp only [estimateAll, hp]
        exact ⟨⟨fun _ => ⟨(A, B), by simp, h1, h2⟩, fun _ => trivial⟩, by simp⟩
      · obtain ⟨d, g, hp⟩ : ∃ d g, estimatePair env st A B = .ok (d, { st with gen := g }) := by
          simp only [estimatePair, List.length_eq_zero_iff, h1, h2, if_false]
          exact ⟨_, _, rfl⟩
        have hi := ih { st with gen := g }
        simp only [estimateAll, hp]
        simp only at hi
        constructor
        · constructor
          · intro h
            cases he : estimateAll env ps { st with gen := g } with
            | error e =>
              rw [he] at h
              simp only [Except.error.injEq] at h
              subst h
              obtain ⟨x, hx, hx2⟩ := hi.1.1 he
              exact ⟨x, List.mem_cons_of_mem _ hx, hx2⟩
            | ok r => rw [he] at h; simp at h
          · rintro ⟨x, hx, hx2⟩
            rcases List.mem_cons.1 hx with rfl | hx
            · exact absurd hx2.2 h2
            · rw [hi.1.2 ⟨x, hx, hx2⟩]
        · intro h
          cases he : estimateAll env ps { st with gen := g } with
          | error e => rw [he] at h; simp only [Except.error.injEq] at h; subst h; exact hi.2 he
          | ok r => rw [he] at h; simp at h

omit [IsStrictOrderedRing K] in
theorem estimateAll_not_timeout (env : DriverEnv P S K) (ps : List (ℕ × ℕ)) (st : DState P S K) :
    estimateAll env ps st ≠ .error .timeout := (estimateAll_ub env ps st).2

omit [IsStrictOrderedRing K] in
private theorem collideAll_not_ub (env : DriverEnv P S K) (fi fs : ℕ) :
    ∀ (ds : List ((ℕ × ℕ) × Option (TestData K))) (st : DState P S K),
    collideAll env fi fs ds st ≠ .error .ub := by
  have hl : ∀ (A B : ℕ) (m : K) (f : ℕ) (nt : K) (st : DState P S K),
      testLoop env fs A B m f nt st ≠ .error .ub := by
    intro A B m f
    induction f with
    | zero => intro nt st; simp only [testLoop]; split <;> simp
    | succ f ih =>
      intro nt st
      simp only [testLoop]
      split
      · split
        · simp
        · split
          · simp
          · exact ih _ _
      · simp
  intro ds
  induction ds with
  | nil => intro st; simp [collideAll]
  | cons d ds ih =>
    intro st
    obtain ⟨⟨A, B⟩, o⟩ := d
    cases o with
    | none => simp only [collideAll]; exact ih st
    | some td =>
      simp only [collideAll]
      cases ht : testLoop env fs A B td.maxSV fi td.numberTests st with
      | error e =>
        intro h
        simp only [Except.error.injEq] at h
        subst h
        exact hl _ _ _ _ _ _ ht
      | ok st1 => exact ih st1

omit [IsStrictOrderedRing K] in
/-- **C44**  The driver reads the weight of a particle that does not exist exactly when some species pair
has interactions while one of the two species has no particle in the cell. -/
theorem C44_empty_species_ub_iff (env : DriverEnv P S K) (fi fs : ℕ) (st : DState P S K) :
    driver env fi fs st = .error .ub ↔
      ∃ A B, A ≤ B ∧ B < env.nSpecies ∧ env.rhs A B ≠ [] ∧
        (rsize (st.range A) = 0 ∨ rsize (st.range B) = 0) := by
  have h1 := estimateAll_ub env (speciesPairs env.nSpecies) st
  have h2 : estimateAll env (speciesPairs env.nSpecies) st = .error .ub ↔
      ∃ A B, A ≤ B ∧ B < env.nSpecies ∧ env.rhs A B ≠ [] ∧
        (rsize (st.range A) = 0 ∨ rsize (st.range B) = 0) := by
    rw [h1.1]
    constructor
    · rintro ⟨⟨A, B⟩, hab, h3, h4⟩
      have := (mem_speciesPairs _ _ _).1 hab
      exact ⟨A, B, this.1, this.2, h3, h4⟩
    · rintro ⟨A, B, h5, h6, h3, h4⟩
      exact ⟨(A, B), (mem_speciesPairs _ _ _).2 ⟨h5, h6⟩, h3, h4⟩
  rw [← h2]
  simp only [driver]
  cases he : estimateAll env (speciesPairs env.nSpecies) st with
  | error e => simp
  | ok r =>
    simp only [reduceCtorEq, iff_false]
    exact collideAll_not_ub env fi fs _ _

end Chimp
