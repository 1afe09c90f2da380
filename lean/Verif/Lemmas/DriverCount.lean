import Verif.Lemmas.Driver
import Mathlib.Tactic.Linarith

/-!
# Lemmas on the number of tests and on termination of the driver
-/

namespace Chimp

variable {P S K : Type} [Field K] [LinearOrder K]

/-- A pair test keeps ranges well formed, keeps their beginnings and never extends them. -/
theorem TestStep.range_shrinks {env : DriverEnv P S K} {st st' : DState P S K}
    (h : TestStep env st st') (hwf : WFRanges env.nSpecies st.range) :
    WFRanges env.nSpecies st'.range ∧ (∀ C, (st'.range C).1 = (st.range C).1) ∧
      ∀ C, (st'.range C).2 ≤ (st.range C).2 := by
  obtain ⟨A, B, m, p, q, g, _, hAB, hB, hne, hp, hq, hpq⟩ := h
  cases hin : env.inplace with
  | false =>
    have h2 := (pairTest_fields env A B m p q { st with gen := g }).2.2 hin
    simp only at h2
    rw [h2.2.1]
    exact ⟨hwf, fun _ => rfl, fun _ => le_rfl⟩
  | true =>
    have hA : A < env.nSpecies := by omega
    have h1 := pairTest_inplace env hin env.nSpecies A B m p q { st with gen := g } hwf hA hB hp hq hpq
    simp only at h1
    generalize setInteract env (env.rhs A B) m (st.mem p) (st.mem q) g = r at h1
    by_cases hprod : r.2.2.2.1 = []
    · obtain ⟨hr, -, -⟩ := h1.1 hprod
      rw [hr]
      exact ⟨hwf, fun _ => rfl, fun _ => le_rfl⟩
    · obtain ⟨hr, -, -⟩ := h1.2 hprod
      have hle : ∀ C, ((pairTest env A B m p q { st with gen := g }).range C).2 ≤ (st.range C).2 := by
        intro C; rw [hr]; simp
      have hlo : ∀ C, ((pairTest env A B m p q { st with gen := g }).range C).1 = (st.range C).1 := by
        intro C; rw [hr]
      refine ⟨⟨?_, ?_⟩, hlo, hle⟩
      · intro C hC
        rw [hr]
        simp only
        by_cases hEA : C = A <;> by_cases hEB : C = B
        · subst hEA; subst hEB; simp only [if_true]; omega
        · subst hEA; simp only [hEB, if_true, if_false]; omega
        · subst hEB; simp only [hEA, if_true, if_false]; omega
        · simp only [hEA, hEB, if_false]; have := hwf.le C hC; omega
      · intro C hC D hD hCD z hzz
        have a1 := hle C; have a2 := hle D; have a3 := hlo C; have a4 := hlo D
        exact hwf.disj C hC D hD hCD z ⟨⟨by omega, by omega⟩, ⟨by omega, by omega⟩⟩

theorem reach_range_shrinks {env : DriverEnv P S K} {st st' : DState P S K}
    (h : Relation.ReflTransGen (TestStep env) st st') (hwf : WFRanges env.nSpecies st.range) :
    WFRanges env.nSpecies st'.range ∧ (∀ C, (st'.range C).1 = (st.range C).1) ∧
      ∀ C, (st'.range C).2 ≤ (st.range C).2 := by
  induction h with
  | refl => exact ⟨hwf, fun _ => rfl, fun _ => le_rfl⟩
  | tail _ hs ih =>
    have := hs.range_shrinks ih.1
    exact ⟨this.1, fun C => (this.2.1 C).trans (ih.2.1 C), fun C => (this.2.2 C).trans (ih.2.2 C)⟩

omit [Field K] [LinearOrder K] in
theorem notEnough_mono {st st' : DState P S K} {A B : ℕ}
    (hlo : ∀ C, (st'.range C).1 = (st.range C).1) (hhi : ∀ C, (st'.range C).2 ≤ (st.range C).2)
    (h : notEnough st A B = true) : notEnough st' A B = true := by
  have hA := hlo A; have hB := hlo B; have hA' := hhi A; have hB' := hhi B
  simp only [notEnough, Bool.or_eq_true, Bool.and_eq_true, beq_iff_eq, decide_eq_true_eq] at h ⊢
  simp only [rsize] at h ⊢
  rcases h with h | h | h
  · exact .inl ⟨h.1, by omega⟩
  · exact .inr (.inl (by omega))
  · exact .inr (.inr (by omega))

variable [FloorRing K]

/-! ### Fuel -/

theorem selectB_mono (rng : RNG S K) (lo sz pA : ℕ) : ∀ (f f' : ℕ) (s : S) (r : ℕ × S),
    f ≤ f' → selectB rng lo sz pA f s = some r → selectB rng lo sz pA f' s = some r := by
  intro f
  induction f with
  | zero => intro f' s r _ h; simp [selectB] at h
  | succ f ih =>
    intro f' s r hle h
    obtain ⟨g, rfl⟩ : ∃ g, f' = g + 1 := ⟨f' - 1, by omega⟩
    simp only [selectB] at h ⊢
    split at h
    · rename_i hh
      rw [if_pos hh]
      exact ih g _ _ (by omega) h
    · rename_i hh
      rw [if_neg hh]
      exact h

theorem selectRandomPair_mono (rng : RNG S K) (al : Bool) (f f' : ℕ) (a b : ℕ × ℕ) (s : S)
    (r : ℕ × ℕ × S) (hle : f ≤ f') (h : selectRandomPair rng al f a b s = some r) :
    selectRandomPair rng al f' a b s = some r := by
  cases al with
  | true => exact h
  | false =>
    simp only [selectRandomPair, Bool.false_eq_true, if_false] at h ⊢
    split at h
    · cases h
    · rename_i heq
      rw [selectB_mono rng _ _ _ f f' _ _ hle heq]
      exact h

theorem testLoop_mono (env : DriverEnv P S K) (fs fs' A B : ℕ) (m : K) (hfs : fs ≤ fs') :
    ∀ (fi fi' : ℕ) (nt : K) (st st' : DState P S K), fi ≤ fi' →
      testLoop env fs A B m fi nt st = .ok st' → testLoop env fs' A B m fi' nt st = .ok st' := by
  intro fi
  induction fi with
  | zero =>
    intro fi' nt st st' _ h
    simp only [testLoop] at h
    split at h
    · cases h
    · rename_i hn
      cases fi' with
      | zero => simpa only [testLoop, if_neg hn] using h
      | succ f => simpa only [testLoop, if_neg hn] using h
  | succ f ih =>
    intro fi' nt st st' hle h
    obtain ⟨g, rfl⟩ : ∃ g, fi' = g + 1 := ⟨fi' - 1, by omega⟩
    simp only [testLoop] at h ⊢
    by_cases hn : nt > 1
    · rw [if_pos hn] at h ⊢
      by_cases hne : notEnough st A B = true
      · rw [if_pos hne] at h ⊢; exact h
      · rw [if_neg hne] at h ⊢
        cases hs : selectRandomPair env.rng false fs (st.range A) (st.range B) st.gen with
        | none => rw [hs] at h; cases h
        | some r =>
          rw [hs] at h
          rw [selectRandomPair_mono env.rng false fs fs' _ _ _ _ hfs hs]
          exact ih g _ _ _ (by omega) h
    · rw [if_neg hn] at h ⊢; exact h

theorem collideAll_mono (env : DriverEnv P S K) (fi fi' fs fs' : ℕ) (hfi : fi ≤ fi')
    (hfs : fs ≤ fs') : ∀ (ds : List ((ℕ × ℕ) × Option (TestData K))) (st st' : DState P S K),
    collideAll env fi fs ds st = .ok st' → collideAll env fi' fs' ds st = .ok st' := by
  intro ds
  induction ds with
  | nil => intro st st' h; exact h
  | cons d ds ih =>
    intro st st' h
    obtain ⟨⟨A, B⟩, o⟩ := d
    cases o with
    | none => exact ih st st' h
    | some td =>
      simp only [collideAll] at h ⊢
      cases ht : testLoop env fs A B td.maxSV fi td.numberTests st with
      | error e => rw [ht] at h; cases h
      | ok st1 =>
        rw [ht] at h
        rw [testLoop_mono env fs fs' A B _ hfs fi fi' _ _ _ hfi ht]
        exact ih _ _ h

theorem driver_mono (env : DriverEnv P S K) (fi fi' fs fs' : ℕ) (hfi : fi ≤ fi')
    (hfs : fs ≤ fs') (st st' : DState P S K) (h : driver env fi fs st = .ok st') :
    driver env fi' fs' st = .ok st' := by
  simp only [driver] at h ⊢
  split at h
  · cases h
  · rename_i he
    exact collideAll_mono env fi fi' fs fs' hfi hfs _ _ _ h

variable [IsStrictOrderedRing K]

/-! ### Number of iterations -/

/-- Iterations of `while (x > 1) x -= 1`. -/
def loopCount (x : K) : ℕ := (⌈x⌉ - 1).toNat

omit [IsStrictOrderedRing K] in
theorem loopCount_of_le {x : K} (h : ¬ x > 1) : loopCount x = 0 := by
  have : ⌈x⌉ ≤ 1 := Int.ceil_le.2 (by push_cast; exact le_of_not_gt h)
  unfold loopCount; omega

theorem loopCount_succ {x : K} (h : x > 1) : loopCount x = loopCount (x - 1) + 1 := by
  have h1 : ⌈x - 1⌉ = ⌈x⌉ - 1 := by
    have := Int.ceil_sub_intCast x 1
    push_cast at this; exact this
  have h2 : 1 < ⌈x⌉ := Int.lt_ceil.2 (by push_cast; exact h)
  unfold loopCount; rw [h1]; omega

theorem testLoop_count (env : DriverEnv P S K) (fs A B : ℕ) (m : K) :
    ∀ (fi : ℕ) (nt : K) (st st' : DState P S K), testLoop env fs A B m fi nt st = .ok st' →
      ∃ evs, st'.log = st.log ++ evs ∧ (∀ e ∈ evs, e.A = A ∧ e.B = B) ∧
        evs.length ≤ loopCount nt ∧ (evs.length = loopCount nt ∨ notEnough st' A B = true) := by
  intro fi
  induction fi with
  | zero =>
    intro nt st st' h
    simp only [testLoop] at h
    split at h
    · cases h
    · rename_i hn
      cases h
      exact ⟨[], by simp, by simp, by simp, .inl (by rw [loopCount_of_le hn]; rfl)⟩
  | succ f ih =>
    intro nt st st' h
    simp only [testLoop] at h
    by_cases hn : nt > 1
    · rw [if_pos hn] at h
      by_cases hne : notEnough st A B = true
      · rw [if_pos hne] at h
        cases h
        exact ⟨[], by simp, by simp, by simp, .inr hne⟩
      · rw [if_neg hne] at h
        cases hs : selectRandomPair env.rng false fs (st.range A) (st.range B) st.gen with
        | none => rw [hs] at h; cases h
        | some r =>
          rw [hs] at h
          obtain ⟨evs, he1, he2, he3, he4⟩ := ih _ _ _ h
          have hl := (pairTest_fields env A B m r.1 r.2.1 { st with gen := r.2.2 }).2.1
          simp only at hl
          rw [hl, List.append_assoc] at he1
          refine ⟨_, he1, ?_, ?_, ?_⟩
          · intro e he
            rcases List.mem_append.1 he with he | he
            · rw [List.mem_singleton] at he; subst he; exact ⟨rfl, rfl⟩
            · exact he2 e he
          · rw [loopCount_succ hn]; simp; omega
          · rw [loopCount_succ hn]
            rcases he4 with he4 | he4
            · left; simp; omega
            · exact .inr he4
    · rw [if_neg hn] at h
      cases h
      exact ⟨[], by simp, by simp, by simp, .inl (by rw [loopCount_of_le hn]; rfl)⟩

omit [IsStrictOrderedRing K] in
/-- The data of the first double loop. -/
theorem estimateAll_data (env : DriverEnv P S K) : ∀ (ps : List (ℕ × ℕ)) (st : DState P S K)
    (ds : List ((ℕ × ℕ) × Option (TestData K))) (st' : DState P S K),
    estimateAll env ps st = .ok (ds, st') →
    ∀ A B td, ((A, B), some td) ∈ ds → ∃ g,
      td.maxSV = findMaxSigmaVProduct ((env.rhs A B).map Eqn.maxSigmaV) (env.maxRelVel A B) ∧
      td.numberTests = promote (estimateTests (env.weight (st.mem (st.range A).1))
        (env.weight (st.mem (st.range B).1))
        (rsize (st.range A)) (rsize (st.range B)) env.dt td.maxSV env.volume (A == B))
        (env.rng.rand g).1 := by
  intro ps
  induction ps with
  | nil =>
    intro st ds st' h A B td hm
    simp only [estimateAll, Except.ok.injEq, Prod.mk.injEq] at h
    rw [← h.1] at hm; simp at hm
  | cons ab ps ih =>
    intro st ds st' h A B td hm
    obtain ⟨A', B'⟩ := ab
    simp only [estimateAll] at h
    cases hp : estimatePair env st A' B' with
    | error e => rw [hp] at h; cases h
    | ok r =>
      rw [hp] at h
      simp only at h
      have hst1 : ∃ g, r.2 = { st with gen := g } ∧ ∀ td, r.1 = some td →
          ∃ g, td.maxSV = findMaxSigmaVProduct ((env.rhs A' B').map Eqn.maxSigmaV)
            (env.maxRelVel A' B') ∧
          td.numberTests = promote (estimateTests (env.weight (st.mem (st.range A').1))
          (env.weight (st.mem (st.range B').1))
          (rsize (st.range A')) (rsize (st.range B')) env.dt td.maxSV env.volume (A' == B'))
          (env.rng.rand g).1 := by
        simp only [estimatePair] at hp
        split at hp
        · cases hp; exact ⟨st.gen, rfl, by intro td h; cases h⟩
        · split at hp
          · cases hp
          · cases hp
            refine ⟨_, rfl, ?_⟩
            intro td h
            cases h
            exact ⟨st.gen, rfl, rfl⟩
      obtain ⟨g, hr2, hr1⟩ := hst1
      cases he : estimateAll env ps r.2 with
      | error e => rw [he] at h; cases h
      | ok r' =>
        rw [he] at h
        simp only [Except.ok.injEq, Prod.mk.injEq] at h
        rw [← h.1] at hm
        rcases List.mem_cons.1 hm with hm | hm
        · simp only [Prod.mk.injEq] at hm
          obtain ⟨⟨rfl, rfl⟩, hm'⟩ := hm
          exact hr1 td hm'.symm
        · have := ih r.2 r'.1 r'.2 he A B td hm
          rw [hr2] at this
          exact this

theorem nodup_speciesPairs (n : ℕ) : (speciesPairs n).Nodup := by
  unfold speciesPairs
  rw [List.nodup_flatMap]
  constructor
  · intro A _
    refine List.Nodup.map ?_ List.nodup_range'
    intro x y h; simpa using h
  · refine List.Nodup.pairwise_of_forall_ne List.nodup_range ?_
    intro A _ B _ hAB x hx hy
    simp only [List.mem_map] at hx hy
    obtain ⟨a, _, rfl⟩ := hx
    obtain ⟨b, _, h⟩ := hy
    simp only [Prod.mk.injEq] at h
    exact hAB h.1.symm

theorem collideAll_count (env : DriverEnv P S K) (hv : env.rng.Valid) (fi fs : ℕ) :
    ∀ (ds : List ((ℕ × ℕ) × Option (TestData K))) (st st' : DState P S K),
    WFRanges env.nSpecies st.range →
    (∀ d ∈ ds, d.1.1 ≤ d.1.2 ∧ d.1.2 < env.nSpecies ∧
      (d.2 = none ↔ env.rhs d.1.1 d.1.2 = [])) → (ds.map Prod.fst).Nodup →
    collideAll env fi fs ds st = .ok st' →
    ∃ evs, st'.log = st.log ++ evs ∧ (∀ e ∈ evs, ∃ td, ((e.A, e.B), some td) ∈ ds) ∧
      ∀ A B td, ((A, B), some td) ∈ ds →
        let k := (evs.filter (fun e => e.A == A && e.B == B)).length
        k ≤ loopCount td.numberTests ∧ (k = loopCount td.numberTests ∨ notEnough st' A B = true) := by
  intro ds
  induction ds with
  | nil =>
    intro st st' _ _ _ h
    simp only [collideAll, Except.ok.injEq] at h
    subst h
    exact ⟨[], by simp, by simp, by simp⟩
  | cons d ds ih =>
    intro st st' hwf hd hnd h
    obtain ⟨⟨A', B'⟩, o⟩ := d
    rw [List.map_cons, List.nodup_cons] at hnd
    have hd' : ∀ d ∈ ds, d.1.1 ≤ d.1.2 ∧ d.1.2 < env.nSpecies ∧
      (d.2 = none ↔ env.rhs d.1.1 d.1.2 = []) := fun d hm => hd d (List.mem_cons_of_mem _ hm)
    cases o with
    | none =>
      obtain ⟨evs, h1, h2, h3⟩ := ih st st' hwf hd' hnd.2 h
      refine ⟨evs, h1, ?_, ?_⟩
      · intro e he; obtain ⟨td, h⟩ := h2 e he; exact ⟨td, List.mem_cons_of_mem _ h⟩
      · intro A B td hm
        rcases List.mem_cons.1 hm with hm | hm
        · simp at hm
        · exact h3 A B td hm
    | some td0 =>
      simp only [collideAll] at h
      cases ht : testLoop env fs A' B' td0.maxSV fi td0.numberTests st with
      | error e => rw [ht] at h; cases h
      | ok st1 =>
        rw [ht] at h
        have hh := hd _ List.mem_cons_self
        simp only at hh
        have hne : env.rhs A' B' ≠ [] := by
          intro hc; exact absurd (hh.2.2.2 hc) (by simp)
        have hr1 := testLoop_reach env hv fs A' B' td0.maxSV hh.1 hh.2.1 hne _ _ _ _ ht
        have hs1 := reach_range_shrinks hr1 hwf
        have hr2 := collideAll_reach env hv fi fs ds st1 st' hd' h
        have hs2 := reach_range_shrinks hr2 hs1.1
        obtain ⟨ev1, c1, c2, c3, c4⟩ := testLoop_count env fs A' B' td0.maxSV fi _ _ _ ht
        obtain ⟨ev2, h1, h2, h3⟩ := ih st1 st' hs1.1 hd' hnd.2 h
        refine ⟨ev1 ++ ev2, by rw [h1, c1, List.append_assoc], ?_, ?_⟩
        · intro e he
          rcases List.mem_append.1 he with he | he
          · obtain ⟨rfl, rfl⟩ := c2 e he
            exact ⟨td0, List.mem_cons_self⟩
          · obtain ⟨td, h⟩ := h2 e he; exact ⟨td, List.mem_cons_of_mem _ h⟩
        · intro A B td hm
          rcases List.mem_cons.1 hm with hm | hm
          · simp only [Prod.mk.injEq, Option.some.injEq] at hm
            obtain ⟨⟨rfl, rfl⟩, rfl⟩ := hm
            have e1 : ev1.filter (fun e => e.A == A && e.B == B) = ev1 := by
              rw [List.filter_eq_self]
              intro e he; simp [c2 e he]
            have e2 : ev2.filter (fun e => e.A == A && e.B == B) = [] := by
              rw [List.filter_eq_nil_iff]
              intro e he hc
              obtain ⟨td', hm'⟩ := h2 e he
              simp only [Bool.and_eq_true, beq_iff_eq] at hc
              rw [hc.1, hc.2] at hm'
              exact hnd.1 (List.mem_map.2 ⟨_, hm', rfl⟩)
            simp only [List.filter_append, e1, e2, List.append_nil]
            refine ⟨c3, c4.imp_right fun hc => notEnough_mono hs2.2.1 hs2.2.2 hc⟩
          · have hne' : (A, B) ≠ (A', B') := by
              rintro hc
              exact hnd.1 (hc ▸ List.mem_map.2 ⟨_, hm, rfl⟩)
            have e1 : ev1.filter (fun e => e.A == A && e.B == B) = [] := by
              rw [List.filter_eq_nil_iff]
              intro e he hc
              simp only [Bool.and_eq_true, beq_iff_eq] at hc
              apply hne'
              rw [← hc.1, ← hc.2, (c2 e he).1, (c2 e he).2]
            simp only [List.filter_append, e1, List.nil_append]
            exact h3 A B td hm

/-! ### Termination -/

/-- The `j`-th exclusive draw from state `s` if only exclusive draws are made. -/
def RNG.excDraw (rng : RNG S K) (s : S) (j : ℕ) : K :=
  (rng.randExc ((fun s => (rng.randExc s).2)^[j] s)).1

omit [IsStrictOrderedRing K] in
theorem selectB_some_of_draw (rng : RNG S K) (lo sz pA : ℕ) : ∀ (j : ℕ) (s : S),
    pickPos lo sz (rng.excDraw s j) ≠ pA → ∃ r, selectB rng lo sz pA (j + 1) s = some r := by
  intro j
  induction j with
  | zero =>
    intro s h
    simp only [RNG.excDraw, Function.iterate_zero, id] at h
    simp only [selectB]
    rw [if_neg (fun hc => h hc.symm)]
    exact ⟨_, rfl⟩
  | succ j ih =>
    intro s h
    by_cases hc : pA = pickPos lo sz (rng.randExc s).1
    · have : pickPos lo sz (rng.excDraw (rng.randExc s).2 j) ≠ pA := by
        simpa only [RNG.excDraw, Function.iterate_succ, Function.comp] using h
      obtain ⟨r, hr⟩ := ih _ this
      refine ⟨r, ?_⟩
      rw [selectB]
      simp only
      rw [if_pos hc]
      exact hr
    · refine ⟨(pickPos lo sz (rng.randExc s).1, (rng.randExc s).2), ?_⟩
      rw [selectB]
      simp only
      rw [if_neg hc]

omit [IsStrictOrderedRing K] in
theorem selectB_none_iff (rng : RNG S K) (lo sz pA : ℕ) : ∀ (f : ℕ) (s : S),
    selectB rng lo sz pA f s = none ↔ ∀ j < f, pickPos lo sz (rng.excDraw s j) = pA := by
  intro f
  induction f with
  | zero => intro s; simp [selectB]
  | succ f ih =>
    intro s
    rw [selectB]
    simp only
    by_cases hc : pA = pickPos lo sz (rng.randExc s).1
    · rw [if_pos hc]
      rw [ih]
      constructor
      · intro h j hj
        cases j with
        | zero => simpa only [RNG.excDraw, Function.iterate_zero, id] using hc.symm
        | succ j =>
          simpa only [RNG.excDraw, Function.iterate_succ, Function.comp] using h j (by omega)
      · intro h j hj
        have := h (j + 1) (by omega)
        simpa only [RNG.excDraw, Function.iterate_succ, Function.comp] using this
    · rw [if_neg hc]
      simp only [reduceCtorEq, false_iff]
      intro h
      exact hc (h 0 (by omega)).symm

end Chimp
