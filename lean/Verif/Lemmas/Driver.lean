import Verif.Model.Driver
import Verif.Lemmas.OutPath
import Mathlib.Order.Interval.Finset.Nat
import Mathlib.Algebra.BigOperators.Group.Finset.Basic
import Mathlib.Algebra.BigOperators.Group.Multiset.Basic
import Mathlib.Algebra.Order.Floor.Ring
import Mathlib.Logic.Relation

namespace Chimp

/-- Particles currently in a range, as a multiset. -/
def liveM {P : Type} (mem : ℕ → P) (r : ℕ × ℕ) : Multiset P := (Finset.Ico r.1 r.2).val.map mem

section live
variable {P : Type}

theorem mem_liveM {mem : ℕ → P} {r : ℕ × ℕ} {x : P} :
    x ∈ liveM mem r ↔ ∃ p, r.1 ≤ p ∧ p < r.2 ∧ mem p = x := by
  simp [liveM, and_assoc]

theorem liveM_update_of_notMem (mem : ℕ → P) (r : ℕ × ℕ) (p : ℕ) (x : P)
    (h : ¬ (r.1 ≤ p ∧ p < r.2)) : liveM (Function.update mem p x) r = liveM mem r := by
  unfold liveM
  refine Multiset.map_congr rfl ?_
  intro y hy
  rw [Function.update_of_ne]
  rintro rfl
  exact h (by simpa using hy)

private theorem val_erase (s : Finset ℕ) (p : ℕ) (h : p ∈ s) : s.val = p ::ₘ (s.erase p).val := by
  rw [Finset.erase_val]; exact (Multiset.cons_erase h).symm

theorem liveM_update (mem : ℕ → P) (r : ℕ × ℕ) (p : ℕ) (x : P) (h : r.1 ≤ p ∧ p < r.2) :
    liveM (Function.update mem p x) r + {mem p} = liveM mem r + {x} := by
  unfold liveM
  have hp : p ∈ Finset.Ico r.1 r.2 := by simpa using h
  rw [val_erase _ p hp, Multiset.map_cons, Multiset.map_cons, Function.update_self]
  have : Multiset.map (Function.update mem p x) ((Finset.Ico r.1 r.2).erase p).val =
      Multiset.map mem ((Finset.Ico r.1 r.2).erase p).val := by
    refine Multiset.map_congr rfl ?_
    intro y hy
    rw [Function.update_of_ne]
    rintro rfl
    rw [Finset.mem_val] at hy
    exact Finset.notMem_erase y (Finset.Ico r.1 r.2) hy
  rw [this]
  rw [← Multiset.singleton_add, ← Multiset.singleton_add]
  abel

theorem liveM_pop (mem : ℕ → P) (r : ℕ × ℕ) (h : r.1 < r.2) :
    liveM mem r = liveM mem (r.1, r.2 - 1) + {mem (r.2 - 1)} := by
  unfold liveM
  have hp : r.2 - 1 ∈ Finset.Ico r.1 r.2 := by simp; omega
  have he : (Finset.Ico r.1 r.2).erase (r.2 - 1) = Finset.Ico r.1 (r.2 - 1) := by
    ext y; simp; omega
  rw [val_erase _ _ hp, he, Multiset.map_cons, ← Multiset.singleton_add, add_comm]

/-- Removing one element by moving the last one up. -/
theorem liveM_swap_remove (mem : ℕ → P) (r : ℕ × ℕ) (p : ℕ) (h : r.1 ≤ p ∧ p < r.2) :
    liveM (Function.update mem p (mem (r.2 - 1))) (r.1, r.2 - 1) + {mem p} = liveM mem r := by
  by_cases hp : p = r.2 - 1
  · subst hp
    rw [Function.update_eq_self, liveM_pop mem r (by omega)]
  · have h1 := liveM_update mem (r.1, r.2 - 1) p (mem (r.2 - 1)) ⟨h.1, by simp; omega⟩
    rw [h1, ← liveM_pop mem r (by omega)]

end live

variable {P S K : Type}

/-- A well-formed cell: species ranges are proper and do not overlap. -/
structure WFRanges (n : ℕ) (range : ℕ → ℕ × ℕ) : Prop where
  le : ∀ A < n, (range A).1 ≤ (range A).2
  disj : ∀ A < n, ∀ B < n, A ≠ B → ∀ p, ¬ (((range A).1 ≤ p ∧ p < (range A).2) ∧
    ((range B).1 ≤ p ∧ p < (range B).2))

section
variable [Field K] [LinearOrder K] [FloorRing K]

omit [Field K] [LinearOrder K] [FloorRing K] in
/-- What a consuming `driverRetval` does to ranges and memory, per species. -/
theorem driverRetval_consume (n : ℕ) (A B p q : ℕ) (pf : ℤ) (st : DState P S K)
    (hwf : WFRanges n st.range) (hA : A < n) (hB : B < n)
    (hp : (st.range A).1 ≤ p ∧ p < (st.range A).2) (hq : (st.range B).1 ≤ q ∧ q < (st.range B).2)
    (hpq : p ≠ q) (hpf : ¬ pf < 0) :
    let st' := driverRetval true pf true A B p q st
    (∀ C, st'.range C = ((st.range C).1, (st.range C).2 - ((if C = A then 1 else 0) +
        (if C = B then 1 else 0)))) ∧
    (∀ C < n, liveM st'.mem (st'.range C) + (if C = A then {st.mem p} else 0) +
        (if C = B then {st.mem q} else 0) = liveM st.mem (st.range C)) ∧
    (∃ x y, st'.erased = st.erased ++ [x, y] ∧ x ≠ y ∧
      ∀ z, (z = x ∨ z = y) ↔ ∃ C < n, (st'.range C).2 ≤ z ∧ z < (st.range C).2) ∧
    st'.results = st.results ∧ st'.log = st.log ∧ st'.gen = st.gen := by
  simp only
  by_cases hAB : A = B
  · subst hAB
    by_cases hlast : q = (st.range A).2 - 1
    · -- second particle is the last one
      have hst : driverRetval true pf true A A p q st =
          { st with
            mem := Function.update st.mem p (st.mem ((st.range A).2 - 1 - 1))
            range := Function.update st.range A ((st.range A).1, (st.range A).2 - 1 - 1)
            erased := st.erased ++ [(st.range A).2 - 1, (st.range A).2 - 1 - 1] } := by
        unfold driverRetval
        rw [if_neg (by simp; omega)]
        simp only [hlast, if_true]
      rw [hst]
      simp only
      have hsz : (st.range A).1 + 2 ≤ (st.range A).2 := by omega
      refine ⟨?_, ?_, ⟨_, _, rfl, by omega, ?_⟩, trivial, trivial, trivial⟩
      · intro C
        by_cases hC : C = A
        · subst hC; simp; omega
        · rw [Function.update_of_ne hC]; simp [hC]
      · intro C hCn
        by_cases hC : C = A
        · subst hC
          simp only [Function.update_self, if_true]
          have h1 := liveM_swap_remove st.mem ((st.range C).1, (st.range C).2 - 1) p
            ⟨hp.1, by simp; omega⟩
          simp only at h1
          rw [h1, hlast]
          exact (liveM_pop st.mem (st.range C) (by omega)).symm
        · simp only [hC, if_false, add_zero]
          rw [Function.update_of_ne hC]
          exact liveM_update_of_notMem _ _ _ _
            (fun h => hwf.disj A hA C hCn (Ne.symm hC) p ⟨hp, h⟩)
      · intro z
        constructor
        · intro h
          exact ⟨A, hA, by simp; omega, by omega⟩
        · rintro ⟨C, hC, h1, h2⟩
          by_cases hCA : C = A
          · subst hCA; simp at h1; omega
          · rw [Function.update_of_ne hCA] at h1; omega
    · -- general case, same species
      have hst : driverRetval true pf true A A p q st =
          { st with
            mem := Function.update (Function.update st.mem p (st.mem ((st.range A).2 - 1))) q
              (Function.update st.mem p (st.mem ((st.range A).2 - 1)) ((st.range A).2 - 1 - 1))
            range := Function.update st.range A ((st.range A).1, (st.range A).2 - 1 - 1)
            erased := st.erased ++ [(st.range A).2 - 1, (st.range A).2 - 1 - 1] } := by
        unfold driverRetval
        rw [if_neg (by simp; omega)]
        simp only [hlast, if_false, Function.update_self, Function.update_idem]
      rw [hst]
      simp only
      have hsz : (st.range A).1 + 2 ≤ (st.range A).2 := by omega
      refine ⟨?_, ?_, ⟨_, _, rfl, by omega, ?_⟩, trivial, trivial, trivial⟩
      · intro C
        by_cases hC : C = A
        · subst hC; simp; omega
        · rw [Function.update_of_ne hC]; simp [hC]
      · intro C hCn
        by_cases hC : C = A
        · subst hC
          simp only [Function.update_self, if_true]
          have h1 := liveM_swap_remove st.mem (st.range C) p hp
          have h2 := liveM_swap_remove (Function.update st.mem p (st.mem ((st.range C).2 - 1)))
            ((st.range C).1, (st.range C).2 - 1) q ⟨hq.1, by simp; omega⟩
          simp only at h2
          rw [Function.update_of_ne (Ne.symm hpq)] at h2
          rw [← h1, ← h2]
          abel
        · simp only [hC, if_false, add_zero]
          rw [Function.update_of_ne hC]
          rw [liveM_update_of_notMem _ _ _ _
            (fun h => hwf.disj A hA C hCn (Ne.symm hC) q ⟨hq, h⟩)]
          exact liveM_update_of_notMem _ _ _ _
            (fun h => hwf.disj A hA C hCn (Ne.symm hC) p ⟨hp, h⟩)
      · intro z
        constructor
        · intro h
          exact ⟨A, hA, by simp; omega, by omega⟩
        · rintro ⟨C, hC, h1, h2⟩
          by_cases hCA : C = A
          · subst hCA; simp at h1; omega
          · rw [Function.update_of_ne hCA] at h1; omega
  · -- different species
    have hlast : q ≠ (st.range A).2 - 1 := by
      intro h
      exact hwf.disj A hA B hB hAB q ⟨⟨by omega, by omega⟩, hq⟩
    have hlne : (st.range A).2 - 1 ≠ (st.range B).2 - 1 := by
      intro h
      exact hwf.disj A hA B hB hAB ((st.range A).2 - 1) ⟨⟨by omega, by omega⟩, ⟨by omega, by omega⟩⟩
    have hpl : p ≠ (st.range B).2 - 1 := by
      intro h
      exact hwf.disj A hA B hB hAB p ⟨hp, ⟨by omega, by omega⟩⟩
    have hst : driverRetval true pf true A B p q st =
          { st with
            mem := Function.update (Function.update st.mem p (st.mem ((st.range A).2 - 1))) q
              (st.mem ((st.range B).2 - 1))
            range := Function.update (Function.update st.range A ((st.range A).1, (st.range A).2 - 1))
              B ((st.range B).1, (st.range B).2 - 1)
            erased := st.erased ++ [(st.range A).2 - 1, (st.range B).2 - 1] } := by
      unfold driverRetval
      rw [if_neg (by simp; omega)]
      simp only [hlast, if_false]
      rw [Function.update_of_ne (Ne.symm hAB), Function.update_of_ne (Ne.symm hpl)]
    rw [hst]
    simp only
    refine ⟨?_, ?_, ⟨_, _, rfl, hlne, ?_⟩, trivial, trivial, trivial⟩
    · intro C
      by_cases hC : C = B
      · subst hC; simp [Ne.symm hAB]
      · rw [Function.update_of_ne hC]
        by_cases hC' : C = A
        · subst hC'; simp [hAB]
        · rw [Function.update_of_ne hC']; simp [hC, hC']
    · intro C hCn
      by_cases hC : C = B
      · subst hC
        simp only [Function.update_self, if_true, Ne.symm hAB, if_false, add_zero]
        have hnp : ¬ ((st.range C).1 ≤ p ∧ p < (st.range C).2) :=
          fun h => hwf.disj A hA C hB hAB p ⟨hp, h⟩
        have h1 := liveM_swap_remove (Function.update st.mem p (st.mem ((st.range A).2 - 1)))
          (st.range C) q hq
        rw [Function.update_of_ne (Ne.symm hpq), Function.update_of_ne (Ne.symm hpl),
          liveM_update_of_notMem _ _ _ _ hnp] at h1
        exact h1
      · rw [Function.update_of_ne hC]
        by_cases hC' : C = A
        · subst hC'
          simp only [Function.update_self, if_true, hAB, if_false, add_zero]
          have hnq : ¬ ((st.range C).1 ≤ q ∧ q < (st.range C).2) :=
            fun h => hwf.disj C hA B hB hAB q ⟨h, hq⟩
          rw [liveM_update_of_notMem _ _ _ _ (by
            intro h; apply hnq; exact ⟨h.1, by have := h.2; simp at this; omega⟩)]
          exact liveM_swap_remove st.mem (st.range C) p hp
        · rw [Function.update_of_ne hC']
          simp only [hC, hC', if_false, add_zero]
          rw [liveM_update_of_notMem _ _ _ _
            (fun h => hwf.disj B hB C hCn (Ne.symm hC) q ⟨hq, h⟩)]
          exact liveM_update_of_notMem _ _ _ _
            (fun h => hwf.disj A hA C hCn (Ne.symm hC') p ⟨hp, h⟩)
    · intro z
      constructor
      · rintro (h | h)
        · refine ⟨A, hA, ?_, by omega⟩
          rw [Function.update_of_ne hAB]; simp; omega
        · refine ⟨B, hB, ?_, by omega⟩
          simp; omega
      · rintro ⟨C, hC, h1, h2⟩
        by_cases hCB : C = B
        · subst hCB; simp at h1; omega
        · rw [Function.update_of_ne hCB] at h1
          by_cases hCA : C = A
          · subst hCA; simp at h1; omega
          · rw [Function.update_of_ne hCA] at h1; omega

/-- What the result of `Set::interact` on `a` and `b` can be, whatever the random numbers: nothing happened, or one of the
equations was applied with the particle of the lower species first. -/
def Possible (env : DriverEnv P S K) (rhs : List (Eqn P S K)) (a b : P) (r : OutPath K × P × P × List P × S) : Prop :=
  ((r.1.first < 0 ∨ rhs[r.1.first.toNat]? = none) ∧ r.2.1 = a ∧ r.2.2.1 = b ∧ r.2.2.2.1 = []) ∨
  (0 ≤ r.1.first ∧ ∃ e ∈ rhs, ∃ s', rhs[r.1.first.toNat]? = some e ∧
    ((env.species a > env.species b ∧
        r.2.1 = (e.act b a s').2.1 ∧ r.2.2.1 = (e.act b a s').1 ∧
        r.2.2.2.1 = (e.act b a s').2.2.1) ∨
     (¬ env.species a > env.species b ∧
        r.2.1 = (e.act a b s').1 ∧ r.2.2.1 = (e.act a b s').2.1 ∧
        r.2.2.2.1 = (e.act a b s').2.2.1)))

omit [Field K] [LinearOrder K] [FloorRing K] in
theorem performPath_possible (env : DriverEnv P S K) (rhs : List (Eqn P S K)) (path : OutPath K) (a b : P) (s : S) :
    Possible env rhs a b (performPath env rhs path a b s) := by
  unfold Possible performPath
  by_cases h0 : path.first ≥ 0
  · rw [if_pos h0]
    cases he : rhs[path.first.toNat]? with
    | none => left; exact ⟨.inr he, rfl, rfl, rfl⟩
    | some e =>
      right
      simp only
      by_cases hs : env.species a > env.species b
      · simp only [hs, if_true]
        exact ⟨h0, e, List.mem_of_getElem? he, _, he, .inl ⟨trivial, rfl, rfl, rfl⟩⟩
      · simp only [hs, if_false]
        exact ⟨h0, e, List.mem_of_getElem? he, _, he, .inr ⟨not_false, rfl, rfl, rfl⟩⟩
  · rw [if_neg h0]; left; exact ⟨.inl (not_le.1 h0), rfl, rfl, rfl⟩

omit [Field K] [LinearOrder K] [FloorRing K] in
theorem performPath_fst (env : DriverEnv P S K) (rhs : List (Eqn P S K)) (path : OutPath K) (a b : P) (s : S) :
    (performPath env rhs path a b s).1 = path := by
  unfold performPath
  split
  · split
    · rfl
    · split <;> rfl
  · rfl

omit [FloorRing K] in
/-- The possible results of `setInteract`. -/
theorem setInteract_cases (env : DriverEnv P S K) (rhs : List (Eqn P S K)) (m : K) (a b : P) (s : S) :
    Possible env rhs a b (setInteract env rhs m a b s) := performPath_possible ..

omit [Field K] [LinearOrder K] [FloorRing K] in
/-- Effect of one in-place pair test on ranges and live particles, per species. -/
theorem applyPair_inplace (n A B p q : ℕ) (r : OutPath K × P × P × List P × S) (st : DState P S K)
    (hcre : r.2.2.2.1 ≠ [] → 0 ≤ r.1.first) (hwf : WFRanges n st.range) (hA : A < n) (hB : B < n)
    (hp : (st.range A).1 ≤ p ∧ p < (st.range A).2) (hq : (st.range B).1 ≤ q ∧ q < (st.range B).2)
    (hpq : p ≠ q) :
    let st' := applyPair true A B p q r st
    (r.2.2.2.1 = [] →
      (st'.range = st.range ∧ st'.erased = st.erased ∧
       ∀ C < n, liveM st'.mem (st'.range C) + (if C = A then {st.mem p} else 0) +
        (if C = B then {st.mem q} else 0) = liveM st.mem (st.range C) +
        (if C = A then {r.2.1} else 0) + (if C = B then {r.2.2.1} else 0))) ∧
    (r.2.2.2.1 ≠ [] →
      (∀ C, st'.range C = ((st.range C).1, (st.range C).2 - ((if C = A then 1 else 0) +
        (if C = B then 1 else 0)))) ∧
      (∃ x y, st'.erased = st.erased ++ [x, y] ∧ x ≠ y ∧
        ∀ z, (z = x ∨ z = y) ↔ ∃ C < n, (st'.range C).2 ≤ z ∧ z < (st.range C).2) ∧
      ∀ C < n, liveM st'.mem (st'.range C) + (if C = A then {st.mem p} else 0) +
        (if C = B then {st.mem q} else 0) = liveM st.mem (st.range C)) := by
  intro st'
  have hst' : st' = driverRetval true r.1.first (!r.2.2.2.1.isEmpty) A B p q
      { st with
        mem := Function.update (Function.update st.mem p r.2.1) q r.2.2.1
        results := st.results ++ r.2.2.2.1
        log := st.log ++ [⟨A, B, p, q, st.mem p, st.mem q, r.1, r.2.2.2.1⟩]
        gen := r.2.2.2.2 } := by
    simp only [st', applyPair, if_true]
  -- effect of the in-place writes
  have hwrite : ∀ C < n, liveM (Function.update (Function.update st.mem p r.2.1) q r.2.2.1)
      (st.range C) + (if C = A then {st.mem p} else 0) + (if C = B then {st.mem q} else 0) =
      liveM st.mem (st.range C) + (if C = A then {r.2.1} else 0) +
        (if C = B then {r.2.2.1} else 0) := by
    intro C hC
    have e1 : ∀ mem : ℕ → P, ∀ x, liveM (Function.update mem q x) (st.range C) +
        (if C = B then {mem q} else 0) = liveM mem (st.range C) + (if C = B then {x} else 0) := by
      intro mem x
      by_cases hCB : C = B
      · subst hCB; simp only [if_true]; exact liveM_update _ _ _ _ hq
      · simp only [hCB, if_false, add_zero]
        exact liveM_update_of_notMem _ _ _ _
          (fun h => hwf.disj B hB C hC (Ne.symm hCB) q ⟨hq, h⟩)
    have e2 : ∀ mem : ℕ → P, ∀ x, liveM (Function.update mem p x) (st.range C) +
        (if C = A then {mem p} else 0) = liveM mem (st.range C) + (if C = A then {x} else 0) := by
      intro mem x
      by_cases hCA : C = A
      · subst hCA; simp only [if_true]; exact liveM_update _ _ _ _ hp
      · simp only [hCA, if_false, add_zero]
        exact liveM_update_of_notMem _ _ _ _
          (fun h => hwf.disj A hA C hC (Ne.symm hCA) p ⟨hp, h⟩)
    have h1 := e1 (Function.update st.mem p r.2.1) r.2.2.1
    have h2 := e2 st.mem r.2.1
    rw [Function.update_of_ne (Ne.symm hpq)] at h1
    rw [add_right_comm, h1, add_right_comm, h2]
  constructor
  · intro hnil
    have : st' = { st with
        mem := Function.update (Function.update st.mem p r.2.1) q r.2.2.1
        results := st.results ++ r.2.2.2.1
        log := st.log ++ [⟨A, B, p, q, st.mem p, st.mem q, r.1, r.2.2.2.1⟩]
        gen := r.2.2.2.2 } := by
      rw [hst', driverRetval, if_pos (by simp [hnil])]
    rw [this]
    exact ⟨rfl, rfl, hwrite⟩
  · intro hne
    have h0 : ¬ r.1.first < 0 := not_lt.2 (hcre hne)
    have hcr : (!r.2.2.2.1.isEmpty) = true := by simpa using hne
    rw [hcr] at hst'
    have hc := driverRetval_consume n A B p q r.1.first
      { st with
        mem := Function.update (Function.update st.mem p r.2.1) q r.2.2.1
        results := st.results ++ r.2.2.2.1
        log := st.log ++ [⟨A, B, p, q, st.mem p, st.mem q, r.1, r.2.2.2.1⟩]
        gen := r.2.2.2.2 } hwf hA hB hp hq hpq h0
    simp only [← hst'] at hc
    obtain ⟨hr, hl, he, _⟩ := hc
    refine ⟨hr, he, ?_⟩
    intro C hC
    have h1 := hl C hC
    have h2 := hwrite C hC
    rw [Function.update_of_ne hpq, Function.update_self, Function.update_self] at h1
    rw [← h1] at h2
    have h3 : ∀ X Y a b a' b' : Multiset P, X + a' + b' + a + b = Y + a' + b' → X + a + b = Y := by
      intro X Y a b a' b' h
      have : (X + a + b) + (a' + b') = Y + (a' + b') := by
        rw [← add_assoc Y, ← h]; abel
      exact add_right_cancel this
    exact h3 _ _ _ _ _ _ h2

omit [FloorRing K] in
/-- Effect of one in-place pair test on ranges and live particles, per species. -/
theorem pairTest_inplace (env : DriverEnv P S K) (hin : env.inplace = true) (n A B : ℕ) (m : K)
    (p q : ℕ) (st : DState P S K) (hwf : WFRanges n st.range) (hA : A < n) (hB : B < n)
    (hp : (st.range A).1 ≤ p ∧ p < (st.range A).2) (hq : (st.range B).1 ≤ q ∧ q < (st.range B).2)
    (hpq : p ≠ q) :
    let r := setInteract env (env.rhs A B) m (st.mem p) (st.mem q) st.gen
    let st' := pairTest env A B m p q st
    (r.2.2.2.1 = [] →
      (st'.range = st.range ∧ st'.erased = st.erased ∧
       ∀ C < n, liveM st'.mem (st'.range C) + (if C = A then {st.mem p} else 0) +
        (if C = B then {st.mem q} else 0) = liveM st.mem (st.range C) +
        (if C = A then {r.2.1} else 0) + (if C = B then {r.2.2.1} else 0))) ∧
    (r.2.2.2.1 ≠ [] →
      (∀ C, st'.range C = ((st.range C).1, (st.range C).2 - ((if C = A then 1 else 0) +
        (if C = B then 1 else 0)))) ∧
      (∃ x y, st'.erased = st.erased ++ [x, y] ∧ x ≠ y ∧
        ∀ z, (z = x ∨ z = y) ↔ ∃ C < n, (st'.range C).2 ≤ z ∧ z < (st.range C).2) ∧
      ∀ C < n, liveM st'.mem (st'.range C) + (if C = A then {st.mem p} else 0) +
        (if C = B then {st.mem q} else 0) = liveM st.mem (st.range C)) := by
  intro r st'
  have hst' : st' = applyPair true A B p q r st := by simp only [st', pairTest, hin, r]
  rw [hst']
  refine applyPair_inplace n A B p q r st (fun hne => ?_) hwf hA hB hp hq hpq
  rcases setInteract_cases env (env.rhs A B) m (st.mem p) (st.mem q) st.gen with ⟨-, h⟩ | h
  · exact absurd h.2.2 hne
  · exact h.1

omit [Field K] [LinearOrder K] [FloorRing K] in
/-- Fields of a pair test that do not depend on the removal. -/
theorem applyPair_fields (inplace : Bool) (A B p q : ℕ) (r : OutPath K × P × P × List P × S) (st : DState P S K) :
    let st' := applyPair inplace A B p q r st
    st'.results = st.results ++ r.2.2.2.1 ∧
    st'.log = st.log ++ [⟨A, B, p, q, st.mem p, st.mem q, r.1, r.2.2.2.1⟩] ∧
    (inplace = false → st'.mem = st.mem ∧ st'.range = st.range ∧ st'.erased = st.erased) := by
  intro st'
  have key : ∀ (ip : Bool) (pf : ℤ) (c : Bool) (x : DState P S K),
      (driverRetval ip pf c A B p q x).results = x.results ∧
      (driverRetval ip pf c A B p q x).log = x.log := by
    intro ip pf c x
    unfold driverRetval
    split
    · exact ⟨rfl, rfl⟩
    · simp only; split <;> exact ⟨rfl, rfl⟩
  refine ⟨?_, ?_, ?_⟩
  · simp only [st', applyPair]; rw [(key _ _ _ _).1]
  · simp only [st', applyPair]; rw [(key _ _ _ _).2]
  · intro h
    simp only [st', applyPair, h, driverRetval]
    simp

omit [FloorRing K] in
/-- Fields of a pair test that do not depend on the removal. -/
theorem pairTest_fields (env : DriverEnv P S K) (A B : ℕ) (m : K) (p q : ℕ) (st : DState P S K) :
    let r := setInteract env (env.rhs A B) m (st.mem p) (st.mem q) st.gen
    let st' := pairTest env A B m p q st
    st'.results = st.results ++ r.2.2.2.1 ∧
    st'.log = st.log ++ [⟨A, B, p, q, st.mem p, st.mem q, r.1, r.2.2.2.1⟩] ∧
    (env.inplace = false → st'.mem = st.mem ∧ st'.range = st.range ∧ st'.erased = st.erased) :=
  applyPair_fields ..

/-! ### Selection -/

variable [IsStrictOrderedRing K]

theorem pickPos_range (lo sz : ℕ) (u : K) (h0 : 0 ≤ u) (h1 : u < 1) (hsz : 0 < sz) :
    lo ≤ pickPos lo sz u ∧ pickPos lo sz u < lo + sz := by
  unfold pickPos
  have hs : (0 : K) < sz := by exact_mod_cast hsz
  have hb : (sz : K) * u < sz := by nlinarith
  have h2 : ⌊(sz : K) * u⌋ < (sz : ℤ) := by
    rw [Int.floor_lt]; exact_mod_cast hb
  omega

/-- Random numbers of a generator stay in their documented ranges. -/
structure RNG.Valid (rng : RNG S K) : Prop where
  rand_mem : ∀ s, 0 ≤ (rng.rand s).1 ∧ (rng.rand s).1 ≤ 1
  randExc_mem : ∀ s, 0 ≤ (rng.randExc s).1 ∧ (rng.randExc s).1 < 1

theorem selectB_spec (rng : RNG S K) (hv : rng.Valid) (lo sz pA : ℕ) (hsz : 0 < sz) :
    ∀ (fuel : ℕ) (s : S) (pB : ℕ) (s' : S), selectB rng lo sz pA fuel s = some (pB, s') →
      lo ≤ pB ∧ pB < lo + sz ∧ pA ≠ pB := by
  intro fuel
  induction fuel with
  | zero => intro s pB s' h; simp [selectB] at h
  | succ f ih =>
    intro s pB s' h
    simp only [selectB] at h
    split at h
    · exact ih _ _ _ h
    · rename_i hne
      simp only [Option.some.injEq, Prod.mk.injEq] at h
      obtain ⟨rfl, rfl⟩ := h
      have := hv.randExc_mem s
      have h2 := pickPos_range lo sz (rng.randExc s).1 this.1 this.2 hsz
      exact ⟨h2.1, h2.2, hne⟩

theorem selectRandomPair_spec (rng : RNG S K) (hv : rng.Valid) (fuel : ℕ) (a b : ℕ × ℕ)
    (ha : 0 < rsize a) (hb : 0 < rsize b) (s : S) (p q : ℕ) (s' : S)
    (h : selectRandomPair rng false fuel a b s = some (p, q, s')) :
    (a.1 ≤ p ∧ p < a.2) ∧ (b.1 ≤ q ∧ q < b.2) ∧ p ≠ q := by
  simp only [selectRandomPair, Bool.false_eq_true, if_false] at h
  split at h
  · cases h
  · rename_i x heq
    simp only [Option.some.injEq, Prod.mk.injEq] at h
    obtain ⟨rfl, rfl, rfl⟩ := h
    have h1 := selectB_spec rng hv b.1 (rsize b) _ hb _ _ _ _ heq
    have := hv.randExc_mem s
    have h2 := pickPos_range a.1 (rsize a) (rng.randExc s).1 this.1 this.2 ha
    exact ⟨⟨h2.1, lt_of_lt_of_le h2.2 (by unfold rsize at *; omega)⟩,
      ⟨h1.1, lt_of_lt_of_le h1.2.1 (by unfold rsize at *; omega)⟩, h1.2.2⟩

/-! ### Runs -/

/-- One pair test of a run: a pair of species, a selected pair of positions in their ranges. -/
inductive TestStep (env : DriverEnv P S K) : DState P S K → DState P S K → Prop
  | mk (A B : ℕ) (m : K) (p q : ℕ) (g : S) (st : DState P S K)
    (hAB : A ≤ B) (hB : B < env.nSpecies) (hne : env.rhs A B ≠ [])
    (hp : (st.range A).1 ≤ p ∧ p < (st.range A).2) (hq : (st.range B).1 ≤ q ∧ q < (st.range B).2)
    (hpq : p ≠ q) :
    TestStep env st (pairTest env A B m p q { st with gen := g })

/-- One pair test with any possible outcome; this is all that the bookkeeping depends on. -/
inductive GStep (env : DriverEnv P S K) : DState P S K → DState P S K → Prop
  | mk (A B p q : ℕ) (r : OutPath K × P × P × List P × S) (st : DState P S K)
    (hAB : A ≤ B) (hB : B < env.nSpecies) (hne : env.rhs A B ≠ [])
    (hp : (st.range A).1 ≤ p ∧ p < (st.range A).2) (hq : (st.range B).1 ≤ q ∧ q < (st.range B).2)
    (hpq : p ≠ q) (hr : Possible env (env.rhs A B) (st.mem p) (st.mem q) r) :
    GStep env st (applyPair env.inplace A B p q r st)

omit [FloorRing K] [IsStrictOrderedRing K] in
theorem TestStep.gstep {env : DriverEnv P S K} {st st' : DState P S K} (h : TestStep env st st') : GStep env st st' := by
  obtain ⟨A, B, m, p, q, g, _, hAB, hB, hne, hp, hq, hpq⟩ := h
  exact .mk A B p q _ st hAB hB hne hp hq hpq (setInteract_cases env _ m _ _ g)

theorem testLoop_reach (env : DriverEnv P S K) (hv : env.rng.Valid) (fs A B : ℕ) (m : K)
    (hAB : A ≤ B) (hB : B < env.nSpecies) (hne : env.rhs A B ≠ []) :
    ∀ (fi : ℕ) (nt : K) (st st' : DState P S K), testLoop env fs A B m fi nt st = .ok st' →
      Relation.ReflTransGen (TestStep env) st st' := by
  intro fi
  induction fi with
  | zero =>
    intro nt st st' h
    simp only [testLoop] at h
    split at h
    · cases h
    · cases h; exact .refl
  | succ f ih =>
    intro nt st st' h
    simp only [testLoop] at h
    split at h
    · split at h
      · cases h; exact .refl
      · rename_i hen
        split at h
        · cases h
        · rename_i p q s' heq
          have hszA : 0 < rsize (st.range A) := by
            simp [notEnough] at hen; omega
          have hszB : 0 < rsize (st.range B) := by
            simp [notEnough] at hen; omega
          have hs := selectRandomPair_spec env.rng hv fs _ _ hszA hszB _ _ _ _ heq
          exact .head (.mk A B m p q s' st hAB hB hne hs.1 hs.2.1 hs.2.2) (ih _ _ _ h)
    · cases h; exact .refl

theorem mem_speciesPairs (n A B : ℕ) : (A, B) ∈ speciesPairs n ↔ A ≤ B ∧ B < n := by
  simp only [speciesPairs, List.mem_flatMap, List.mem_range, List.mem_map, List.mem_range'_1,
    Prod.mk.injEq]
  constructor
  · rintro ⟨a, ha, b, hb, rfl, rfl⟩; omega
  · intro h; exact ⟨A, by omega, B, by omega, rfl, rfl⟩

omit [IsStrictOrderedRing K] in
theorem estimateAll_spec (env : DriverEnv P S K) : ∀ (ps : List (ℕ × ℕ)) (st : DState P S K)
    (ds : List ((ℕ × ℕ) × Option (TestData K))) (st' : DState P S K),
    estimateAll env ps st = .ok (ds, st') →
    (∃ g, st' = { st with gen := g }) ∧ ds.map Prod.fst = ps ∧
    ∀ d ∈ ds, (d.2 = none ↔ env.rhs d.1.1 d.1.2 = []) := by
  intro ps
  induction ps with
  | nil =>
    intro st ds st' h
    simp only [estimateAll, Except.ok.injEq, Prod.mk.injEq] at h
    obtain ⟨rfl, rfl⟩ := h
    exact ⟨⟨st.gen, rfl⟩, rfl, by simp⟩
  | cons ab ps ih =>
    intro st ds st' h
    obtain ⟨A, B⟩ := ab
    simp only [estimateAll] at h
    split at h
    · cases h
    · rename_i d st1 he
      split at h
      · cases h
      · rename_i ds2 st2 h2
        simp only [Except.ok.injEq, Prod.mk.injEq] at h
        obtain ⟨rfl, rfl⟩ := h
        obtain ⟨⟨g2, hg2⟩, hm, hd⟩ := ih _ _ _ h2
        have h1 : (∃ g, st1 = { st with gen := g }) ∧ (d = none ↔ env.rhs A B = []) := by
          simp only [estimatePair] at he
          split at he
          · rename_i hl
            simp only [Except.ok.injEq, Prod.mk.injEq] at he
            obtain ⟨rfl, rfl⟩ := he
            exact ⟨⟨st.gen, rfl⟩, by simpa using hl⟩
          · rename_i hl
            split at he
            · cases he
            · simp only [Except.ok.injEq, Prod.mk.injEq] at he
              obtain ⟨rfl, rfl⟩ := he
              exact ⟨⟨_, rfl⟩, by simpa using hl⟩
        obtain ⟨⟨g1, rfl⟩, hd1⟩ := h1
        refine ⟨⟨g2, by rw [hg2]⟩, by simp [hm], ?_⟩
        intro x hx
        rcases List.mem_cons.1 hx with rfl | hx
        · exact hd1
        · exact hd x hx

theorem collideAll_reach (env : DriverEnv P S K) (hv : env.rng.Valid) (fi fs : ℕ) :
    ∀ (ds : List ((ℕ × ℕ) × Option (TestData K))) (st st' : DState P S K),
    (∀ d ∈ ds, d.1.1 ≤ d.1.2 ∧ d.1.2 < env.nSpecies ∧
      (d.2 = none ↔ env.rhs d.1.1 d.1.2 = [])) →
    collideAll env fi fs ds st = .ok st' → Relation.ReflTransGen (TestStep env) st st' := by
  intro ds
  induction ds with
  | nil => intro st st' _ h; simp only [collideAll, Except.ok.injEq] at h; subst h; exact .refl
  | cons d ds ih =>
    intro st st' hd h
    obtain ⟨⟨A, B⟩, o⟩ := d
    have hds := fun x hx => hd x (List.mem_cons_of_mem _ hx)
    have h0 := hd ((A, B), o) (by simp)
    cases o with
    | none =>
      simp only [collideAll] at h
      exact ih st st' hds h
    | some td =>
      simp only [collideAll] at h
      split at h
      · cases h
      · rename_i st1 h1
        have hne : env.rhs A B ≠ [] := by
          intro hc; have := h0.2.2.2 hc; cases this
        exact (testLoop_reach env hv fs A B td.maxSV h0.1 h0.2.1 hne _ _ _ _ h1).trans
          (ih _ _ hds h)

/-- A completed driver run is a sequence of pair tests. -/
theorem driver_reach (env : DriverEnv P S K) (hv : env.rng.Valid) (fi fs : ℕ)
    (st st' : DState P S K) (h : driver env fi fs st = .ok st') :
    ∃ g, Relation.ReflTransGen (TestStep env) { st with gen := g } st' := by
  simp only [driver] at h
  split at h
  · cases h
  · rename_i ds st1 he
    obtain ⟨⟨g, rfl⟩, hm, hd⟩ := estimateAll_spec env _ _ _ _ he
    refine ⟨g, collideAll_reach env hv fi fs ds _ _ ?_ h⟩
    intro d hd'
    have : d.1 ∈ speciesPairs env.nSpecies := hm ▸ List.mem_map_of_mem hd'
    have := (mem_speciesPairs env.nSpecies d.1.1 d.1.2).1 this
    exact ⟨this.1, this.2, hd d hd'⟩

end

end Chimp
