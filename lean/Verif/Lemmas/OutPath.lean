import Verif.Model.OutPath
import Mathlib.Tactic.Linarith
import Mathlib.Tactic.FieldSimp
import Mathlib.Algebra.Order.BigOperators.Group.List

namespace Chimp

variable {K : Type} [Field K] [LinearOrder K] [IsStrictOrderedRing K]

omit [LinearOrder K] [IsStrictOrderedRing K] in
theorem csTotal_eq_sum (cs : List K) : csTotal cs = cs.sum := by
  unfold csTotal
  rw [List.sum_eq_foldl]

theorem pickLoop_some (r : K) (cs : List K) : ∀ (tot : K) (j₀ j : ℕ) (c : K),
    pickLoop r cs tot j₀ = some (j, c) →
    ∃ k, j = j₀ + k ∧ cs[k]? = some c ∧ r < tot + (cs.take (k+1)).sum ∧
      ∀ i < k, tot + (cs.take (i+1)).sum ≤ r := by
  induction cs with
  | nil => intro tot j₀ j c h; simp [pickLoop] at h
  | cons a cs ih =>
    intro tot j₀ j c h
    unfold pickLoop at h
    split at h
    · rename_i hgt
      simp only [Option.some.injEq, Prod.mk.injEq] at h
      obtain ⟨rfl, rfl⟩ := h
      exact ⟨0, by simp, by simp, by simpa using hgt, by simp⟩
    · rename_i hgt
      obtain ⟨k, hk, hc, hr, hlt⟩ := ih _ _ _ _ h
      refine ⟨k+1, by omega, by simpa using hc, ?_, ?_⟩
      · rw [List.take_succ_cons, List.sum_cons]; linarith
      · intro i hi
        rw [List.take_succ_cons, List.sum_cons]
        cases i with
        | zero => simpa using not_lt.1 hgt
        | succ i => have := hlt i (by omega); linarith

theorem pickLoop_none (r : K) (cs : List K) : ∀ (tot : K) (j₀ : ℕ),
    pickLoop r cs tot j₀ = none ↔ ∀ i < cs.length, tot + (cs.take (i+1)).sum ≤ r := by
  induction cs with
  | nil => intro tot j₀; simp [pickLoop]
  | cons a cs ih =>
    intro tot j₀
    unfold pickLoop
    split
    · rename_i hgt
      simp only [reduceCtorEq, false_iff, not_forall, List.length_cons]
      exact ⟨0, by simp, by simpa using hgt⟩
    · rename_i hgt
      rw [ih]
      constructor
      · intro h i hi
        rw [List.take_succ_cons, List.sum_cons]
        cases i with
        | zero => simpa using not_lt.1 hgt
        | succ i => have := h i (by simpa using hi); linarith
      · intro h i hi
        have := h (i+1) (by simpa using hi)
        rw [List.take_succ_cons, List.sum_cons] at this
        linarith

theorem prefix_sum_mono {cs : List K} (h : ∀ c ∈ cs, 0 ≤ c) {i j : ℕ} (hij : i ≤ j) :
    (cs.take i).sum ≤ (cs.take j).sum := by
  have hd : cs.take j = cs.take i ++ (cs.drop i).take (j - i) := by
    rw [← List.take_add]; congr 1; omega
  rw [hd, List.sum_append]
  have : 0 ≤ ((cs.drop i).take (j - i)).sum := List.sum_nonneg (fun c hc =>
    h c (List.mem_of_mem_drop (List.mem_of_mem_take hc)))
  linarith

omit [LinearOrder K] [IsStrictOrderedRing K] in
theorem take_succ_sum (cs : List K) (j : ℕ) (c : K) (h : cs[j]? = some c) :
    (cs.take (j+1)).sum = (cs.take j).sum + c := by
  rw [List.take_add_one, h]; simp

/-- Characterisation of the selected index for nonnegative cross sections. -/
theorem pickLoop_iff {cs : List K} (hnn : ∀ c ∈ cs, 0 ≤ c) (r : K) (hr : 0 ≤ r) (j : ℕ) (c : K) :
    pickLoop r cs 0 0 = some (j, c) ↔
      cs[j]? = some c ∧ (cs.take j).sum ≤ r ∧ r < (cs.take j).sum + c := by
  constructor
  · intro h
    obtain ⟨k, hk, hc, hr1, hlt⟩ := pickLoop_some r cs 0 0 j c h
    simp only [Nat.zero_add] at hk
    subst hk
    refine ⟨hc, ?_, ?_⟩
    · cases j with
      | zero => simpa using hr
      | succ i => have := hlt i (by omega); simpa using this
    · rw [take_succ_sum _ _ _ hc] at hr1; simpa using hr1
  · rintro ⟨hc, h1, h2⟩
    have hjl : j < cs.length := (List.getElem?_eq_some_iff.1 hc).1
    cases hp : pickLoop r cs 0 0 with
    | none =>
      have := (pickLoop_none r cs 0 0).1 hp j hjl
      rw [take_succ_sum _ _ _ hc] at this
      linarith
    | some jc =>
      obtain ⟨j', c'⟩ := jc
      obtain ⟨k, hk, hc', hr1, hlt⟩ := pickLoop_some r cs 0 0 j' c' hp
      simp only [Nat.zero_add] at hk
      subst hk
      have hjj : j = j' := by
        rcases lt_trichotomy j j' with hl | he | hl
        · have := hlt j hl
          rw [take_succ_sum _ _ _ hc] at this
          linarith
        · exact he
        · have := prefix_sum_mono hnn (show j'+1 ≤ j from hl)
          linarith
      subst hjj
      rw [hc] at hc'
      cases hc'
      rfl

omit [LinearOrder K] [IsStrictOrderedRing K] in
theorem findMaxSigmaVProduct_eq (ms : List (K → K)) (vmax : K) :
    findMaxSigmaVProduct ms vmax = (ms.map (fun m => m vmax)).sum := by
  unfold findMaxSigmaVProduct
  rw [List.sum_eq_foldl, List.foldl_map]

end Chimp
