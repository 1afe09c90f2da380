import Verif.Model.Registry

namespace Chimp

variable {K : Type}

theorem findParticle_le (r : Registry K) (n : String) : findParticle r n ≤ r.length := by
  induction r with
  | nil => simp [findParticle]
  | cons p ps ih => simp only [findParticle, List.length_cons]; split <;> omega

theorem findParticle_eq_length_iff (r : Registry K) (n : String) :
    findParticle r n = r.length ↔ ∀ p ∈ r, p.name ≠ n := by
  induction r with
  | nil => simp [findParticle]
  | cons p ps ih =>
    simp only [findParticle, List.length_cons, List.forall_mem_cons]
    split
    · rename_i h; simp [h]
    · rename_i h
      have := ih
      constructor
      · intro h2; exact ⟨fun e => h e.symm, ih.1 (by omega)⟩
      · intro ⟨_, h2⟩; rw [ih.2 h2]

theorem findParticle_get (r : Registry K) (n : String) (h : findParticle r n < r.length) :
    (r[findParticle r n]'h).name = n := by
  induction r with
  | nil => simp at h
  | cons p ps ih =>
    simp only [findParticle] at h ⊢
    split
    · rename_i h1; simp [h1]
    · rename_i h1
      have h2 : findParticle ps n < ps.length := by
        simp [h1] at h; exact h
      simp [ih h2]

/-- The entries of a registry with a given name, in list order. -/
theorem filter_add (r : Registry K) (p : Props K) (n : String) :
    (addParticleType r p).filter (fun q => q.name = n) =
      if p.name = n ∧ r.filter (fun q => q.name = n) = [] then [p]
      else r.filter (fun q => q.name = n) := by
  unfold addParticleType
  by_cases h : findParticle r p.name = r.length
  · rw [if_neg (by simpa using h)]
    have h' := (findParticle_eq_length_iff r p.name).1 h
    by_cases hn : p.name = n
    · subst hn
      have : r.filter (fun q => q.name = p.name) = [] := by
        simpa [List.filter_eq_nil_iff] using h'
      simp [this]
    · simp [hn]
  · rw [if_pos h]
    by_cases hn : p.name = n
    · subst hn
      have : r.filter (fun q => q.name = p.name) ≠ [] := by
        intro h2
        apply h
        rw [findParticle_eq_length_iff]
        simpa [List.filter_eq_nil_iff] using h2
      simp [this]
    · simp [hn]

section
variable [LinearOrder K]

theorem Props.lt_iff (a b : Props K) :
    a.lt b = true ↔ a.mass < b.mass ∨ (a.mass = b.mass ∧ a.name < b.name) := by
  simp [Props.lt]

theorem Props.lt_irrefl (a : Props K) : a.lt a = false := by
  simp [Props.lt]

theorem Props.lt_trans {a b c : Props K} (h1 : a.lt b = true) (h2 : b.lt c = true) :
    a.lt c = true := by
  rw [Props.lt_iff] at *
  rcases h1 with h1 | ⟨h1, h1'⟩ <;> rcases h2 with h2 | ⟨h2, h2'⟩
  · exact .inl (h1.trans h2)
  · exact .inl (h2 ▸ h1)
  · exact .inl (h1 ▸ h2)
  · exact .inr ⟨h1.trans h2, h1'.trans h2'⟩

theorem Props.lt_asymm {a b : Props K} (h1 : a.lt b = true) : b.lt a = false := by
  cases h : b.lt a
  · rfl
  · have := Props.lt_trans h1 h; rw [Props.lt_irrefl] at this; cases this

/-- Two species that are not ordered either way have the same mass and name. -/
theorem Props.eq_of_not_lt {a b : Props K} (h1 : a.lt b = false) (h2 : b.lt a = false) :
    a.mass = b.mass ∧ a.name = b.name := by
  have h1' : ¬ (a.lt b = true) := by simp [h1]
  have h2' : ¬ (b.lt a = true) := by simp [h2]
  rw [Props.lt_iff] at h1' h2'
  push Not at h1' h2'
  have hm := le_antisymm h2'.1 h1'.1
  exact ⟨hm, le_antisymm (h2'.2 hm.symm) (h1'.2 hm)⟩

theorem Props.total {a b : Props K} (h : a.name ≠ b.name) : a.lt b = true ∨ b.lt a = true := by
  cases h1 : a.lt b <;> cases h2 : b.lt a <;> simp_all
  exact h (Props.eq_of_not_lt h1 h2).2

theorem Props.not_lt_trans {a b c : Props K} (h1 : a.lt b = false) (h2 : b.lt c = false) :
    a.lt c = false := by
  cases h : a.lt c with
  | false => rfl
  | true =>
    rcases Props.lt_iff a c |>.1 h with hm | ⟨hm, hn⟩
    · have h1' : ¬ (a.lt b = true) := by simp [h1]
      have h2' : ¬ (b.lt c = true) := by simp [h2]
      rw [Props.lt_iff] at h1' h2'
      push Not at h1' h2'
      exact absurd hm (not_lt.2 (h2'.1.trans h1'.1))
    · have h1' : ¬ (a.lt b = true) := by simp [h1]
      have h2' : ¬ (b.lt c = true) := by simp [h2]
      rw [Props.lt_iff] at h1' h2'
      push Not at h1' h2'
      have e1 : a.mass = b.mass := le_antisymm (hm ▸ h2'.1) h1'.1
      have e2 : b.mass = c.mass := e1 ▸ hm
      exact absurd hn (not_lt.2 ((h2'.2 e2).trans (h1'.2 e1)))

theorem sortProps_perm (r : Registry K) : (sortProps r).Perm r := List.perm_insertionSort _ _

theorem sortProps_sorted (r : Registry K) :
    (sortProps r).Pairwise (fun a b => b.lt a = false) := by
  haveI : Std.Total (fun a b : Props K => b.lt a = false) := ⟨by
    intro a b
    cases h : b.lt a
    · simp
    · simp [Props.lt_asymm h]⟩
  haveI : IsTrans (Props K) (fun a b : Props K => b.lt a = false) :=
    ⟨fun a b c h1 h2 => Props.not_lt_trans h2 h1⟩
  exact List.pairwise_insertionSort _ r

end

/-- Names of a registry are pairwise different. -/
def NodupNames (r : Registry K) : Prop := (r.map Props.name).Nodup

theorem nodupNames_of_perm {r s : Registry K} (h : r.Perm s) : NodupNames r ↔ NodupNames s :=
  (h.map _).nodup_iff

theorem nodupNames_inj {r : Registry K} (h : NodupNames r) {a b : Props K} (ha : a ∈ r) (hb : b ∈ r)
    (e : a.name = b.name) : a = b := List.inj_on_of_nodup_map h ha hb e

theorem nodupNames_add {r : Registry K} (h : NodupNames r) (p : Props K) :
    NodupNames (addParticleType r p) := by
  unfold addParticleType
  split
  · exact h
  · rename_i h1
    rw [not_not, findParticle_eq_length_iff] at h1
    unfold NodupNames at *
    simp only [List.map_append, List.map_cons, List.map_nil]
    rw [List.nodup_append]
    refine ⟨h, by simp, ?_⟩
    intro a ha b hb
    simp at hb ha
    obtain ⟨q, hq, rfl⟩ := ha
    subst hb
    exact h1 q hq

theorem nodupNames_run [LinearOrder K] (h : List (RegOp K)) : NodupNames (runReg h) := by
  suffices ∀ r : Registry K, NodupNames r → NodupNames (h.foldl RegOp.apply r) from
    this [] (by simp [NodupNames])
  induction h with
  | nil => intro r hr; exact hr
  | cons o os ih =>
    intro r hr
    apply ih
    cases o with
    | add p => exact nodupNames_add hr p
    | init => exact (nodupNames_of_perm (sortProps_perm r)).2 hr

theorem sortProps_strict [LinearOrder K] {r : Registry K} (h : NodupNames r) :
    (sortProps r).Pairwise (fun a b => a.lt b = true) := by
  have h1 := sortProps_sorted r
  have h2 : NodupNames (sortProps r) := (nodupNames_of_perm (sortProps_perm r)).2 h
  unfold NodupNames at h2
  rw [List.Nodup, List.pairwise_map] at h2
  refine (h1.and h2).imp ?_
  intro a b ⟨h3, h4⟩
  rcases Props.total h4 with h5 | h5
  · exact h5
  · rw [h3] at h5; cases h5

theorem findParticle_unique {r : Registry K} (h : NodupNames r) {i : ℕ} {p : Props K}
    (hi : r[i]? = some p) : findParticle r p.name = i := by
  obtain ⟨hlt, he⟩ := List.getElem?_eq_some_iff.1 hi
  have hmem : p ∈ r := he ▸ List.getElem_mem hlt
  have hne : findParticle r p.name ≠ r.length := by
    rw [Ne, findParticle_eq_length_iff]; push Not; exact ⟨p, hmem, rfl⟩
  have hlt' := lt_of_le_of_ne (findParticle_le r p.name) hne
  have hn := findParticle_get r p.name hlt'
  have hl : (r.map Props.name).Nodup := h
  have := (List.Nodup.getElem_inj_iff hl (i := findParticle r p.name) (j := i)
    (hi := by simpa using hlt') (hj := by simpa using hlt)).1
    (by simp only [List.getElem_map]; rw [hn, he])
  exact this

end Chimp
