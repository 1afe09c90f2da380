import Verif.Lemmas.Registry

/-!
# Properties C01-C04: the species registry
-/

namespace Chimp

variable {K : Type}

/-! ## Specification -/

/-- The species added by a history, in order, with repetitions. -/
def addedSpecies : List (RegOp K) → List (Props K)
  | [] => []
  | .add p :: h => p :: addedSpecies h
  | .init :: h => addedSpecies h

/-- The definition of `n` that should be in force: the first one added. -/
def firstDefinition (h : List (RegOp K)) (n : String) : Option (Props K) :=
  (addedSpecies h).find? (fun p => p.name = n)

/-- Increasing mass, ties broken by name, as documented for the species list. -/
def MassNameBefore [LinearOrder K] (a b : Props K) : Prop :=
  a.mass < b.mass ∨ (a.mass = b.mass ∧ a.name < b.name)

/-! ## C01 -/

private theorem filter_run [LinearOrder K] (h : List (RegOp K)) (n : String) :
    ∀ r : Registry K, NodupNames r →
    (h.foldl RegOp.apply r).filter (fun q => q.name = n) =
      if r.filter (fun q => q.name = n) = [] then (firstDefinition h n).toList
      else r.filter (fun q => q.name = n) := by
  induction h with
  | nil => intro r _; simp [firstDefinition, addedSpecies]
  | cons o os ih =>
    intro r hr
    cases o with
    | add p =>
      rw [List.foldl_cons, ih (RegOp.apply r (.add p)) (nodupNames_add hr p)]
      simp only [RegOp.apply, filter_add, firstDefinition, addedSpecies, List.find?_cons]
      by_cases hn : p.name = n
      · by_cases hf : r.filter (fun q => q.name = n) = []
        · simp [hn, hf]
        · simp [hn, hf]
      · simp [hn]
    | init =>
      rw [List.foldl_cons, ih (RegOp.apply r .init) ((nodupNames_of_perm (sortProps_perm r)).2 hr)]
      have hp : ((sortProps r).filter (fun q => q.name = n)).Perm
          (r.filter (fun q => q.name = n)) := (sortProps_perm r).filter _
      have hlen : (r.filter (fun q => q.name = n)).length ≤ 1 := by
        by_contra hc
        push Not at hc
        have hnd : ((r.filter (fun q => q.name = n)).map Props.name).Nodup :=
          List.Nodup.sublist (List.Sublist.map _ List.filter_sublist) hr
        rcases hl : r.filter (fun q => q.name = n) with _ | ⟨a, _ | ⟨b, l⟩⟩
        · simp [hl] at hc
        · simp [hl] at hc
        · have ha : a.name = n := by
            have : a ∈ r.filter (fun q => q.name = n) := by simp [hl]
            simpa using (List.mem_filter.1 this).2
          have hb : b.name = n := by
            have : b ∈ r.filter (fun q => q.name = n) := by simp [hl]
            simpa using (List.mem_filter.1 this).2
          rw [hl] at hnd
          simp [ha, hb] at hnd
      have heq : (sortProps r).filter (fun q => q.name = n) = r.filter (fun q => q.name = n) := by
        rcases hl : r.filter (fun q => q.name = n) with _ | ⟨a, _ | ⟨b, l⟩⟩
        · rw [hl] at hp; rw [hl]; exact List.perm_nil.1 hp
        · rw [hl] at hp; rw [hl]; exact List.perm_singleton.1 hp
        · rw [hl] at hlen; simp at hlen
      simp only [RegOp.apply, heq]
      simp [firstDefinition, addedSpecies]

/-- **C01**  After any history of additions and initialisations, the entries named `n` are exactly
the first definition of `n` added (one entry), or none if `n` was never added. -/
theorem C01_first_definition_once [LinearOrder K] (h : List (RegOp K)) (n : String) :
    (runReg h).filter (fun q => q.name = n) = (firstDefinition h n).toList := by
  rw [runReg, filter_run h n [] (by simp [NodupNames])]
  simp

/-- **C01**  The names of the registry are pairwise different and are exactly the added names. -/
theorem C01_names [LinearOrder K] (h : List (RegOp K)) :
    ((runReg h).map Props.name).Nodup ∧
    ∀ n, n ∈ (runReg h).map Props.name ↔ n ∈ (addedSpecies h).map Props.name := by
  refine ⟨nodupNames_run h, fun n => ?_⟩
  have h1 := C01_first_definition_once h n
  constructor
  · intro hn
    obtain ⟨p, hp, rfl⟩ := List.mem_map.1 hn
    have : p ∈ (runReg h).filter (fun q => q.name = p.name) := List.mem_filter.2 ⟨hp, by simp⟩
    rw [h1] at this
    have hs : firstDefinition h p.name = some p := by simpa using this
    exact List.mem_map.2 ⟨p, List.mem_of_find?_eq_some hs, rfl⟩
  · intro hn
    obtain ⟨p, hp, rfl⟩ := List.mem_map.1 hn
    have hs : (firstDefinition h p.name).isSome := by
      rw [firstDefinition, List.find?_isSome]; exact ⟨p, hp, by simp⟩
    obtain ⟨q, hq⟩ := Option.isSome_iff_exists.1 hs
    rw [hq] at h1
    have : q ∈ (runReg h).filter (fun r => r.name = p.name) := by rw [h1]; simp
    have hq2 := List.mem_filter.1 this
    exact List.mem_map.2 ⟨q, hq2.1, by simpa using hq2.2⟩

/-- **C01**  Adding by name succeeds exactly when the document defines that name exactly once; then the
name is registered, with that definition if it was new, and nothing else changes. -/
theorem C01_add_by_name (doc : List (Props K)) (r : Registry K) (n : String) :
    ((∃ r', addParticleByName doc r n = .ok r') ↔ (doc.countP (fun p => p.name = n)) = 1) ∧
    ∀ r', addParticleByName doc r n = .ok r' →
      (∃ p ∈ r', p.name = n) ∧ (∀ q, q.name ≠ n → (q ∈ r' ↔ q ∈ r)) ∧
      ((∃ p ∈ r, p.name = n) → r' = r) ∧ ((¬ ∃ p ∈ r, p.name = n) → ∀ p ∈ r', p.name = n → p ∈ doc) := by
  rw [List.countP_eq_length_filter]
  unfold addParticleByName
  rcases hl : doc.filter (fun p => p.name = n) with _ | ⟨p, _ | ⟨q, l⟩⟩ <;> simp only [hl]
  · simp
  · have hp : p ∈ doc ∧ p.name = n := by
      have : p ∈ doc.filter (fun p => p.name = n) := by simp [hl]
      simpa using List.mem_filter.1 this
    refine ⟨by simp, ?_⟩
    intro r' h
    have h := Except.ok.inj h
    have hiff := findParticle_eq_length_iff r p.name
    unfold addParticleType at h
    by_cases hf : findParticle r p.name = r.length
    · rw [if_neg (by simpa using hf)] at h
      subst h
      have habs := hiff.1 hf
      rw [hp.2] at habs
      refine ⟨⟨p, by simp, hp.2⟩, ?_, ?_, ?_⟩
      · intro q hq
        simp only [List.mem_append, List.mem_singleton, or_iff_left_iff_imp]
        rintro rfl; exact absurd hp.2 hq
      · rintro ⟨q, hq, hqn⟩; exact absurd hqn (habs q hq)
      · intro _ q hq hqn
        rcases List.mem_append.1 hq with hq | hq
        · exact absurd hqn (habs q hq)
        · rw [List.mem_singleton] at hq; subst hq; exact hp.1
    · rw [if_pos hf] at h
      subst h
      have hex : ∃ q ∈ r, q.name = n := by
        by_contra hc
        push Not at hc
        exact hf (hiff.2 (by rw [hp.2]; exact hc))
      exact ⟨hex, fun _ _ => Iff.rfl, fun _ => rfl, fun hc => absurd hex hc⟩
  · simp

/-- One definition, none, two. -/
example : let doc : List (Props ℕ) := [⟨"Ar", 40, 0⟩, ⟨"e", 1, 5⟩, ⟨"e", 7, 5⟩]
    (addParticleByName doc [] "Ar").toOption = some [⟨"Ar", 40, 0⟩] ∧
    (addParticleByName doc [] "He").toOption = none ∧ (addParticleByName doc [] "e").toOption = none := by
  decide +kernel

/-- A history with a repeated name: the second `e` is dropped, the order after `init` is by mass. -/
example : runReg (K := ℕ) [.add ⟨"Ar", 40, 0⟩, .add ⟨"e", 1, 5⟩, .add ⟨"e", 7, 5⟩, .init,
    .add ⟨"Ar", 0, 0⟩] = [⟨"e", 1, 5⟩, ⟨"Ar", 40, 0⟩] := by decide +kernel

/-! ## C02 -/

/-- **C02**  `findParticleIndx` answers with the position of the entry carrying that name. -/
theorem C02_index_iff [LinearOrder K] (h : List (RegOp K)) (n : String) (i : ℕ) :
    findParticleIndx (runReg h) n = (i : ℤ) ↔ ∃ p, (runReg h)[i]? = some p ∧ p.name = n := by
  have hnd := nodupNames_run h
  unfold findParticleIndx
  constructor
  · intro hi
    split at hi
    · omega
    · rename_i hne
      have hlt := lt_of_le_of_ne (findParticle_le (runReg h) n) hne
      have : findParticle (runReg h) n = i := by exact_mod_cast hi
      subst this
      exact ⟨_, List.getElem?_eq_getElem hlt, findParticle_get _ _ hlt⟩
  · rintro ⟨p, hp, rfl⟩
    have h1 := findParticle_unique hnd hp
    obtain ⟨hlt, _⟩ := List.getElem?_eq_some_iff.1 hp
    rw [h1, if_neg (by omega)]

/-- **C02**  `findParticleIndx` is `-1` exactly for names that were never added, and is never any
other negative number. -/
theorem C02_index_absent [LinearOrder K] (h : List (RegOp K)) (n : String) :
    (findParticleIndx (runReg h) n = -1 ↔ n ∉ (addedSpecies h).map Props.name) ∧
    -1 ≤ findParticleIndx (runReg h) n := by
  constructor
  · rw [← (C01_names h).2 n]
    unfold findParticleIndx
    have := findParticle_eq_length_iff (runReg h) n
    split
    · rename_i he
      have h2 := this.1 he
      simp only [List.mem_map, not_exists, not_and, true_iff]
      exact h2
    · rename_i hne
      rw [this] at hne
      constructor
      · intro h3; omega
      · intro h3; exfalso; apply hne; intro p hp e; exact h3 (List.mem_map.2 ⟨p, hp, e⟩)
  · unfold findParticleIndx; split <;> omega

/-- **C02**  Access by name returns the entry of that name, namely its first definition, and throws
exactly for names never added. -/
theorem C02_lookup [LinearOrder K] (h : List (RegOp K)) (n : String) :
    (∀ p, lookupName (runReg h) n = .ok p ↔ firstDefinition h n = some p) ∧
    ((∃ e, lookupName (runReg h) n = .error e) ↔ n ∉ (addedSpecies h).map Props.name) := by
  have h1 := C01_first_definition_once h n
  have hle := findParticle_le (runReg h) n
  by_cases he : findParticle (runReg h) n = (runReg h).length
  · have h2 := (findParticle_eq_length_iff _ _).1 he
    have h3 : lookupName (runReg h) n = .error ("particle species not loaded: '" ++ n ++ "'") := by
      simp [lookupName, he]
    have hf : (runReg h).filter (fun q => q.name = n) = [] := by
      simpa [List.filter_eq_nil_iff] using h2
    have h4 : firstDefinition h n = none := by
      rw [hf] at h1
      cases hc : firstDefinition h n with
      | none => rfl
      | some p => rw [hc] at h1; simp at h1
    have h5 : n ∉ (addedSpecies h).map Props.name := by
      rw [← (C01_names h).2 n]; simpa using h2
    rw [h3, h4]
    exact ⟨by simp, by simp [h5]⟩
  · have hlt := lt_of_le_of_ne hle he
    have hn := findParticle_get _ _ hlt
    have h3 : lookupName (runReg h) n = .ok ((runReg h)[findParticle (runReg h) n]) := by
      simp [lookupName, List.getElem?_eq_getElem hlt]
    have hm : (runReg h)[findParticle (runReg h) n] ∈ (runReg h).filter (fun q => q.name = n) :=
      List.mem_filter.2 ⟨List.getElem_mem hlt, by simp [hn]⟩
    rw [h1] at hm
    have h4 : firstDefinition h n = some ((runReg h)[findParticle (runReg h) n]) := by simpa using hm
    have h5 : n ∈ (addedSpecies h).map Props.name := by
      rw [← (C01_names h).2 n]; exact List.mem_map.2 ⟨_, List.getElem_mem hlt, hn⟩
    rw [h3, h4]
    exact ⟨by simp, by simp; simpa using h5⟩

/-- **C02**  Access to the interaction table by two names throws exactly if one of them was never
added, and otherwise is access by their two positions. -/
theorem C02_lookup_pair [LinearOrder K] {α : Type} (h : List (RegOp K)) (t : UTable α)
    (n m : String) :
    ((∃ e, lookupPair (runReg h) t n m = .error e) ↔
      n ∉ (addedSpecies h).map Props.name ∨ m ∉ (addedSpecies h).map Props.name) ∧
    ∀ i j : ℕ, ∀ p q : Props K, (runReg h)[i]? = some p → (runReg h)[j]? = some q →
      p.name = n → q.name = m → lookupPair (runReg h) t n m = .ok (t.get? i j) := by
  constructor
  · rw [← (C02_index_absent h n).1, ← (C02_index_absent h m).1]
    unfold lookupPair
    by_cases h1 : findParticleIndx (runReg h) n = -1 <;>
      by_cases h2 : findParticleIndx (runReg h) m = -1 <;> simp [h1, h2]
  · intro i j p q hi hj hp hq
    have h1 := (C02_index_iff h n i).2 ⟨p, hi, hp⟩
    have h2 := (C02_index_iff h m j).2 ⟨q, hj, hq⟩
    unfold lookupPair
    rw [h1, h2, if_neg (by omega), if_neg (by omega)]
    simp

/-- **C02**  The order of the two names does not matter. -/
theorem C02_lookup_symmetric [LinearOrder K] {α : Type} (h : List (RegOp K)) (t : UTable α)
    (n m : String) (c : Option α) :
    lookupPair (runReg h) t n m = .ok c ↔ lookupPair (runReg h) t m n = .ok c := by
  have hsym : ∀ i j, t.get? i j = t.get? j i := by
    intro i j
    unfold UTable.get?
    rw [min_comm, max_comm]
    simp only [and_comm]
  unfold lookupPair
  by_cases h1 : findParticleIndx (runReg h) n = -1 <;>
    by_cases h2 : findParticleIndx (runReg h) m = -1 <;> simp [h1, h2]
  rw [hsym]

example : findParticleIndx (runReg (K := ℕ) [.add ⟨"Ar", 40, 0⟩, .add ⟨"e", 1, 5⟩, .init]) "Ar" = 1
    ∧ findParticleIndx (runReg (K := ℕ) [.add ⟨"Ar", 40, 0⟩]) "He" = -1 := by decide +kernel

/-! ## C03 -/

/-- **C03**  Right after initialisation the species list is a rearrangement of the list before, strictly
increasing by mass then name. -/
theorem C03_sorted [LinearOrder K] (h : List (RegOp K)) :
    (runReg (h ++ [.init])).Perm (runReg h) ∧
    (runReg (h ++ [.init])).Pairwise MassNameBefore := by
  have he : runReg (h ++ [.init]) = sortProps (runReg h) := by simp [runReg, RegOp.apply]
  rw [he]
  refine ⟨sortProps_perm _, (sortProps_strict (nodupNames_run h)).imp ?_⟩
  intro a b hab
  exact (Props.lt_iff a b).1 hab

/-- **C03**  The list of species is the only rearrangement of itself that is increasing by mass then
name, so any sorting algorithm gives it. -/
theorem C03_sort_unique [LinearOrder K] (h : List (RegOp K)) (s : Registry K)
    (hp : s.Perm (runReg h)) (hs : s.Pairwise (fun a b => ¬ MassNameBefore b a)) :
    s = runReg (h ++ [.init]) := by
  have h1 := C03_sorted h
  have hnd : NodupNames s := (nodupNames_of_perm hp).2 (nodupNames_run h)
  have hs' : s.Pairwise MassNameBefore := by
    have h2 : s.Pairwise (fun a b => a.name ≠ b.name) := by
      have := hnd; unfold NodupNames at this; rwa [List.Nodup, List.pairwise_map] at this
    refine (hs.and h2).imp ?_
    intro a b ⟨h3, h4⟩
    rcases Props.total h4 with h5 | h5
    · exact (Props.lt_iff a b).1 h5
    · exact absurd ((Props.lt_iff b a).1 h5) h3
  refine List.Perm.eq_of_pairwise ?_ hs' h1.2 (hp.trans h1.1.symm)
  intro a b _ _ hab hba
  have := Props.lt_asymm ((Props.lt_iff a b).2 hab)
  rw [(Props.lt_iff b a).2 hba] at this
  cases this

/-- **C03**  Two histories that leave the same set of definitions in force give every species the same
index after initialisation, whatever the order of addition. -/
theorem C03_order_independent [LinearOrder K] (h₁ h₂ : List (RegOp K))
    (hsame : ∀ n, firstDefinition h₁ n = firstDefinition h₂ n) :
    runReg (h₁ ++ [.init]) = runReg (h₂ ++ [.init]) := by
  apply C03_sort_unique
  · refine (C03_sorted h₁).1.trans ?_
    rw [List.perm_ext_iff_of_nodup
      (List.Nodup.of_map _ (nodupNames_run h₁)) (List.Nodup.of_map _ (nodupNames_run h₂))]
    intro p
    have key : ∀ h : List (RegOp K), p ∈ runReg h ↔ firstDefinition h p.name = some p := by
      intro h
      have h1 := C01_first_definition_once h p.name
      constructor
      · intro hp
        have : p ∈ (runReg h).filter (fun q => q.name = p.name) := List.mem_filter.2 ⟨hp, by simp⟩
        rw [h1] at this; simpa using this
      · intro hp
        have : p ∈ (runReg h).filter (fun q => q.name = p.name) := by rw [h1, hp]; simp
        exact (List.mem_filter.1 this).1
    rw [key h₁, key h₂, hsame]
  · refine (C03_sorted h₁).2.imp ?_
    intro a b hab hba
    have := Props.lt_asymm ((Props.lt_iff a b).2 hab)
    rw [(Props.lt_iff b a).2 hba] at this
    cases this

/-- **C03**  After initialisation a smaller index never means a larger mass. -/
theorem C03_mass_monotone [LinearOrder K] (h : List (RegOp K)) (i j : ℕ) (p q : Props K)
    (hij : i ≤ j) (hi : (runReg (h ++ [.init]))[i]? = some p)
    (hj : (runReg (h ++ [.init]))[j]? = some q) : p.mass ≤ q.mass := by
  rcases hij.eq_or_lt with rfl | hlt
  · rw [hi] at hj; cases hj; exact le_rfl
  · obtain ⟨hi', rfl⟩ := List.getElem?_eq_some_iff.1 hi
    obtain ⟨hj', rfl⟩ := List.getElem?_eq_some_iff.1 hj
    rcases List.pairwise_iff_getElem.1 (C03_sorted h).2 i j hi' hj' hlt with h1 | ⟨h1, _⟩
    · exact h1.le
    · exact h1.le

/-- Two orders of addition of three species with a tie in mass. -/
example : runReg (K := ℕ) [.add ⟨"b", 2, 0⟩, .add ⟨"e", 1, 1⟩, .add ⟨"a", 2, 0⟩, .init] =
    [⟨"e", 1, 1⟩, ⟨"a", 2, 0⟩, ⟨"b", 2, 0⟩] ∧
  runReg (K := ℕ) [.add ⟨"a", 2, 0⟩, .init, .add ⟨"b", 2, 0⟩, .add ⟨"e", 1, 1⟩, .init] =
    [⟨"e", 1, 1⟩, ⟨"a", 2, 0⟩, ⟨"b", 2, 0⟩] := by decide +kernel

/-! ## C04 -/

/-- **C04**  The comparator is a strict total order on species with different names. -/
theorem C04_comparator [LinearOrder K] :
    (∀ a : Props K, a.lt a = false) ∧
    (∀ a b c : Props K, a.lt b = true → b.lt c = true → a.lt c = true) ∧
    (∀ a b : Props K, a.name ≠ b.name → (a.lt b = true ↔ b.lt a = false)) ∧
    (∀ a b c : Props K, a.lt b = false → b.lt a = false → b.lt c = false → c.lt b = false →
      a.lt c = false ∧ c.lt a = false) := by
  refine ⟨Props.lt_irrefl, fun a b c => Props.lt_trans, ?_, ?_⟩
  · intro a b hn
    constructor
    · exact Props.lt_asymm
    · intro h
      rcases Props.total hn with h1 | h1
      · exact h1
      · rw [h] at h1; cases h1
  · intro a b c h1 h2 h3 h4
    exact ⟨Props.not_lt_trans h1 h3, Props.not_lt_trans h4 h2⟩

/-- **C04**  The comparator orders by mass and, for equal masses, by name. -/
theorem C04_comparator_meaning [LinearOrder K] (a b : Props K) :
    a.lt b = true ↔ MassNameBefore a b := Props.lt_iff a b

example : (⟨"Rb", 87, 0⟩ : Props ℕ).lt ⟨"Sr", 87, 0⟩ = true ∧
    (⟨"Sr", 87, 0⟩ : Props ℕ).lt ⟨"Rb", 87, 0⟩ = false := by decide +kernel

end Chimp
