import Verif.Model.Write
import Verif.Props.Session

/-!
# C102: writing through references

What a program finds after it has assigned to the species or to the sets of equations that the access operators return,
and what that does to equations that are loaded or created before and after.
-/

namespace Chimp

variable {S W : Type}

/-! ## Specification vocabulary -/

/-- Only the species list may differ. -/
def SameButSpecies (s s' : Session W) : Prop :=
  s'.doc = s.doc ∧ s'.filter = s.filter ∧ s'.dflt = s.dflt ∧ s'.table = s.table

/-- Only the table may differ. -/
def SameButTable (s s' : Session W) : Prop :=
  s'.doc = s.doc ∧ s'.filter = s.filter ∧ s'.dflt = s.dflt ∧ s'.props = s.props ∧ s'.table.side = s.table.side

/-- Position `i` is the first one with this name. -/
def FirstNamed (r : Registry ℝ) (n : String) (i : ℕ) : Prop :=
  (∃ p, r[i]? = some p ∧ p.name = n) ∧ ∀ j < i, ∀ q, r[j]? = some q → q.name ≠ n

/-- The reduced masses of an equation are those of its reactants in this species list. -/
def MassesOf (db : Registry ℝ) (w : WEq W) : Prop :=
  ∃ a b, db[w.eq.A.species.toNat]? = some a ∧ db[w.eq.B.species.toNat]? = some b ∧ w.mu = ReducedMass.mk' a.mass b.mass

/-- A write to a species. -/
def Use.WritesSpecies : Use W → Prop
  | .species _ _ => True
  | .speciesNamed _ _ => True
  | .speciesFound _ _ => True
  | _ => False

/-- A write to a set of equations. -/
def Use.WritesSet : Use W → Prop
  | .set _ _ _ => True
  | .setNamed _ _ _ => True
  | _ => False

/-- `initBinaryInteractions` or one of the `createMissingElasticCrossSections`. -/
def Use.MakesEquations : Use W → Prop
  | .call .init => True
  | .call (.create _ _ _ _) => True
  | .call (.createNames _ _ _ _) => True
  | _ => False

/-- If the step writes to a species then it leaves the name. -/
def Use.KeepsNames : Use W → Prop
  | .species _ f => ∀ p, (f p).name = p.name
  | .speciesNamed _ f => ∀ p, (f p).name = p.name
  | .speciesFound _ f => ∀ p, (f p).name = p.name
  | _ => True

/-! ## Lemmas -/

private theorem writeSpecies_eq (s : Session W) (k : ℕ) (hk : k < s.props.length) (f : Props ℝ → Props ℝ) :
    s.writeSpecies k f = some { s with props := s.props.modify k f } := by
  unfold Session.writeSpecies
  rw [if_pos ⟨Int.natCast_nonneg k, by exact_mod_cast hk⟩, Int.toNat_natCast]

private theorem writeSpecies_none (s : Session W) (i : ℤ) (f : Props ℝ → Props ℝ) :
    s.writeSpecies i f = none ↔ ¬ (0 ≤ i ∧ i < s.props.length) := by
  unfold Session.writeSpecies
  split <;> simp_all

private theorem findParticle_first (r : Registry ℝ) (n : String) (h : findParticle r n ≠ r.length) :
    FirstNamed r n (findParticle r n) ∧ findParticle r n < r.length := by
  have hlt : findParticle r n < r.length := lt_of_le_of_ne (findParticle_le r n) h
  refine ⟨⟨⟨_, List.getElem?_eq_getElem hlt, findParticle_get r n hlt⟩, ?_⟩, hlt⟩
  clear h hlt
  induction r with
  | nil => intro j hj; simp [findParticle] at hj
  | cons p ps ih =>
    intro j hj q hq
    unfold findParticle at hj
    split at hj
    · omega
    rename_i hn
    cases j with
    | zero => simp only [List.getElem?_cons_zero, Option.some.injEq] at hq; rw [← hq]; exact Ne.symm hn
    | succ j => exact ih j (by omega) q (by simpa using hq)

private theorem FirstNamed.eq {r : Registry ℝ} {n : String} {i : ℕ} (h : FirstNamed r n i) : findParticle r n = i := by
  obtain ⟨⟨p, hp, hpn⟩, hj⟩ := h
  have hne : findParticle r n ≠ r.length := fun hc =>
    (findParticle_eq_length_iff r n).1 hc p (List.mem_of_getElem? hp) hpn
  obtain ⟨⟨⟨q, hq, hqn⟩, hj'⟩, -⟩ := findParticle_first r n hne
  rcases lt_trichotomy (findParticle r n) i with h | h | h
  · exact absurd hqn (hj _ h q hq)
  · exact h
  · exact absurd hpn (hj' _ h p hp)

private theorem FirstNamed.indx {r : Registry ℝ} {n : String} {i : ℕ} (h : FirstNamed r n i) : findParticleIndx r n = i := by
  have hlt : i < r.length := by
    obtain ⟨⟨p, hp, -⟩, -⟩ := h
    exact (List.getElem?_eq_some_iff.1 hp).1
  unfold findParticleIndx
  rw [h.eq, if_neg (by omega)]

private theorem indx_of_missing {r : Registry ℝ} {n : String} (h : ∀ p ∈ r, p.name ≠ n) : findParticleIndx r n = -1 := by
  unfold findParticleIndx
  rw [if_pos ((findParticle_eq_length_iff r n).2 h)]

private theorem firstNamed_or (r : Registry ℝ) (n : String) : (∀ p ∈ r, p.name ≠ n) ∨ ∃ i, FirstNamed r n i := by
  by_cases h : findParticle r n = r.length
  · exact .inl ((findParticle_eq_length_iff r n).1 h)
  · exact .inr ⟨_, (findParticle_first r n h).1⟩

private theorem map_modify_names {r : Registry ℝ} {f : Props ℝ → Props ℝ} (hf : ∀ p, (f p).name = p.name) (k : ℕ) :
    (r.modify k f).map Props.name = r.map Props.name := by
  apply List.ext_getElem?
  intro j
  rw [List.getElem?_map, List.getElem?_map, List.getElem?_modify]
  split
  · cases r[j]? <;> simp [hf]
  · simp

private theorem findParticle_map {r r' : Registry ℝ} (h : r.map Props.name = r'.map Props.name) (n : String) :
    findParticle r n = findParticle r' n := by
  induction r generalizing r' with
  | nil => cases r' with | nil => rfl | cons _ _ => simp at h
  | cons p ps ih =>
    cases r' with
    | nil => simp at h
    | cons q qs =>
      simp only [List.map_cons, List.cons.injEq] at h
      unfold findParticle
      rw [h.1, ih h.2]

/-! ## C102 -/

/-- **C102**  `db[i] = ...` is undefined exactly if there is no species `i`.  Otherwise it changes species `i` and
nothing else. -/
theorem C102_species (T : Tools W) (auto : Bool) (s : Session W) (i : ℤ) (f : Props ℝ → Props ℝ) :
    ((Use.species i f).run T auto s = none ↔ ¬ (0 ≤ i ∧ i < s.props.length)) ∧
    ∀ s' r, (Use.species i f).run T auto s = some (s', r) →
      r = .ok 0 ∧ SameButSpecies s s' ∧ s'.props.length = s.props.length ∧
      (∀ j : ℕ, (j : ℤ) ≠ i → s'.props[j]? = s.props[j]?) ∧
      ∀ (j : ℕ) p, (j : ℤ) = i → s.props[j]? = some p → s'.props[j]? = some (f p) := by
  refine ⟨by simp [Use.run, writeSpecies_none], fun s' r h => ?_⟩
  simp only [Use.run, Option.map_eq_some_iff, Prod.mk.injEq] at h
  obtain ⟨x, hx, rfl, rfl⟩ := h
  unfold Session.writeSpecies at hx
  split at hx
  · rename_i hi
    cases hx
    refine ⟨rfl, ⟨rfl, rfl, rfl, rfl⟩, List.length_modify .., fun j hj => ?_, fun j p hj hp => ?_⟩
    · show (s.props.modify i.toNat f)[j]? = _
      have hne : i.toNat ≠ j := by omega
      simp [hne]
    · show (s.props.modify i.toNat f)[j]? = _
      have he : i.toNat = j := by omega
      simp [he, hp]
  · cases hx

/-- **C102**  `db["n"] = ...` throws if no species has the name, naming it, and changes nothing; writing through the
iterator of `findParticle("n")` is undefined then.  Otherwise both change the first species of that name and nothing
else. -/
theorem C102_species_named (T : Tools W) (auto : Bool) (s : Session W) (n : String) (f : Props ℝ → Props ℝ) :
    ((∀ p ∈ s.props, p.name ≠ n) →
      (Use.speciesNamed n f).run T auto s = some (s, .error (.notLoaded ("particle species not loaded: '" ++ n ++ "'"))) ∧
      (Use.speciesFound n f).run T auto s = none) ∧
    ((∃ p ∈ s.props, p.name = n) → ∃ i : ℕ, FirstNamed s.props n i ∧
      (Use.speciesNamed n f).run T auto s = (Use.species i f).run T auto s ∧
      (Use.speciesFound n f).run T auto s = (Use.species i f).run T auto s) := by
  constructor
  · intro h
    have hl := (findParticle_eq_length_iff s.props n).2 h
    refine ⟨by simp only [Use.run, hl, if_true]; rfl, ?_⟩
    simp only [Use.run, hl, Option.map_eq_none_iff]
    rw [writeSpecies_none]
    omega
  · rintro ⟨p, hp, hn⟩
    have hl : findParticle s.props n ≠ s.props.length := fun hc => (findParticle_eq_length_iff s.props n).1 hc p hp hn
    refine ⟨_, (findParticle_first s.props n hl).1, ?_, rfl⟩
    simp only [Use.run, if_neg hl]

/-- **C102**  `db(i,j) = ...` is undefined exactly if an index is outside the table.  Otherwise it changes what `db(i,j)`
and `db(j,i)` return and nothing else. -/
theorem C102_set (T : Tools W) (auto : Bool) (s : Session W) (i j : ℤ) (f : WSet W → WSet W) :
    ((Use.set i j f).run T auto s = none ↔ ¬ ((0 ≤ i ∧ i < s.table.side) ∧ 0 ≤ j ∧ j < s.table.side)) ∧
    ∀ s' r, (Use.set i j f).run T auto s = some (s', r) →
      r = .ok 0 ∧ SameButTable s s' ∧
      (∀ A B : ℕ, ((A : ℤ) = i ∧ (B : ℤ) = j) ∨ ((A : ℤ) = j ∧ (B : ℤ) = i) →
        ∃ x, s.table.get? A B = some x ∧ s'.table.get? A B = some (f x)) ∧
      ∀ A B : ℕ, ¬ (((A : ℤ) = i ∧ (B : ℤ) = j) ∨ ((A : ℤ) = j ∧ (B : ℤ) = i)) →
        s'.table.get? A B = s.table.get? A B := by
  constructor
  · simp only [Use.run, Option.map_eq_none_iff]
    unfold Session.writeSet
    split <;> simp_all
  · intro s' r h
    simp only [Use.run, Option.map_eq_some_iff, Prod.mk.injEq] at h
    obtain ⟨x, hx, rfl, rfl⟩ := h
    unfold Session.writeSet at hx
    split at hx
    swap
    · cases hx
    rename_i hi
    cases hx
    obtain ⟨⟨hi0, hi1⟩, hj0, hj1⟩ := hi
    refine ⟨rfl, ⟨rfl, rfl, rfl, rfl, rfl⟩, fun A B hAB => ?_, fun A B hAB => ?_⟩
    · refine ⟨s.table.cell (min A B) (max A B), ?_, ?_⟩
      · unfold UTable.get?
        rw [if_pos (by omega)]
      · unfold UTable.get? UTable.modify
        dsimp only
        rw [if_pos (by omega), if_pos (by omega)]
    · unfold UTable.get? UTable.modify
      dsimp only
      split
      · rw [if_neg (by omega)]
      · rfl

/-- **C102**  `db("n","m") = ...` throws for the first of the two names that no species has, and changes nothing then.
Otherwise it is the write to the entry of the first species of these names. -/
theorem C102_set_named (T : Tools W) (auto : Bool) (s : Session W) (n m : String) (f : WSet W → WSet W) :
    ((∀ p ∈ s.props, p.name ≠ n) → (Use.setNamed n m f).run T auto s =
      some (s, .error (.notLoaded ("particle species not loaded: '" ++ n ++ "'")))) ∧
    ((∃ p ∈ s.props, p.name = n) → (∀ p ∈ s.props, p.name ≠ m) → (Use.setNamed n m f).run T auto s =
      some (s, .error (.notLoaded ("particle species not loaded: '" ++ m ++ "'")))) ∧
    ((∃ p ∈ s.props, p.name = n) → (∃ p ∈ s.props, p.name = m) → ∃ i j : ℕ, FirstNamed s.props n i ∧
      FirstNamed s.props m j ∧ (Use.setNamed n m f).run T auto s = (Use.set i j f).run T auto s) := by
  have key : ∀ {n : String}, (∃ p ∈ s.props, p.name = n) → ∃ i, FirstNamed s.props n i ∧ findParticleIndx s.props n = (i : ℕ) := by
    rintro n ⟨p, hp, hn⟩
    rcases firstNamed_or s.props n with h | ⟨i, h⟩
    · exact absurd hn (h p hp)
    · exact ⟨i, h, h.indx⟩
  refine ⟨fun h => ?_, fun hn h => ?_, fun hn hm => ?_⟩
  · simp only [Use.run, indx_of_missing h, if_true]; rfl
  · obtain ⟨i, -, hi⟩ := key hn
    simp only [Use.run, indx_of_missing h, hi, if_true]
    rw [if_neg (by omega)]; rfl
  · obtain ⟨i, hi, hi'⟩ := key hn
    obtain ⟨j, hj, hj'⟩ := key hm
    refine ⟨i, j, hi, hj, ?_⟩
    simp only [Use.run, hi', hj']
    rw [if_neg (by omega), if_neg (by omega)]

/-- **C102**  A write to a species that leaves its name changes no lookup by name and no decision to refuse a species. -/
theorem C102_lookups_kept (T : Tools W) (auto : Bool) {s s' : Session W} {u : Use W} (hu : u.WritesSpecies)
    (hk : u.KeepsNames) {r} (h : u.run T auto s = some (s', r)) :
    s'.props.map Props.name = s.props.map Props.name ∧
    (∀ n, findParticleIndx s'.props n = findParticleIndx s.props n) ∧
    ∀ p : Props ℝ, addParticleType s'.props p = s'.props ↔ addParticleType s.props p = s.props := by
  have hm : s'.props.map Props.name = s.props.map Props.name := by
    have hw : ∀ (i : ℤ) (f : Props ℝ → Props ℝ) (x : Session W), (∀ p, (f p).name = p.name) → s.writeSpecies i f = some x →
        x.props.map Props.name = s.props.map Props.name := by
      intro i f x hf hx
      unfold Session.writeSpecies at hx
      split at hx
      · cases hx; exact map_modify_names hf _
      · cases hx
    cases u with
    | call c => exact hu.elim
    | set => exact hu.elim
    | setNamed => exact hu.elim
    | species i f =>
      simp only [Use.run, Option.map_eq_some_iff, Prod.mk.injEq] at h
      obtain ⟨x, hx, rfl, -⟩ := h
      exact hw _ _ _ hk hx
    | speciesFound n f =>
      simp only [Use.run, Option.map_eq_some_iff, Prod.mk.injEq] at h
      obtain ⟨x, hx, rfl, -⟩ := h
      exact hw _ _ _ hk hx
    | speciesNamed n f =>
      simp only [Use.run] at h
      split at h
      · cases h; rfl
      · simp only [Option.map_eq_some_iff, Prod.mk.injEq] at h
        obtain ⟨x, hx, rfl, -⟩ := h
        exact hw _ _ _ hk hx
  have hlen : s'.props.length = s.props.length := by simpa using congrArg List.length hm
  refine ⟨hm, fun n => ?_, fun p => ?_⟩
  · unfold findParticleIndx
    rw [findParticle_map hm n, hlen]
  · unfold addParticleType
    rw [findParticle_map hm p.name, hlen]
    split <;> simp

/-- **C102**  Renaming species `i` of a list with distinct names.  If the new name is free then names stay distinct, the
new name finds the species and the old one finds none.  If another species `k` has it then the name finds the first of
the two, so the other one cannot be reached by a name any more. -/
theorem C102_rename {r : Registry ℝ} (hr : NodupNames r) {i : ℕ} {p : Props ℝ} (hi : r[i]? = some p) {n : String}
    (hn : n ≠ p.name) :
    let r' := r.modify i fun x => { x with name := n }
    findParticleIndx r' p.name = -1 ∧
    ((∀ q ∈ r, q.name ≠ n) → NodupNames r' ∧ findParticleIndx r' n = i) ∧
    ∀ (k : ℕ) q, r[k]? = some q → q.name = n → ¬ NodupNames r' ∧ findParticleIndx r' n = (min i k : ℕ) ∧
      ∀ m : String, findParticleIndx r' m ≠ (max i k : ℕ) := by
  intro r'
  obtain ⟨hlt, -⟩ := List.getElem?_eq_some_iff.1 hi
  have hlen : r'.length = r.length := List.length_modify ..
  have hget : ∀ j : ℕ, r'[j]? = if i = j then some { p with name := n } else r[j]? := by
    intro j
    show (r.modify i _)[j]? = _
    rw [List.getElem?_modify]
    split
    · rename_i h; subst h; rw [hi]; rfl
    · simp
  have huniq : ∀ (j k : ℕ) a b, r[j]? = some a → r[k]? = some b → a.name = b.name → j = k := by
    intro j k a b ha hb hab
    rw [← findParticle_unique hr ha, ← findParticle_unique hr hb, hab]
  have hii : r'[i]? = some { p with name := n } := by rw [hget, if_pos rfl]
  refine ⟨?_, fun hfree => ?_, fun k q hk hq => ?_⟩
  · refine indx_of_missing fun x hx hxn => ?_
    obtain ⟨j, hj⟩ := List.mem_iff_getElem?.1 hx
    rw [hget] at hj
    split at hj
    · cases hj; exact hn hxn
    · rename_i hne; exact hne (huniq _ _ _ _ hi hj hxn.symm)
  · have hfirst : FirstNamed r' n i := by
      refine ⟨⟨_, hii, rfl⟩, fun j hj q hq => ?_⟩
      rw [hget, if_neg (by omega)] at hq
      exact hfree q (List.mem_of_getElem? hq)
    refine ⟨?_, hfirst.indx⟩
    unfold NodupNames
    rw [List.Nodup, List.pairwise_iff_getElem]
    intro a b ha hb hab
    rw [List.length_map] at ha hb
    rw [List.getElem_map, List.getElem_map]
    intro he
    have hra := List.getElem?_eq_getElem ha
    have hrb := List.getElem?_eq_getElem hb
    rw [hget] at hra hrb
    split at hra <;> split at hrb
    · omega
    · injection hra with hra
      rw [← hra] at he
      exact hfree _ (List.mem_of_getElem? hrb) he.symm
    · injection hrb with hrb
      rw [← hrb] at he
      exact hfree _ (List.mem_of_getElem? hra) he
    · have := huniq _ _ _ _ hra hrb he
      omega
  · have hki : i ≠ k := by
      rintro rfl
      rw [hi] at hk; cases hk
      exact hn hq.symm
    have hkk : r'[k]? = some q := by rw [hget, if_neg hki, hk]
    have hfirst : FirstNamed r' n (min i k) := by
      constructor
      · rcases min_choice i k with h | h
        · exact ⟨_, by rw [h]; exact hii, rfl⟩
        · exact ⟨q, by rw [h]; exact hkk, hq⟩
      · intro j hj x hx hxn
        rw [hget, if_neg (by omega)] at hx
        have := huniq _ _ _ _ hx hk (hxn.trans hq.symm)
        omega
    refine ⟨fun hnd => ?_, hfirst.indx, fun m hm => ?_⟩
    · have h1 := findParticle_unique hnd hii
      have h2 := findParticle_unique hnd hkk
      rw [hq] at h2
      exact hki (h1.symm.trans h2)
    · rcases firstNamed_or r' m with h | ⟨l, h⟩
      · rw [indx_of_missing h] at hm
        omega
      · rw [h.indx] at hm
        have hl : l = max i k := by exact_mod_cast hm
        obtain ⟨⟨x, hx, hxm⟩, hj⟩ := h
        have hxn : x.name = n := by
          rw [hl] at hx
          rcases max_choice i k with h | h
          · rw [h, hii] at hx; cases hx; rfl
          · rw [h, hkk] at hx; cases hx; exact hq
        obtain ⟨⟨y, hy, hyn⟩, -⟩ := hfirst
        exact hj (min i k) (by omega) y hy (hyn.trans (hxn.symm.trans hxm))

/-! ### Equations and the species they were made for -/

private theorem pushAll_from {T : Tools W} {d : SDoc} {db : Registry ℝ} (ks : List ℕ) (l : List (WEq W)) :
    ∀ w ∈ (pushAll T d db ks l).1, w ∈ l ∨ MassesOf db w := by
  obtain ⟨es, h1, h2, -, -⟩ := pushAll_spec (T := T) (d := d) (db := db) ks l
  intro w hw
  rw [h1] at hw
  rcases List.mem_append.1 hw with hw | hw
  · exact .inl hw
  · obtain ⟨k, -, hk⟩ := h2 w hw
    obtain ⟨x, -, -, hc⟩ := loadNode_ok hk
    obtain ⟨a, b, ha, hb, -, hmu, -⟩ := completeEq_ok hc
    exact .inr ⟨a, b, ha, hb, hmu⟩

private theorem fillW_from {T : Tools W} {d : SDoc} {f : Filter} {db : Registry ℝ} : ∀ (l : List (ℕ × ℕ)) (t : UTable (WSet W)),
    (∀ A B, (A, B) ∈ l → A ≤ B) →
    (fillW T d f db l t).1.side = t.side ∧
    ∀ A B, ∀ w ∈ ((fillW T d f db l t).1.cell A B).rhs, w ∈ (t.cell A B).rhs ∨ MassesOf db w
  | [], t, _ => ⟨rfl, fun A B w hw => .inl hw⟩
  | (A, B) :: l, t, hl => by
    have hAB : A ≤ B := hl A B List.mem_cons_self
    rw [fillW]
    split
    swap
    · exact ⟨rfl, fun _ _ w hw => .inl hw⟩
    rename_i a b _ _
    dsimp only
    have hmod : ∀ X Y, ∀ w ∈ ((t.modify A B fun _ => ⟨(Term.single A, Term.single B), (pushAll T d db
        (f.apply d.doc (queryNodes d.doc db A B a.name b.name)) (t.cell (min A B) (max A B)).rhs).1⟩).cell X Y).rhs,
        w ∈ (t.cell X Y).rhs ∨ MassesOf db w := by
      intro X Y w hw
      unfold UTable.modify at hw
      dsimp only at hw
      split at hw
      · rename_i hc
        have := pushAll_from _ _ w hw
        rwa [← hc.1, ← hc.2] at this
      · exact .inl hw
    split
    · exact ⟨rfl, hmod⟩
    · obtain ⟨i1, i2⟩ := fillW_from l (t.modify A B fun _ => ⟨(Term.single A, Term.single B), (pushAll T d db
        (f.apply d.doc (queryNodes d.doc db A B a.name b.name)) (t.cell (min A B) (max A B)).rhs).1⟩)
        (fun X Y h => hl X Y (List.mem_cons_of_mem _ h)) (T := T) (d := d) (f := f) (db := db)
      exact ⟨i1, fun X Y w hw => (i2 X Y w hw).elim (hmod X Y w) .inr⟩

/-- What a step of the creating loop adds. -/
private theorem cmStepW_new {T : Tools W} {db : Registry ℝ} {vmax dv : ℝ} {t t' : UTable (WSet W)} {a b : ℕ} {added : Bool}
    (h : cmStepW T db vmax dv t a b = .ok (t', added)) :
    t' = t ∨ ∃ w wa wb p q, t' = pushEq t a b w ∧ MassesOf db w ∧ FirstElasticW (t.cell a a).rhs wa ∧
      FirstElasticW (t.cell b b).rhs wb ∧ 0 ≤ wa.eq.A.species ∧ 0 ≤ wb.eq.A.species ∧
      db[wa.eq.A.species.toNat]? = some p ∧ db[wb.eq.A.species.toNat]? = some q ∧
      ((p.mass ≤ q.mass ∧ w.eq.A = wa.eq.A ∧ w.eq.B = wb.eq.A) ∨ (q.mass < p.mass ∧ w.eq.A = wb.eq.A ∧ w.eq.B = wa.eq.A)) ∧
      w.model = .elastic ∧ a ≠ b := by
  unfold cmStepW at h
  split at h
  swap
  · cases h
  rename_i sii sjj sij h1 h2 h3
  have cell : ∀ {x : ℕ} {c : WSet W}, t.get? x x = some c → c = t.cell x x := by
    intro x c hx
    unfold UTable.get? at hx
    split at hx
    · simpa using hx.symm
    · cases hx
  split at h
  swap
  · cases h; exact .inl rfl
  rename_i hcond
  have hab : a ≠ b := by
    rintro rfl
    rw [h1] at h3
    cases h3
    simp at hcond
  split at h
  swap
  · cases h
  rename_i eii ejj g1 g2
  rw [getElastic_iff, cell h1] at g1
  rw [getElastic_iff, cell h2] at g2
  split at h
  · cases h
  split at h
  · cases h
  rename_i A B hord
  unfold orderByMass at hord
  split at hord
  · cases hord
  rename_i hneg
  push Not at hneg
  split at hord
  swap
  · cases hord
  rename_i p q hp hq
  have hsplit : (p.mass ≤ q.mass ∧ A = eii.eq.A ∧ B = ejj.eq.A) ∨ (q.mass < p.mass ∧ A = ejj.eq.A ∧ B = eii.eq.A) := by
    split at hord
    · rename_i hle; cases hord; exact .inl ⟨hle, rfl, rfl⟩
    · rename_i hle; cases hord; exact .inr ⟨not_le.1 hle, rfl, rfl⟩
  split at h
  swap
  · cases h
  rename_i x y hx hy
  dsimp only at h
  split at h
  · cases h
    exact .inr ⟨_, eii, ejj, p, q, rfl, ⟨x, y, hx, hy, rfl⟩, g1, g2, hneg.1, hneg.2, hp, hq, hsplit, rfl, hab⟩
  split at h
  swap
  · cases h; exact .inl rfl
  split at h
  · cases h
  · cases h
  · cases h
    exact .inr ⟨_, eii, ejj, p, q, rfl, ⟨x, y, hx, hy, rfl⟩, g1, g2, hneg.1, hneg.2, hp, hq, hsplit, rfl, hab⟩

private theorem cmLoopW_from {T : Tools W} {db : Registry ℝ} {vmax dv : ℝ} : ∀ (l : List (ℕ × ℕ)) (t : UTable (WSet W)) (n : ℕ),
    (cmLoopW T db vmax dv l t n).1.side = t.side ∧
    ∀ A B, ∀ w ∈ ((cmLoopW T db vmax dv l t n).1.cell A B).rhs, w ∈ (t.cell A B).rhs ∨ MassesOf db w
  | [], t, n => ⟨rfl, fun A B w hw => .inl hw⟩
  | (a, b) :: l, t, n => by
    rw [cmLoopW]
    split
    · exact ⟨rfl, fun _ _ w hw => .inl hw⟩
    rename_i t' added hstep
    obtain ⟨i1, i2⟩ := cmLoopW_from l t' (if added then n + 1 else n) (T := T) (db := db) (vmax := vmax) (dv := dv)
    rcases cmStepW_new hstep with rfl | ⟨w, -, -, -, -, rfl, hw, -⟩
    · exact ⟨i1, i2⟩
    · refine ⟨i1, fun A B x hx => (i2 A B x hx).elim (fun h => ?_) .inr⟩
      rcases pushEq_cell t w h with h | ⟨rfl, -⟩
      · exact .inl h
      · exact .inr hw

private theorem eqs_cell (s : Session W) (A B : ℕ) (w : WEq W) : w ∈ s.eqs A B ↔
    (A < s.table.side ∧ B < s.table.side) ∧ w ∈ (s.table.cell (min A B) (max A B)).rhs := by
  unfold Session.eqs UTable.get?
  by_cases h : A < s.table.side ∧ B < s.table.side
  · simp [h]
  · rw [if_neg h]; simp [h]

private theorem init_from {T : Tools W} {auto : Bool} {s : Session W} {A B : ℕ} {w : WEq W}
    (hw : w ∈ (s.init T auto).1.eqs A B) : w ∈ s.eqs A B ∨ MassesOf (s.init T auto).1.props w := by
  have hpairs : ∀ X Y, (X, Y) ∈ indexPairs (sortProps s.props).length → X ≤ Y := fun X Y h => ((mem_indexPairs _ _ _).1 h).1
  obtain ⟨f1, f2⟩ := fillW_from (T := T) (d := s.doc) (f := s.filter) (db := sortProps s.props)
    (indexPairs (sortProps s.props).length) (resizeW s.table (sortProps s.props).length) hpairs
  have base : ∀ X Y, X ≤ Y → ∀ x ∈ ((resizeW s.table (sortProps s.props).length).cell X Y).rhs, x ∈ s.eqs X Y := by
    intro X Y hXY x hx
    unfold resizeW at hx
    dsimp only at hx
    split at hx
    · rename_i hs
      rw [eqs_cell, min_eq_left hXY, max_eq_right hXY]
      exact ⟨⟨by omega, hs⟩, hx⟩
    · simp at hx
  have symm : ∀ {x : WEq W}, x ∈ s.eqs (min A B) (max A B) → x ∈ s.eqs A B := by
    intro x hx
    rw [eqs_cell] at hx ⊢
    rw [min_eq_left min_le_max, max_eq_right min_le_max] at hx
    exact ⟨by omega, hx.2⟩
  unfold Session.init at hw ⊢
  dsimp only at hw ⊢
  split at hw
  · rw [eqs_cell] at hw
    exact (f2 _ _ w hw.2).imp (fun h => symm (base _ _ min_le_max w h)) id
  split at hw
  · rename_i ha
    rw [if_pos ha]
    unfold Session.create at hw ⊢
    dsimp only at hw ⊢
    rw [eqs_cell] at hw
    rcases (cmLoopW_from _ _ _).2 _ _ w hw.2 with h | h
    · exact (f2 _ _ w h).imp (fun h => symm (base _ _ min_le_max w h)) id
    · exact .inr h
  · rename_i ha
    rw [if_neg ha]
    rw [eqs_cell] at hw
    exact (f2 _ _ w hw.2).imp (fun h => symm (base _ _ min_le_max w h)) id

private theorem create_from {T : Tools W} {i j : ℤ} {vmax dv : ℝ} {s : Session W} {A B : ℕ} {w : WEq W}
    (hw : w ∈ (s.create T i j vmax dv).1.eqs A B) : w ∈ s.eqs A B ∨ MassesOf s.props w := by
  unfold Session.create at hw
  dsimp only at hw
  rw [eqs_cell] at hw
  obtain ⟨c1, c2⟩ := cmLoopW_from (T := T) (db := s.props) (vmax := (effectiveRange s.dflt.vmax s.dflt.dv vmax dv).1)
    (dv := (effectiveRange s.dflt.vmax s.dflt.dv vmax dv).2) (cmPairs s.props.length i j) s.table 0
  refine (c2 _ _ w hw.2).imp (fun h => ?_) id
  rw [eqs_cell]
  exact ⟨by simpa [c1] using hw.1, h⟩

private theorem call_from {T : Tools W} {auto : Bool} {c : Call} {s : Session W} {A B : ℕ} {w : WEq W}
    (hw : w ∈ (c.run T auto s).1.eqs A B) :
    w ∈ s.eqs A B ∨ ((Use.call c : Use W).MakesEquations ∧ MassesOf (c.run T auto s).1.props w) := by
  cases c with
  | document d => exact .inl hw
  | filter f => exact .inl hw
  | defaults d => exact .inl hw
  | add p => exact .inl hw
  | addNames ns => exact .inl hw
  | addModel m =>
    refine .inl ?_
    have : ((Call.addModel m).run T auto s).1.table = s.table := by
      show (s.addModel m).1.table = _
      unfold Session.addModel
      dsimp only
      split
      · rfl
      split
      · split <;> rfl
      · rfl
      · rfl
    rw [eqs_cell, this, ← eqs_cell] at hw
    exact hw
  | init => exact (init_from hw).imp id fun h => ⟨trivial, h⟩
  | create i j vmax dv => exact (create_from hw).imp id fun h => ⟨trivial, h⟩
  | createNames i j vmax dv => exact (create_from hw).imp id fun h => ⟨trivial, h⟩

private theorem writeSpecies_table {s s' : Session W} {i : ℤ} {f} (h : s.writeSpecies i f = some s') : s'.table = s.table := by
  unfold Session.writeSpecies at h
  split at h <;> cases h
  rfl

private theorem use_from {T : Tools W} {auto : Bool} {u : Use W} {s s' : Session W} {r} (h : u.run T auto s = some (s', r))
    {A B : ℕ} {w : WEq W} (hw : w ∈ s'.eqs A B) :
    w ∈ s.eqs A B ∨ (u.MakesEquations ∧ MassesOf s'.props w) ∨ u.WritesSet := by
  have hsp : ∀ {i : ℤ} {f}, (s.writeSpecies i f).map (fun s' => (s', Except.ok (ε := UseErr) 0)) = some (s', r) →
      w ∈ s.eqs A B := by
    intro i f hx
    simp only [Option.map_eq_some_iff, Prod.mk.injEq] at hx
    obtain ⟨x, hx, rfl, -⟩ := hx
    rw [eqs_cell, writeSpecies_table hx, ← eqs_cell] at hw
    exact hw
  cases u with
  | call c =>
    simp only [Use.run] at h
    split at h
    · rename_i s1 n hc
      cases h
      rcases call_from (T := T) (auto := auto) (c := c) (s := s) (A := A) (B := B) (w := w) (by rw [hc]; exact hw) with h | ⟨h1, h2⟩
      · exact .inl h
      · exact .inr (.inl ⟨h1, by rw [hc] at h2; exact h2⟩)
    · rename_i s1 e hc
      split at h
      · cases h
      cases h
      rcases call_from (T := T) (auto := auto) (c := c) (s := s) (A := A) (B := B) (w := w) (by rw [hc]; exact hw) with h | ⟨h1, h2⟩
      · exact .inl h
      · exact .inr (.inl ⟨h1, by rw [hc] at h2; exact h2⟩)
  | species i f => exact .inl (hsp h)
  | speciesFound n f => exact .inl (hsp h)
  | speciesNamed n f =>
    simp only [Use.run] at h
    split at h
    · cases h; exact .inl hw
    · exact .inl (hsp h)
  | set => exact .inr (.inr trivial)
  | setNamed => exact .inr (.inr trivial)

private theorem runUses_append {T : Tools W} {auto : Bool} (us : List (Use W)) (u : Use W) (s : Session W) :
    runUses T auto (us ++ [u]) s = match runUses T auto us s with
      | none => none
      | some s1 => (u.run T auto s1).map Prod.fst := by
  induction us generalizing s with
  | nil =>
    simp only [List.nil_append, runUses]
    cases u.run T auto s <;> rfl
  | cons v vs ih =>
    simp only [List.cons_append, runUses]
    cases v.run T auto s with
    | none => rfl
    | some x => exact ih x.1

/-- **C102**  Whatever a program does with a database, an equation that it finds there came in at one step of the program:
either the program itself wrote it, or it was loaded or created, and then its reduced masses are those that its
reactants had right after that step, whatever is written to the species later. -/
theorem C102_equation_masses {T : Tools W} {auto : Bool} {D0 : SDoc} : ∀ {us : List (Use W)} {s : Session W},
    runUses T auto us (Session.new D0) = some s → ∀ {A B : ℕ} {w : WEq W}, w ∈ s.eqs A B →
    ∃ pre u post s1 s2 r, us = pre ++ u :: post ∧ runUses T auto pre (Session.new D0) = some s1 ∧
      u.run T auto s1 = some (s2, r) ∧ w ∉ s1.eqs A B ∧ w ∈ s2.eqs A B ∧
      (u.WritesSet ∨ (u.MakesEquations ∧ MassesOf s2.props w)) := by
  intro us
  induction us using List.reverseRecOn with
  | nil =>
    intro s h A B w hw
    simp only [runUses, Option.some.injEq] at h
    subst h
    rw [eqs_cell] at hw
    exact absurd hw.1.1 (Nat.not_lt_zero A)
  | append_singleton us u ih =>
    intro s h A B w hw
    rw [runUses_append] at h
    split at h
    · cases h
    rename_i s1 h1
    obtain ⟨⟨s2, r⟩, h2, rfl⟩ := Option.map_eq_some_iff.1 h
    by_cases hin : w ∈ s1.eqs A B
    · obtain ⟨pre, v, post, t1, t2, r', e1, e2, e3, e4⟩ := ih h1 hin
      exact ⟨pre, v, post ++ [u], t1, t2, r', by rw [e1]; simp, e2, e3, e4⟩
    · refine ⟨us, u, [], s1, s2, r, rfl, h1, h2, hin, hw, ?_⟩
      rcases use_from h2 hw with h | h | h
      · exact absurd h hin
      · exact .inr h
      · exact .inl h

private theorem run_bare {T : Tools W} {auto : Bool} {us : List (Use W)} (hu : ∀ u ∈ us, u ≠ .call .init) :
    ∀ {s s' : Session W}, s.table.side = 0 → runUses T auto us s = some s' → s'.table.side = 0 := by
  induction us with
  | nil => intro s s' h0 h; simp only [runUses, Option.some.injEq] at h; exact h ▸ h0
  | cons u us ih =>
    intro s s' h0 h
    simp only [runUses] at h
    split at h
    · cases h
    rename_i r hr
    refine ih (fun v hv => hu v (List.mem_cons_of_mem _ hv)) ?_ h
    have hne := hu u List.mem_cons_self
    have hcall : ∀ c : Call, c ≠ .init → (c.run T auto s).1.table.side = s.table.side := by
      intro c hc
      cases c with
      | init => exact absurd rfl hc
      | create i j vmax dv => exact (cmLoopW_from _ _ _).1
      | createNames i j vmax dv => exact (cmLoopW_from _ _ _).1
      | addModel m =>
        show (s.addModel m).1.table.side = _
        unfold Session.addModel
        dsimp only
        split
        · rfl
        split
        · split <;> rfl
        · rfl
        · rfl
      | _ => rfl
    have hsp : ∀ {i : ℤ} {f}, (s.writeSpecies i f).map (fun s' => (s', Except.ok (ε := UseErr) 0)) = some r →
        r.1.table.side = 0 := by
      intro i f hx
      obtain ⟨x, hy, rfl⟩ := Option.map_eq_some_iff.1 hx
      rw [writeSpecies_table hy]
      exact h0
    have hset : ∀ {i j : ℤ} {f}, (s.writeSet i j f).map (fun s' => (s', Except.ok (ε := UseErr) 0)) = some r →
        r.1.table.side = 0 := by
      intro i j f hx
      obtain ⟨x, hx, rfl⟩ := Option.map_eq_some_iff.1 hx
      unfold Session.writeSet at hx
      split at hx <;> cases hx
      exact h0
    cases u with
    | call c =>
      have hc := hcall c fun h => hne (by rw [h])
      simp only [Use.run] at hr
      split at hr
      · rename_i heq; cases hr; rw [heq] at hc; exact hc.trans h0
      · rename_i heq
        split at hr
        · cases hr
        · cases hr; rw [heq] at hc; exact hc.trans h0
    | species i f => exact hsp hr
    | speciesFound n f => exact hsp hr
    | speciesNamed n f =>
      simp only [Use.run] at hr
      split at hr
      · cases hr; exact h0
      · exact hsp hr
    | set i j f => exact hset hr
    | setNamed n m f =>
      simp only [Use.run] at hr
      split at hr
      · cases hr; exact h0
      split at hr
      · cases hr; exact h0
      · exact hset hr

/-- The steps that neither touch the species nor write equations: choosing documents, filters and defaults, and
creating missing cross sections. -/
def Use.LeavesSpecies : Use W → Prop
  | .call (.document _) => True
  | .call (.filter _) => True
  | .call (.defaults _) => True
  | .call (.create _ _ _ _) => True
  | .call (.createNames _ _ _ _) => True
  | _ => False

/-- **C102**  Species may be written to freely before `initBinaryInteractions`: if the database is initialised once, after
all writes, then every equation has the reduced masses of the species as the database reports them. -/
theorem C102_written_first {T : Tools W} {auto : Bool} {D0 : SDoc} {pre post : List (Use W)} {s : Session W}
    (hpre : ∀ u ∈ pre, u ≠ .call .init) (hpost : ∀ u ∈ post, u.LeavesSpecies)
    (h : runUses T auto (pre ++ .call .init :: post) (Session.new D0) = some s) :
    ∀ A B, ∀ w ∈ s.eqs A B, MassesOf s.props w := by
  induction post using List.reverseRecOn generalizing s with
  | nil =>
    rw [runUses_append] at h
    split at h
    · cases h
    rename_i s1 h1
    obtain ⟨⟨s2, r⟩, h2, rfl⟩ := Option.map_eq_some_iff.1 h
    intro A B w hw
    rcases use_from h2 hw with h | h | h
    · rw [eqs_cell, run_bare hpre rfl h1] at h
      exact absurd h.1.1 (Nat.not_lt_zero A)
    · exact h.2
    · exact h.elim
  | append_singleton us u ih =>
    rw [show pre ++ .call .init :: (us ++ [u]) = (pre ++ .call .init :: us) ++ [u] by simp, runUses_append] at h
    split at h
    · cases h
    rename_i s1 h1
    have ih' := ih (fun v hv => hpost v (List.mem_append_left _ hv)) h1
    obtain ⟨⟨s2, r⟩, h2, rfl⟩ := Option.map_eq_some_iff.1 h
    have hu := hpost u (by simp)
    have hprops : s2.props = s1.props := by
      cases u with
      | call c =>
        have hc : (c.run T auto s1).1.props = s1.props := by
          cases c <;> first | rfl | exact hu.elim
        simp only [Use.run] at h2
        split at h2
        · rename_i heq; cases h2; rw [heq] at hc; exact hc
        · rename_i heq
          split at h2
          · cases h2
          · cases h2; rw [heq] at hc; exact hc
      | _ => exact hu.elim
    intro A B w hw
    rcases use_from h2 hw with h | h | h
    · show MassesOf s2.props w
      rw [hprops]; exact ih' A B w h
    · exact h.2
    · cases u with
      | set => exact hu.elim
      | setNamed => exact hu.elim
      | _ => exact h.elim

/-- **C102**  The names stay distinct throughout a program as long as what it writes to species leaves the names. -/
theorem C102_names_distinct {T : Tools W} {auto : Bool} {D0 : SDoc} {us : List (Use W)} (hu : ∀ u ∈ us, u.KeepsNames)
    {s : Session W} (h : runUses T auto us (Session.new D0) = some s) : NodupNames s.props := by
  induction us using List.reverseRecOn generalizing s with
  | nil => simp only [runUses, Option.some.injEq] at h; rw [← h]; exact List.nodup_nil
  | append_singleton us u ih =>
    rw [runUses_append] at h
    split at h
    · cases h
    rename_i s1 h1
    have ih' := ih (fun v hv => hu v (List.mem_append_left _ hv)) h1
    obtain ⟨⟨s2, r⟩, h2, rfl⟩ := Option.map_eq_some_iff.1 h
    have hk := hu u (by simp)
    show NodupNames s2.props
    by_cases hw : u.WritesSpecies
    · unfold NodupNames
      rw [(C102_lookups_kept T auto hw hk h2).1]
      exact ih'
    · cases u with
      | call c =>
        have hc : NodupNames (c.run T auto s1).1.props := by
          have loop : ∀ (doc : List (Props ℝ)) (ns : List String) (r : Registry ℝ), NodupNames r →
              NodupNames (addNamesLoop doc ns r).1 := by
            intro doc ns
            induction ns with
            | nil => intro r hr; exact hr
            | cons n ns ih =>
              intro r hr
              unfold addNamesLoop
              split
              · exact hr
              · rename_i r' hr'
                refine ih r' ?_
                unfold addParticleByName at hr'
                split at hr' <;> cases hr'
                exact nodupNames_add hr _
          cases c with
          | add p => exact nodupNames_add ih' p
          | addNames ns => exact loop _ _ _ ih'
          | addModel m =>
            show NodupNames (s1.addModel m).1.props
            unfold Session.addModel
            dsimp only
            split
            · exact loop _ _ _ ih'
            split
            · split <;> exact loop _ _ _ ih'
            · exact loop _ _ _ ih'
            · exact loop _ _ _ ih'
          | init =>
            show NodupNames (s1.init T auto).1.props
            have hs := (nodupNames_of_perm (sortProps_perm s1.props)).2 ih'
            unfold Session.init
            dsimp only
            split
            · exact hs
            split
            · exact hs
            · exact hs
          | _ => exact ih'
        simp only [Use.run] at h2
        split at h2
        · rename_i heq; cases h2; rw [heq] at hc; exact hc
        · rename_i heq
          split at h2
          · cases h2
          · cases h2; rw [heq] at hc; exact hc
      | set i j f => rw [((C102_set T auto s1 i j f).2 _ _ h2).2.1.2.2.2.1]; exact ih'
      | setNamed n m f =>
        simp only [Use.run] at h2
        split at h2
        · cases h2; exact ih'
        split at h2
        · cases h2; exact ih'
        · obtain ⟨x, hx, hy⟩ := Option.map_eq_some_iff.1 h2
          unfold Session.writeSet at hx
          split at hx <;> cases hx
          cases hy
          exact ih'
      | _ => exact absurd trivial hw

/-! ### Collisions with the masses of before -/

private theorem split_other {m1 m2 : ℝ} (h1 : 0 < m1) (h2 : 0 < m2) (n1 n2 : ℝ) (v1 v2 R : Vec) :
    let mu := ReducedMass.mk' m1 m2
    (n1 • (velCM mu v1 v2 + mu.over_m1 • R) + n2 • (velCM mu v1 v2 - mu.over_m2 • R) = n1 • v1 + n2 • v2 ↔
      n1 * m2 = n2 * m1 ∨ (velCM mu v1 v2 + mu.over_m1 • R) - (velCM mu v1 v2 - mu.over_m2 • R) = v1 - v2) := by
  intro mu
  obtain ⟨-, e1, e2⟩ := reducedMass_eq h1 h2
  have hs : m1 + m2 ≠ 0 := by positivity
  have hR := (split_body h1 h2 (velCM mu v1 v2) R).2.2
  rw [show (velCM mu v1 v2 + mu.over_m1 • R) - (velCM mu v1 v2 - mu.over_m2 • R) = R from hR]
  have hd : ∀ a b r : ℝ, (n1 * ((m1 / (m1 + m2)) * a + (m2 / (m1 + m2)) * b + (m2 / (m1 + m2)) * r) +
      n2 * ((m1 / (m1 + m2)) * a + (m2 / (m1 + m2)) * b - (m1 / (m1 + m2)) * r)) - (n1 * a + n2 * b) =
      (n1 * m2 - n2 * m1) * (r - (a - b)) / (m1 + m2) := by
    intro a b r; field_simp; ring
  have hc : ∀ a b r : ℝ, (n1 * ((m1 / (m1 + m2)) * a + (m2 / (m1 + m2)) * b + (m2 / (m1 + m2)) * r) +
      n2 * ((m1 / (m1 + m2)) * a + (m2 / (m1 + m2)) * b - (m1 / (m1 + m2)) * r) = n1 * a + n2 * b) ↔
      n1 * m2 = n2 * m1 ∨ r = a - b := by
    intro a b r
    rw [← sub_eq_zero, hd, div_eq_zero_iff, or_iff_left hs, mul_eq_zero, sub_eq_zero, sub_eq_zero]
  have hx := hc v1.x v2.x R.x
  have hy := hc v1.y v2.y R.y
  have hz := hc v1.z v2.z R.z
  simp only [Vec.ext_iff, velCM, mu, e1, e2, Vec.add_x, Vec.add_y, Vec.add_z, Vec.sub_x, Vec.sub_y, Vec.sub_z, Vec.smul_x,
    Vec.smul_y, Vec.smul_z, hx, hy, hz]
  tauto

/-- **C102**  A collision of an equation that was loaded for masses `m1` and `m2`, between particles of which the species
now say `n1` and `n2`: by the new masses momentum is kept exactly if the ratio of the masses is the same as before, or
the relative velocity does not change. -/
theorem C102_stale_masses (T : Tools W) (rng : RNG S ℝ) (inplace : Bool) {w : WEq W}
    (hw : w.model = .elastic ∨ ∃ k, w.model = .vss k) {m1 m2 : ℝ} (h1 : 0 < m1) (h2 : 0 < m2)
    (hmu : w.mu = ReducedMass.mk' m1 m2) (n1 n2 : ℝ) (p q : Part W) (s : S) :
    ∃ a b s', w.act T rng inplace p q s = some (collided inplace p q a b s') ∧
      (n1 • a + n2 • b = n1 • p.vel + n2 • q.vel ↔ n1 * m2 = n2 * m1 ∨ a - b = p.vel - q.vel) := by
  rcases hw with hw | ⟨k, hw⟩
  · refine ⟨_, _, (isoVec rng (p.vel - q.vel).abs s).2, ?_,
      split_other h1 h2 n1 n2 p.vel q.vel (isoVec rng (p.vel - q.vel).abs s).1⟩
    · simp only [WEq.act, hw, hmu, elasticAct, actWith, elasticCollide, collided]
  · refine ⟨_, _, (rng.rand (rng.rand s).2).2, ?_, split_other h1 h2 n1 n2 p.vel q.vel
      (vssPost (p.vel - q.vel) (2 * T.pow (rng.rand s).1 k - 1) (2 * Real.pi * (rng.rand (rng.rand s).2).1))⟩
    · simp only [WEq.act, hw, hmu, vssAct, actWith, vssCollide, collided]

/-- An equation that a creating loop adds for the species `A` and `B`. -/
private def NewFor (db : Registry ℝ) (t : UTable (WSet W)) (A B : ℕ) (w : WEq W) : Prop :=
  A ≠ B ∧ w.model = .elastic ∧ MassesOf db w ∧ ∃ wa wb p q, FirstElasticW (t.cell A A).rhs wa ∧
    FirstElasticW (t.cell B B).rhs wb ∧ 0 ≤ wa.eq.A.species ∧ 0 ≤ wb.eq.A.species ∧
    db[wa.eq.A.species.toNat]? = some p ∧ db[wb.eq.A.species.toNat]? = some q ∧
    (p.mass < q.mass → w.eq.A = wa.eq.A ∧ w.eq.B = wb.eq.A) ∧ (q.mass < p.mass → w.eq.A = wb.eq.A ∧ w.eq.B = wa.eq.A)

private theorem NewFor.symm {db : Registry ℝ} {t : UTable (WSet W)} {A B : ℕ} {w : WEq W} (h : NewFor db t A B w) :
    NewFor db t B A w := by
  obtain ⟨h1, h2, h3, wa, wb, p, q, h4, h5, h6, h7, h8, h9, h10, h11⟩ := h
  exact ⟨h1.symm, h2, h3, wb, wa, q, p, h5, h4, h7, h6, h9, h8, h11, h10⟩

private theorem cmLoopW_new {T : Tools W} {db : Registry ℝ} {vmax dv : ℝ} : ∀ (l : List (ℕ × ℕ)) (t : UTable (WSet W)) (n : ℕ),
    ∀ A B, A ≤ B → ∀ w ∈ ((cmLoopW T db vmax dv l t n).1.cell A B).rhs, w ∈ (t.cell A B).rhs ∨ NewFor db t A B w
  | [], t, n => fun A B _ w hw => .inl hw
  | (a, b) :: l, t, n => by
    rw [cmLoopW]
    split
    · exact fun A B _ w hw => .inl hw
    rename_i t' added hstep
    have i2 := cmLoopW_new l t' (if added then n + 1 else n) (T := T) (db := db) (vmax := vmax) (dv := dv)
    rcases cmStepW_new hstep with rfl | ⟨w, wa, wb, p, q, rfl, hw, f1, f2, s1, s2, hp, hq, hcase, hm, hab⟩
    · exact i2
    have hdiag : ∀ X, (pushEq t a b w).cell X X = t.cell X X := by
      intro X
      unfold pushEq UTable.modify
      dsimp only
      rw [if_neg]
      rintro ⟨e1, e2⟩
      omega
    intro A B hAB x hx
    rcases i2 A B hAB x hx with h | h
    · rcases pushEq_cell t w h with h | ⟨rfl, hA, hB⟩
      · exact .inl h
      · refine .inr ?_
        have base : NewFor db t a b x := by
          refine ⟨hab, hm, hw, wa, wb, p, q, f1, f2, s1, s2, hp, hq, fun hlt => ?_, fun hlt => ?_⟩
          · rcases hcase with ⟨-, h⟩ | ⟨h, -⟩
            · exact h
            · exact absurd hlt (not_lt.2 h.le)
          · rcases hcase with ⟨h, -⟩ | ⟨-, h⟩
            · exact absurd hlt (not_lt.2 h)
            · exact h
        rcases le_total a b with h | h
        · rw [hA, hB, min_eq_left h, max_eq_right h]; exact base
        · rw [hA, hB, min_eq_right h, max_eq_left h]; exact base.symm
    · obtain ⟨h1, h2, h3, wa, wb, p, q, h4, h5, h6⟩ := h
      rw [hdiag] at h4 h5
      exact .inr ⟨h1, h2, h3, wa, wb, p, q, h4, h5, h6⟩

/-- **C102**  What `createMissingElasticCrossSections` adds to a database in any state, also after writes: an elastic
equation for two different species, with the masses that the species have now, and with the lighter of the two reactants
first, whatever the order of the indices. -/
theorem C102_created {T : Tools W} {s : Session W} {i j : ℤ} {vmax dv : ℝ} {A B : ℕ} {w : WEq W}
    (hw : w ∈ (s.create T i j vmax dv).1.eqs A B) (hold : w ∉ s.eqs A B) :
    A ≠ B ∧ w.model = .elastic ∧ MassesOf s.props w ∧ ∃ wa wb p q, FirstElasticW (s.eqs A A) wa ∧
      FirstElasticW (s.eqs B B) wb ∧ s.props[wa.eq.A.species.toNat]? = some p ∧ s.props[wb.eq.A.species.toNat]? = some q ∧
      (p.mass < q.mass → w.eq.A = wa.eq.A ∧ w.eq.B = wb.eq.A) ∧
      (q.mass < p.mass → w.eq.A = wb.eq.A ∧ w.eq.B = wa.eq.A) := by
  have hs : (s.create T i j vmax dv).1.table.side = s.table.side := (cmLoopW_from _ _ _).1
  rw [eqs_cell, hs] at hw
  have hn : NewFor s.props s.table (min A B) (max A B) w := by
    rcases cmLoopW_new _ _ _ _ _ min_le_max w hw.2 with h | h
    · exact absurd ((eqs_cell s A B w).2 ⟨hw.1, h⟩) hold
    · exact h
  have hn' : NewFor s.props s.table A B w := by
    rcases le_total A B with h | h
    · rwa [min_eq_left h, max_eq_right h] at hn
    · rw [min_eq_right h, max_eq_left h] at hn; exact hn.symm
  obtain ⟨h1, h2, h3, wa, wb, p, q, h4, h5, -, -, h6⟩ := hn'
  have hdiag : ∀ X, X < s.table.side → s.eqs X X = (s.table.cell X X).rhs := by
    intro X hX
    unfold Session.eqs UTable.get?
    rw [if_pos ⟨hX, hX⟩]
    simp
  exact ⟨h1, h2, h3, wa, wb, p, q, by rw [hdiag A hw.1.1]; exact h4, by rw [hdiag B hw.1.2]; exact h5, h6⟩

/-- **C102**  If a write has made species `A` heavier than species `B` then the equation that is created for the two has
`B` as its first reactant.  The driver hands the particles over in the order of their indices (C67), so for `A < B` the
first particle `p` is the one of species `A`, and a collision keeps the momentum, by the masses that the database
reports, only if the relative velocity does not change. -/
theorem C102_reversed (T : Tools W) (rng : RNG S ℝ) (inplace : Bool) {s : Session W} {i j : ℤ} {vmax dv : ℝ} {A B : ℕ}
    {a b : Props ℝ} (ha : s.props[A]? = some a) (hb : s.props[B]? = some b) (hb0 : 0 < b.mass)
    (hlt : b.mass < a.mass) (hA : ∀ x ∈ s.eqs A A, x.eq.A.species = A) (hB : ∀ x ∈ s.eqs B B, x.eq.A.species = B)
    {w : WEq W} (hw : w ∈ (s.create T i j vmax dv).1.eqs A B) (hold : w ∉ s.eqs A B) (p q : Part W) (g : S) :
    w.eq.A.species = B ∧ w.eq.B.species = A ∧
    ∃ v1 v2 g', w.act T rng inplace p q g = some (collided inplace p q v1 v2 g') ∧
      (a.mass • v1 + b.mass • v2 = a.mass • p.vel + b.mass • q.vel ↔ v1 - v2 = p.vel - q.vel) := by
  obtain ⟨-, hm, ⟨x, y, hx, hy, hmu⟩, wa, wb, pa, pb, f1, f2, hpa, hpb, -, h⟩ := C102_created hw hold
  have hsa := hA wa f1.mem.1
  have hsb := hB wb f2.mem.1
  rw [hsa, Int.toNat_natCast, ha] at hpa
  rw [hsb, Int.toNat_natCast, hb] at hpb
  cases hpa
  cases hpb
  obtain ⟨e1, e2⟩ := h hlt
  rw [e1, hsb, Int.toNat_natCast, hb] at hx
  rw [e2, hsa, Int.toNat_natCast, ha] at hy
  cases hx
  cases hy
  refine ⟨by rw [e1, hsb], by rw [e2, hsa], ?_⟩
  have ha0 := hb0.trans hlt
  obtain ⟨v1, v2, g', h1, h2⟩ := C102_stale_masses T rng inplace (.inl hm) hb0 ha0 hmu a.mass b.mass p q g
  refine ⟨v1, v2, g', h1, h2.trans (or_iff_right fun he => ?_)⟩
  nlinarith

/-! ## Cases -/

namespace WriteExample

open SessionExample

/-- Species `x` made heavier than `y`. -/
def x3 : Props ℝ := ⟨"x", 3, 0⟩

def heavier (p : Props ℝ) : Props ℝ := { p with mass := 3 }

/-- The database is initialised, then `db["x"]` is made heavier, then missing cross sections are created. -/
def uses : List (Use W) :=
  [.call (.addNames ["y", "x"]), .call .init, .speciesNamed "x" heavier, .call (.create (-1) (-1) 0 0)]

/-- The state after the write. -/
noncomputable def written : Session W := { doc := doc, filter := .elastic, dflt := ⟨0, 0⟩, props := [x3, y], table := table }

/-- The equation that is created: the second species is its first reactant. -/
noncomputable def wyx : WEq W :=
  ⟨⟨Term.single 1, Term.single 0, [Term.single 1, Term.single 0], "averaged_diameters_easy", "elastic"⟩,
    ReducedMass.mk' 2 3, mkAvgEasy (xs 4) (xs 16), .elastic, none⟩

theorem call_ok {T : Tools W} {auto : Bool} {c : Call} {s s' : Session W} {n : ℕ} (h : c.run T auto s = (s', .ok n)) :
    (Use.call c : Use W).run T auto s = some (s', .ok n) := by
  simp only [Use.run, h]

theorem step_init (T : Tools W) : Call.init.run T false
    { doc := doc, filter := .elastic, dflt := ⟨0, 0⟩, props := [y, x], table := ⟨0, fun _ _ => {}⟩ } =
    ({ doc := doc, filter := .elastic, dflt := ⟨0, 0⟩, props := [x, y], table := table }, .ok 0) := by
  show Session.init T false _ = _
  unfold Session.init
  dsimp only
  rw [sorted, show ([x, y] : Registry ℝ).length = 2 from rfl, filled]
  rfl

theorem step_write (T : Tools W) : (Use.speciesNamed "x" heavier : Use W).run T false
    { doc := doc, filter := .elastic, dflt := ⟨0, 0⟩, props := [x, y], table := table } = some (written, .ok 0) := by
  have hf : findParticle [x, y] "x" = 0 := by simp [findParticle, x]
  simp only [Use.run, hf]
  rw [if_neg (by simp)]
  rfl

theorem step01' (T : Tools W) : cmStepW T [x3, y] 0 0 table 0 1 = .ok (pushEq table 0 1 wyx, true) := by
  unfold cmStepW
  rw [show table.get? 0 0 = some ⟨(Term.single 0, Term.single 0), [wx]⟩ by rfl,
    show table.get? 1 1 = some ⟨(Term.single 1, Term.single 1), [wy]⟩ by rfl,
    show table.get? 0 1 = some ⟨(Term.single 0, Term.single 1), []⟩ by rfl]
  dsimp only
  rw [if_pos (by rfl), show WSet.getElastic ⟨(Term.single 0, Term.single 0), [wx]⟩ = some (wx : WEq W) by rfl,
    show WSet.getElastic ⟨(Term.single 1, Term.single 1), [wy]⟩ = some (wy : WEq W) by rfl]
  dsimp only
  rw [if_neg (by simp [wx, wy, Term.eqv, Term.single]), show orderByMass [x3, y] (wx : WEq W).eq.A (wy : WEq W).eq.A =
    some (Term.single 1, Term.single 0) by
      show (if (3 : ℝ) ≤ 2 then _ else _) = _
      rw [if_neg (by norm_num)]; rfl]
  dsimp only
  rw [show ([x3, y] : Registry ℝ)[(Term.single 0).species.toNat]? = some x3 from rfl,
    show ([x3, y] : Registry ℝ)[(Term.single 1).species.toNat]? = some y from rfl]
  dsimp only
  rw [if_pos (by simp [wx, wy, easyLabels])]
  rfl

theorem step_create (T : Tools W) : Session.create T (-1) (-1) 0 0 written =
    ({ (written : Session W) with table := pushEq table 0 1 wyx }, .ok 1) := by
  unfold Session.create written
  dsimp only
  rw [show effectiveRange (0 : ℝ) 0 0 0 = (0, 0) by simp [effectiveRange],
    show cmPairs ([x3, y] : Registry ℝ).length (-1) (-1) = [(0, 0), (0, 1), (1, 0), (1, 1)] from rfl]
  dsimp only
  rw [cmLoopW, skip (s1 := ⟨_, [wx]⟩) (s2 := ⟨_, [wx]⟩) (s3 := ⟨_, [wx]⟩) rfl rfl rfl rfl]
  dsimp only
  rw [cmLoopW, step01' T]
  dsimp only
  rw [cmLoopW, skip (s1 := ⟨_, [wy]⟩) (s2 := ⟨_, [wx]⟩) (s3 := ⟨_, [wyx]⟩) rfl rfl rfl rfl]
  dsimp only
  rw [cmLoopW, skip (s1 := ⟨_, [wy]⟩) (s2 := ⟨_, [wy]⟩) (s3 := ⟨_, [wy]⟩) rfl rfl rfl rfl]
  rfl

/-- The program runs to its end; names are kept. -/
theorem runs (T : Tools W) : runUses T false uses (Session.new doc) =
    some { (written : Session W) with table := pushEq table 0 1 wyx } ∧ ∀ u ∈ (uses : List (Use W)), u.KeepsNames := by
  constructor
  · unfold uses
    rw [runUses, call_ok (s' := ⟨doc, .elastic, ⟨0, 0⟩, [y, x], ⟨0, fun _ _ => {}⟩⟩) (n := 0) rfl]
    dsimp only
    rw [runUses, call_ok (step_init T)]
    dsimp only
    rw [runUses, step_write]
    dsimp only
    rw [runUses, call_ok (show (Call.create (-1) (-1) 0 0).run T false written = _ from step_create T)]
    rfl
  · intro u hu
    simp only [uses, List.mem_cons, List.not_mem_nil, or_false] at hu
    rcases hu with rfl | rfl | rfl | rfl <;> simp [Use.KeepsNames, heavier]

/-- The loaded equation of `x` still has the masses of before, the created one those of now. -/
example (T : Tools W) : ∃ s : Session W, runUses T false uses (Session.new doc) = some s ∧ s.props = [x3, y] ∧
    s.eqs 0 0 = [wx] ∧ ¬ MassesOf s.props (wx : WEq W) ∧ s.eqs 0 1 = [wyx] ∧ MassesOf s.props (wyx : WEq W) := by
  refine ⟨_, (runs T).1, rfl, rfl, ?_, rfl, ⟨y, x3, rfl, rfl, rfl⟩⟩
  rintro ⟨a, b, ha, hb, h⟩
  have ha' : x3 = a := Option.some.inj ha
  have hb' : x3 = b := Option.some.inj hb
  subst ha'
  subst hb'
  have := congrArg ReducedMass.value h
  simp only [wx, ReducedMass.mk', x3] at this
  norm_num at this

/-- `C102_reversed` at the last step of this program. -/
example (T : Tools W) (rng : RNG S ℝ) (p q : Part W) (g : S) : (wyx : WEq W).eq.A.species = 1 ∧
    ∃ v1 v2 g', (wyx : WEq W).act T rng true p q g = some (collided true p q v1 v2 g') ∧
      ((3 : ℝ) • v1 + (2 : ℝ) • v2 = (3 : ℝ) • p.vel + (2 : ℝ) • q.vel ↔ v1 - v2 = p.vel - q.vel) := by
  have h := C102_reversed T rng true (s := written) (i := -1) (j := -1) (vmax := 0) (dv := 0) (A := 0) (B := 1) (a := x3)
    (b := y) (w := wyx) rfl rfl (by norm_num [y]) (by norm_num [x3, y])
    (by intro z hz; rw [List.mem_singleton.1 (show z ∈ [wx] from hz)]; rfl)
    (by intro z hz; rw [List.mem_singleton.1 (show z ∈ [wy] from hz)]; rfl)
    (by rw [step_create]; exact List.mem_singleton.2 rfl) (by simp [Session.eqs, written, table, UTable.get?, UTable.modify, resizeW])
    p q g
  exact ⟨h.1, h.2.2⟩

def lighter (p : Props ℝ) : Props ℝ := { p with mass := 1 }

/-- Written before it is initialised, the species gives equations with the masses that are reported: the hypotheses of
`C102_written_first`. -/
example (T : Tools W) : ∃ s : Session W, runUses T false ([.call (.addNames ["y"]), .call (.add ⟨"x", 7, 0⟩),
    .speciesNamed "x" lighter] ++ .call .init :: [.call (.create (-1) (-1) 0 0)]) (Session.new doc) = some s ∧
    s.props = [x, y] ∧ s.eqs 0 0 = [wx] ∧ s.eqs 0 1 = [wxy] ∧ MassesOf s.props (wx : WEq W) := by
  have h : runUses T false ([.call (.addNames ["y"]), .call (.add ⟨"x", 7, 0⟩), .speciesNamed "x" lighter] ++ .call .init ::
      [.call (.create (-1) (-1) 0 0)]) (Session.new doc) = some ⟨doc, .elastic, ⟨0, 0⟩, [x, y], pushEq table 0 1 wxy⟩ := by
    simp only [List.cons_append, List.nil_append]
    rw [runUses, call_ok (s' := ⟨doc, .elastic, ⟨0, 0⟩, [y], ⟨0, fun _ _ => {}⟩⟩) (n := 0) rfl]
    dsimp only
    rw [runUses, call_ok (s' := ⟨doc, .elastic, ⟨0, 0⟩, [y, ⟨"x", 7, 0⟩], ⟨0, fun _ _ => {}⟩⟩) (n := 0) rfl]
    dsimp only
    have hf : findParticle [y, (⟨"x", 7, 0⟩ : Props ℝ)] "x" = 1 := by simp [findParticle, y]
    rw [runUses, show (Use.speciesNamed "x" lighter : Use W).run T false ⟨doc, .elastic, ⟨0, 0⟩, [y, ⟨"x", 7, 0⟩],
        ⟨0, fun _ _ => {}⟩⟩ = some (⟨doc, .elastic, ⟨0, 0⟩, [y, x], ⟨0, fun _ _ => {}⟩⟩, .ok 0) by
      simp only [Use.run, hf]
      rw [if_neg (by simp)]
      rfl]
    dsimp only
    rw [runUses, call_ok (step_init T)]
    dsimp only
    have hc := created T
    rw [inited] at hc
    rw [runUses, call_ok hc]
    rfl
  have hm := C102_written_first (by simp) (by simp [Use.LeavesSpecies]) h
  exact ⟨_, h, rfl, rfl, rfl, hm 0 0 wx (List.mem_singleton.2 rfl)⟩

/-- A collision that reverses the relative velocity: momentum is kept by the masses 1 and 2 that the equation was loaded
for, not by the masses 3 and 2. -/
example (T : Tools Unit) : ∃ a b, (wxy : WEq Unit).act T ⟨fun _ => (0, ()), fun _ => (0, ())⟩ true ⟨⟨0, 0, 0⟩, ⟨1, 0, 0⟩, 0, ()⟩
      ⟨⟨0, 0, 0⟩, ⟨0, 0, 0⟩, 1, ()⟩ () = some (collided true ⟨⟨0, 0, 0⟩, ⟨1, 0, 0⟩, 0, ()⟩ ⟨⟨0, 0, 0⟩, ⟨0, 0, 0⟩, 1, ()⟩ a b ()) ∧
    a - b ≠ ⟨1, 0, 0⟩ - ⟨0, 0, 0⟩ ∧ (3 : ℝ) • a + (2 : ℝ) • b ≠ (3 : ℝ) • ⟨1, 0, 0⟩ + (2 : ℝ) • ⟨0, 0, 0⟩ := by
  obtain ⟨a, b, s', h1, h2⟩ := C102_stale_masses T (⟨fun _ => (0, ()), fun _ => (0, ())⟩ : RNG Unit ℝ) true (w := wxy)
    (.inl rfl) (m1 := 1) (m2 := 2) (by norm_num) (by norm_num) rfl 3 2 ⟨⟨0, 0, 0⟩, ⟨1, 0, 0⟩, 0, ()⟩
    ⟨⟨0, 0, 0⟩, ⟨0, 0, 0⟩, 1, ()⟩ ()
  have hne : a - b ≠ (⟨1, 0, 0⟩ : Vec) - ⟨0, 0, 0⟩ := by
    intro he
    simp only [WEq.act, wxy, elasticAct, actWith, elasticCollide, isoVec, collided, Option.some.injEq, if_true, Prod.mk.injEq,
      Part.mk.injEq] at h1
    obtain ⟨⟨-, ha, -⟩, ⟨-, hb, -⟩, -⟩ := h1
    have hx := congrArg Vec.x he
    rw [← ha, ← hb] at hx
    simp [velCM, ReducedMass.mk', Vec.abs, Vec.normSq] at hx
    norm_num at hx
  exact ⟨a, b, h1, hne, fun h => (h2.1 h).elim (by norm_num) hne⟩

/-- Renaming `y` to `x`: the name finds position 0, and no name finds position 1. -/
example : NodupNames [x, y] ∧ findParticleIndx ([x, y].modify 1 fun z => { z with name := "x" }) "x" = 0 ∧
    ∀ m, findParticleIndx ([x, y].modify 1 fun z => { z with name := "x" }) m ≠ 1 := by
  have hd : NodupNames [x, y] := by simp [NodupNames, x, y]
  obtain ⟨-, h1, h2⟩ := (C102_rename hd (i := 1) (p := y) rfl (n := "x") (by simp [y])).2.2 0 x rfl rfl
  exact ⟨hd, h1, h2⟩

/-- Outside of the list and the table a write is undefined; an unknown name throws. -/
example (T : Tools W) (f : Props ℝ → Props ℝ) (g : WSet W → WSet W) : (Use.species (-1) f).run T false written = none ∧
    (Use.set 0 2 g).run T false written = none ∧
    (Use.setNamed "x" "z" g).run T false written = some (written, .error (.notLoaded "particle species not loaded: 'z'")) ∧
    ∃ s', (Use.set 1 0 g).run T false written = some (s', .ok 0) ∧ s'.table.get? 0 1 = some (g ⟨(Term.single 0, Term.single 1), []⟩) := by
  refine ⟨(C102_species T false _ _ f).1.2 (by simp), (C102_set T false _ _ _ g).1.2 (by
      simp [written, table, UTable.modify, resizeW]),
    (C102_set_named T false _ "x" "z" g).2.1 ⟨x3, by simp [written], rfl⟩ (by simp [written, x3, y]), ?_⟩
  exact ⟨_, rfl, rfl⟩

end WriteExample

end Chimp
