import Verif.Lemmas.CreateMissing

/-!
# Properties C26-C29: creating missing elastic cross sections

`Missing t r a b`, `NewEquation`, `ElasticIn`, `EasySpecies`, `FirstElastic` and `TableOK` are the
specification vocabulary (in the lemma file); they speak about the entries of the table only.  `r` is
the statement that a velocity range is available.
-/

namespace Chimp

variable {K : Type} [Field K] [LinearOrder K]

/-- The pair of species is among those the arguments `i`, `j` select; a negative argument selects all. -/
def Selected (i j : ℤ) (a b : ℕ) : Prop :=
  ((i < 0 ∨ i = a) ∧ (j < 0 ∨ j = b)) ∨ ((i < 0 ∨ i = b) ∧ (j < 0 ∨ j = a))

/-! ## C26 -/

omit [Field K] in
/-- Initialisation establishes what the following theorems assume about the table. -/
theorem tableOK_of_init {doc : Doc} {f : Filter} {cs ms : List String} {props : Registry K}
    (hnd : NodupNames props) {d : RDB K} (h : initBinary doc f cs ms (RDB.fresh props) = .ok d) :
    TableOK d.props d.table := by
  obtain ⟨h1, h2, _⟩ := initBinary_spec h
  refine ⟨h2, fun a ha e he => ?_⟩
  have hlen : d.props.length = props.length := by rw [h1]; exact (sortProps_perm props).length_eq
  obtain ⟨_, c2, c3⟩ := C07_complete_and_symmetric hnd h a a
  have hget : d.table.get? a a = some (d.table.cell a a) := by
    unfold UTable.get?; rw [if_pos (by rw [h2]; exact ⟨ha, ha⟩), min_self, max_self]
  have := (c3 _ hget).2 e he
  rwa [min_self, max_self] at this

variable [IsStrictOrderedRing K]

theorem createMissing_core (avgOk : K → K → LEq → LEq → Bool) (dflt : CMDefaults K) (d : RDB K)
    (ok : TableOK d.props d.table) (i j : ℤ) (vmax dv : K) :
    ∃ L : List (ℕ × ℕ), L.Nodup ∧
      (createMissing avgOk dflt d i j vmax dv).1.props = d.props ∧
      TableOK d.props (createMissing avgOk dflt d i j vmax dv).1.table ∧
      (∀ a b, (a, b) ∈ L → a < b ∧ b < d.props.length ∧ Selected i j a b ∧
        Missing d.table (0 < vmax ∨ 0 < dflt.vmax) a b ∧
        ∃ e, NewEquation d.props d.table a b e ∧ e.isElastic = true ∧
          (createMissing avgOk dflt d i j vmax dv).1.table.cell a b =
            ⟨(d.table.cell a b).lhs, (d.table.cell a b).rhs ++ [e]⟩) ∧
      (∀ a b, (a, b) ∉ L → (createMissing avgOk dflt d i j vmax dv).1.table.cell a b = d.table.cell a b) ∧
      ((createMissing avgOk dflt d i j vmax dv).2 = .ok L.length ∧
        (∀ a b, a < b → b < d.props.length → Selected i j a b →
          Missing d.table (0 < vmax ∨ 0 < dflt.vmax) a b → (a, b) ∈ L) ∨
       (createMissing avgOk dflt d i j vmax dv).2 = .error .averaging ∧ (0 < vmax ∨ 0 < dflt.vmax) ∧
        ∃ a b, a < d.props.length ∧ b < d.props.length ∧ Selected i j a b ∧
          Missing d.table (0 < vmax ∨ 0 < dflt.vmax) a b ∧
          ∃ ea eb, FirstElastic (d.table.entry a a).rhs ea ∧ FirstElastic (d.table.entry b b).rhs eb ∧
            avgOk (effectiveRange dflt.vmax dflt.dv vmax dv).1 (effectiveRange dflt.vmax dflt.dv vmax dv).2
              ea eb = false) := by
  have hr := effectiveRange_iff dflt.vmax dflt.dv vmax dv
  unfold createMissing
  simp only
  generalize effectiveRange dflt.vmax dflt.dv vmax dv = er at hr ⊢
  generalize (decide (0 < er.1) && decide (0 < er.2)) = ranged at hr ⊢
  generalize avgOk er.1 er.2 = avg
  generalize hP : (0 < vmax ∨ 0 < dflt.vmax) = P at hr ⊢
  have hr := propext hr
  obtain ⟨L, l1, l2, l3, l4, l5⟩ := cmLoop_spec (db := d.props) (avgOk := avg) (ranged := ranged)
    (cmPairs d.props.length i j) d.table 0 ok
    (fun p hp => by
      obtain ⟨a, b⟩ := p
      rw [mem_cmPairs] at hp
      exact ⟨hp.1.1, hp.2.1⟩)
  rw [hr] at l3 l5
  refine ⟨L, l1, trivial, l2, ?_, l4, ?_⟩
  · intro a b hab
    obtain ⟨q1, q2, q3, q4⟩ := l3 a b hab
    rw [mem_cmPairs, mem_cmPairs] at q2
    refine ⟨q1, ?_, ?_, q3, q4⟩
    · exact q2.elim (fun h => h.2.1) (fun h => h.1.1)
    · exact q2.elim (fun h => .inl ⟨h.1.2, h.2.2⟩) (fun h => .inr ⟨h.1.2, h.2.2⟩)
  · rcases l5 with ⟨r1, r2⟩ | ⟨r1, r2, a, b, r3, r4, r5, r6⟩
    · left
      refine ⟨by rw [r1, Nat.zero_add], ?_⟩
      intro a b hab hb hsel hm
      rcases hsel with h | h
      · have := r2 a b ((mem_cmPairs _ _ _ _ _).2 ⟨⟨by omega, h.1⟩, hb, h.2⟩) hm
        rwa [min_eq_left hab.le, max_eq_right hab.le] at this
      · have := r2 b a ((mem_cmPairs _ _ _ _ _).2 ⟨⟨hb, h.1⟩, by omega, h.2⟩) ((missing_comm _ _ _ _).1 hm)
        rwa [min_eq_right hab.le, max_eq_left hab.le] at this
    · right
      rw [mem_cmPairs] at r3
      exact ⟨r1, r2, a, b, r3.1.1, r3.2.1, .inl ⟨r3.1.2, r3.2.2⟩, r4, r6⟩

/-- **C26**  A call that returns `n` adds one elastic equation at the end of exactly the entries of
selected pairs that lack one, can be completed and have a range or easy cross sections; `n` is their
number; every other entry and the species list are unchanged. -/
theorem C26_adds_exactly_missing (avgOk : K → K → LEq → LEq → Bool) (dflt : CMDefaults K) (d : RDB K)
    (ok : TableOK d.props d.table) (i j : ℤ) (vmax dv : K) (d' : RDB K) (n : ℕ)
    (h : createMissing avgOk dflt d i j vmax dv = (d', .ok n)) :
    ∃ L : List (ℕ × ℕ), L.Nodup ∧ n = L.length ∧ d'.props = d.props ∧
      (∀ a b, (a, b) ∈ L ↔ a < b ∧ b < d.props.length ∧ Selected i j a b ∧
        Missing d.table (0 < vmax ∨ 0 < dflt.vmax) a b) ∧
      (∀ a b, (a, b) ∈ L → ∃ s e, d.table.get? a b = some s ∧ NewEquation d.props d.table a b e ∧
        d'.table.get? a b = some ⟨s.lhs, s.rhs ++ [e]⟩) ∧
      ∀ a b, a ≤ b → (a, b) ∉ L → d'.table.get? a b = d.table.get? a b := by
  obtain ⟨L, l1, l2, l3, l4, l5, l6⟩ := createMissing_core avgOk dflt d ok i j vmax dv
  rw [h] at l2 l3 l4 l5 l6
  simp only at l2 l3 l4 l5 l6
  rcases l6 with ⟨r1, r2⟩ | ⟨r1, _⟩
  · refine ⟨L, l1, Except.ok.inj r1, l2, fun a b => ⟨fun hab => ?_, fun hab => r2 a b hab.1 hab.2.1 hab.2.2.1 hab.2.2.2⟩,
      ?_, ?_⟩
    · obtain ⟨q1, q2, q3, q4, _⟩ := l4 a b hab; exact ⟨q1, q2, q3, q4⟩
    · intro a b hab
      obtain ⟨q1, q2, _, _, e, q5, _, q7⟩ := l4 a b hab
      refine ⟨d.table.cell a b, e, ?_, q5, ?_⟩
      · unfold UTable.get?
        rw [if_pos (by rw [ok.side]; omega), min_eq_left q1.le, max_eq_right q1.le]
      · unfold UTable.get?
        rw [if_pos (by rw [l3.side]; omega), min_eq_left q1.le, max_eq_right q1.le, q7]
    · intro a b hle hab
      unfold UTable.get?
      rw [l3.side, ok.side, min_eq_left hle, max_eq_right hle, l5 a b hab]
  · cases r1

/-- **C26**  The call cannot fail in any other way than by an exception from averaging two tabulated cross
sections, which needs a velocity range; in particular the check for equations of another form never
fires and no access is out of range. -/
theorem C26_only_averaging_fails (avgOk : K → K → LEq → LEq → Bool) (dflt : CMDefaults K) (d : RDB K)
    (ok : TableOK d.props d.table) (i j : ℤ) (vmax dv : K) (err : CMErr)
    (h : (createMissing avgOk dflt d i j vmax dv).2 = .error err) :
    err = .averaging ∧ (0 < vmax ∨ 0 < dflt.vmax) ∧
    ∃ a b ea eb, Selected i j a b ∧ Missing d.table (0 < vmax ∨ 0 < dflt.vmax) a b ∧
      FirstElastic (d.table.entry a a).rhs ea ∧ FirstElastic (d.table.entry b b).rhs eb ∧
      ∃ v w, avgOk v w ea eb = false := by
  obtain ⟨L, _, _, _, _, _, l6⟩ := createMissing_core avgOk dflt d ok i j vmax dv
  rcases l6 with ⟨r1, _⟩ | ⟨r1, r2, a, b, _, _, r3, r4, ea, eb, r5, r6, r7⟩
  · rw [h] at r1; cases r1
  · rw [h] at r1; cases r1
    exact ⟨rfl, r2, a, b, ea, eb, r3, r4, r5, r6, _, _, r7⟩

/-- **C26**  The assumption on the table holds after initialisation and after any call, whether it returns
or throws. -/
theorem C26_invariant (avgOk : K → K → LEq → LEq → Bool) (dflt : CMDefaults K) :
    (∀ (doc : Doc) (f : Filter) (cs ms : List String) (props : Registry K) (d : RDB K), NodupNames props →
      initBinary doc f cs ms (RDB.fresh props) = .ok d → TableOK d.props d.table) ∧
    ∀ (d : RDB K) (i j : ℤ) (vmax dv : K), TableOK d.props d.table →
      TableOK (createMissing avgOk dflt d i j vmax dv).1.props (createMissing avgOk dflt d i j vmax dv).1.table := by
  refine ⟨fun doc f cs ms props d hnd h => tableOK_of_init hnd h, fun d i j vmax dv ok => ?_⟩
  obtain ⟨_, _, l2, l3, _⟩ := createMissing_core avgOk dflt d ok i j vmax dv
  rw [l2]; exact l3

/-! ## C27 -/

/-- **C27**  Repeating a call that returned changes nothing and returns 0. -/
theorem C27_idempotent (avgOk : K → K → LEq → LEq → Bool) (dflt : CMDefaults K) (d : RDB K)
    (ok : TableOK d.props d.table) (i j : ℤ) (vmax dv : K) (d' : RDB K) (n : ℕ)
    (h : createMissing avgOk dflt d i j vmax dv = (d', .ok n)) :
    createMissing avgOk dflt d' i j vmax dv = (d', .ok 0) := by
  obtain ⟨L, l1, l2, l3, l4, l5, l6⟩ := createMissing_core avgOk dflt d ok i j vmax dv
  rw [h] at l2 l3 l4 l5 l6
  simp only at l2 l3 l4 l5 l6
  have r2 : ∀ a b, a < b → b < d.props.length → Selected i j a b →
      Missing d.table (0 < vmax ∨ 0 < dflt.vmax) a b → (a, b) ∈ L := by
    rcases l6 with ⟨_, r2⟩ | ⟨r1, _⟩
    · exact r2
    · cases r1
  -- nothing is missing any more
  have hdiag : ∀ a, d'.table.entry a a = d.table.entry a a := by
    intro a
    unfold UTable.entry
    rw [min_self, max_self]
    exact l5 a a (fun hc => by have := (l4 a a hc).1; omega)
  have none_missing : ∀ a b, a < b → b < d.props.length → Selected i j a b →
      ¬ Missing d'.table (0 < vmax ∨ 0 < dflt.vmax) a b := by
    intro a b hab hb hsel hm
    by_cases hL : (a, b) ∈ L
    · obtain ⟨_, _, _, _, e, _, hel, hcell⟩ := l4 a b hL
      refine hm.1 ⟨e, ?_, hel⟩
      unfold UTable.entry
      rw [min_eq_left hab.le, max_eq_right hab.le, hcell]
      simp
    · apply hL
      apply r2 a b hab hb hsel
      have hent : d'.table.entry a b = d.table.entry a b := by
        unfold UTable.entry
        rw [min_eq_left hab.le, max_eq_right hab.le]
        exact l5 a b hL
      unfold Missing ElasticIn EasySpecies at hm ⊢
      rw [hent, hdiag, hdiag] at hm
      exact hm
  obtain ⟨M, m1, m2, m3, m4, m5, m6⟩ := createMissing_core avgOk dflt d' (l2 ▸ l3) i j vmax dv
  have hM : M = [] := by
    rw [List.eq_nil_iff_forall_not_mem]
    rintro ⟨a, b⟩ hab
    obtain ⟨q1, q2, q3, q4, _⟩ := m4 a b hab
    exact none_missing a b q1 (by rw [← l2]; exact q2) q3 q4
  have hout : (createMissing avgOk dflt d' i j vmax dv).2 = .ok 0 := by
    rcases m6 with ⟨r1, _⟩ | ⟨_, _, a, b, ha, hb, hsel, hm, _⟩
    · rw [r1, hM]; rfl
    · exfalso
      rw [l2] at ha hb
      rcases lt_trichotomy a b with hab | hab | hab
      · exact none_missing a b hab hb hsel hm
      · exact missing_ne hm hab
      · refine none_missing b a hab ha ?_ ((missing_comm _ _ _ _).1 hm)
        unfold Selected at hsel ⊢; tauto
  have htab : (createMissing avgOk dflt d' i j vmax dv).1.table = d'.table := by
    have hs : (createMissing avgOk dflt d' i j vmax dv).1.table.side = d'.table.side := by
      rw [m3.side, l3.side, l2]
    have hc : (createMissing avgOk dflt d' i j vmax dv).1.table.cell = d'.table.cell := by
      funext a b
      exact m5 a b (by rw [hM]; simp)
    cases hT : (createMissing avgOk dflt d' i j vmax dv).1.table with
    | mk s c =>
      rw [hT] at hs hc
      cases hT' : d'.table with
      | mk s' c' =>
        rw [hT'] at hs hc
        simp only at hs hc
        rw [hs, hc]
  apply Prod.ext
  · cases hR : (createMissing avgOk dflt d' i j vmax dv).1 with
    | mk p t =>
      have hp := m2
      rw [hR] at hp htab
      simp only at hp htab
      cases d'
      simp_all
  · exact hout

/-! ## C28 -/

/-- **C28**  After an unrestricted call that returns, with a velocity range or with easily averaged cross
sections only, every two species which have elastic equations with themselves have one with each
other. -/
theorem C28_complete (avgOk : K → K → LEq → LEq → Bool) (dflt : CMDefaults K) (d : RDB K)
    (ok : TableOK d.props d.table) (i j : ℤ) (hi : i < 0) (hj : j < 0) (vmax dv : K) (d' : RDB K) (n : ℕ)
    (h : createMissing avgOk dflt d i j vmax dv = (d', .ok n)) (a b : ℕ) (ha : a < d.props.length)
    (hb : b < d.props.length)
    (hr : 0 < vmax ∨ 0 < dflt.vmax ∨ (EasySpecies d.table a ∧ EasySpecies d.table b))
    (haa : ElasticIn d.table a a) (hbb : ElasticIn d.table b b) : ElasticIn d'.table a b := by
  obtain ⟨L, l1, l2, l3, l4, l5, l6⟩ := createMissing_core avgOk dflt d ok i j vmax dv
  rw [h] at l2 l3 l4 l5 l6
  simp only at l2 l3 l4 l5 l6
  rcases l6 with ⟨_, r2⟩ | ⟨r1, _⟩
  swap
  · cases r1
  have hentry : ∀ c d' : ℕ, c < d.props.length → d' < d.props.length → c < d' →
      (0 < vmax ∨ 0 < dflt.vmax ∨ (EasySpecies d.table c ∧ EasySpecies d.table d')) →
      ElasticIn d.table c c → ElasticIn d.table d' d' →
      ∃ e ∈ ((createMissing avgOk dflt d i j vmax dv).1.table.cell c d').rhs, e.isElastic = true := by
    intro c e hc he hce hr' hcc hee
    rw [h]
    by_cases hL : (c, e) ∈ L
    · obtain ⟨_, _, _, _, x, _, hel, hcell⟩ := l4 c e hL
      exact ⟨x, by rw [hcell]; simp, hel⟩
    · by_cases hex : ElasticIn d.table c e
      · obtain ⟨x, hx, hxe⟩ := hex
        unfold UTable.entry at hx
        rw [min_eq_left hce.le, max_eq_right hce.le] at hx
        exact ⟨x, by rw [l5 c e hL]; exact hx, hxe⟩
      · exact absurd (r2 c e hce he (.inl ⟨.inl hi, .inl hj⟩) ⟨hex, hcc, hee, by tauto⟩) hL
  rw [h] at hentry
  rcases lt_trichotomy a b with hab | hab | hab
  · obtain ⟨e, he, hel⟩ := hentry a b ha hb hab hr haa hbb
    exact ⟨e, by unfold UTable.entry; rwa [min_eq_left hab.le, max_eq_right hab.le], hel⟩
  · subst hab
    obtain ⟨e, he, hel⟩ := haa
    refine ⟨e, ?_, hel⟩
    unfold UTable.entry at he ⊢
    rw [min_self, max_self] at he ⊢
    rw [l5 a a (fun hc => by have := (l4 a a hc).1; omega)]
    exact he
  · obtain ⟨e, he, hel⟩ := hentry b a hb ha hab (by tauto) hbb haa
    exact ⟨e, by unfold UTable.entry; rwa [min_eq_right hab.le, max_eq_left hab.le], hel⟩

omit [Field K] [IsStrictOrderedRing K] in
/-- **C28**  An added equation is an elastic collision of one particle of each of the two species, the
reactants in order of mass: if the masses differ and the species are sorted, in index order. -/
theorem C28_new_equation {db : Registry K} {t : UTable ISet} (hs : db.Pairwise MassNameBefore) {a b : ℕ} (hab : a < b) {e : LEq}
    (h : NewEquation db t a b e) :
    e.isElastic = true ∧ e.products = [e.A, e.B] ∧
    (∀ p q, db[a]? = some p → db[b]? = some q → p.mass ≠ q.mass → e.A = Term.single a ∧ e.B = Term.single b) := by
  obtain ⟨h1, h2, _, _, h3, p, q, hp, hq, hm⟩ := h
  refine ⟨?_, h1, fun p' q' hp' hq' hne => ?_⟩
  · obtain ⟨A, B, P, c, m⟩ := e
    simp only at h1 h3
    subst h1
    apply new_isElastic
    rcases h3 with ⟨rfl, rfl⟩ | ⟨rfl, rfl⟩ <;> simp only [Term.single] <;> omega
  · rcases h3 with h3 | ⟨h3, h4⟩
    · exact h3
    · exfalso
      rw [h3] at hp; rw [h4] at hq
      simp only [Term.single, Int.toNat_natCast] at hp hq
      rw [hp] at hq'; cases hq'
      rw [hq] at hp'; cases hp'
      obtain ⟨la, ea⟩ := List.getElem?_eq_some_iff.1 hq
      obtain ⟨lb, eb⟩ := List.getElem?_eq_some_iff.1 hp
      rcases List.pairwise_iff_getElem.1 hs a b la lb hab with hlt | ⟨heq, _⟩
      · rw [ea, eb] at hlt; exact absurd hm (not_le.2 hlt)
      · rw [ea, eb] at heq; exact hne heq

/-! ## C29 -/

/-- **C29**  With both indices given, only the entry of these two species can change. -/
theorem C29_indices (avgOk : K → K → LEq → LEq → Bool) (dflt : CMDefaults K) (d : RDB K)
    (ok : TableOK d.props d.table) (i j : ℕ) (vmax dv : K) (a b : ℕ)
    (hab : ¬ ((a = i ∧ b = j) ∨ (a = j ∧ b = i))) :
    (createMissing avgOk dflt d i j vmax dv).1.table.get? a b = d.table.get? a b := by
  obtain ⟨L, _, _, l3, l4, l5, _⟩ := createMissing_core avgOk dflt d ok i j vmax dv
  unfold UTable.get?
  rw [l3.side, ok.side, l5]
  intro hL
  obtain ⟨_, _, hsel, _⟩ := l4 _ _ hL
  unfold Selected at hsel
  omega

/-- **C29**  With names of loaded species the call is the one with their indices, so only the entry of these
two species can change. -/
theorem C29_loaded_names (avgOk : K → K → LEq → LEq → Bool) (dflt : CMDefaults K) (d : RDB K)
    (hnd : NodupNames d.props) (ok : TableOK d.props d.table) (i j : ℕ) (p q : Props K)
    (hi : d.props[i]? = some p) (hj : d.props[j]? = some q) (vmax dv : K) (a b : ℕ)
    (hab : ¬ ((a = i ∧ b = j) ∨ (a = j ∧ b = i))) :
    createMissingByName avgOk dflt d p.name q.name vmax dv = createMissing avgOk dflt d i j vmax dv ∧
    (createMissingByName avgOk dflt d p.name q.name vmax dv).1.table.get? a b = d.table.get? a b := by
  have idx : ∀ (k : ℕ) (x : Props K), d.props[k]? = some x → findParticleIndx d.props x.name = (k : ℤ) := by
    intro k x hk
    obtain ⟨lt, _⟩ := List.getElem?_eq_some_iff.1 hk
    unfold findParticleIndx
    rw [findParticle_unique hnd hk, if_neg (by omega)]
  have e : createMissingByName avgOk dflt d p.name q.name vmax dv = createMissing avgOk dflt d i j vmax dv := by
    unfold createMissingByName; rw [idx i p hi, idx j q hj]
  exact ⟨e, by rw [e]; exact C29_indices avgOk dflt d ok i j vmax dv a b hab⟩

omit [IsStrictOrderedRing K] in
/-- **C29**  An unknown name does not restrict and is not reported: the call is the one without a
restriction in that place, so it may change entries of any species. -/
theorem C29_unknown_name (avgOk : K → K → LEq → LEq → Bool) (dflt : CMDefaults K) (d : RDB K) (n m : String)
    (vmax dv : K) :
    ((∀ p ∈ d.props, p.name ≠ n) → createMissingByName avgOk dflt d n m vmax dv =
      createMissing avgOk dflt d (-1) (findParticleIndx d.props m) vmax dv) ∧
    ((∀ p ∈ d.props, p.name ≠ m) → createMissingByName avgOk dflt d n m vmax dv =
      createMissing avgOk dflt d (findParticleIndx d.props n) (-1) vmax dv) := by
  have idx : ∀ x : String, (∀ p ∈ d.props, p.name ≠ x) → findParticleIndx d.props x = -1 := by
    intro x hx
    unfold findParticleIndx
    rw [if_pos ((findParticle_eq_length_iff _ _).2 hx)]
  constructor
  · intro h; unfold createMissingByName; rw [idx n h]
  · intro h; unfold createMissingByName; rw [idx m h]

/-! ### Concrete tables -/

/-- `e` with itself tabulated, `H` and `Ar` easy, `e`-`H` present, the other two pairs missing. -/
def exCM : RDB ℚ where
  props := exDB
  table := ⟨3, fun a b =>
    let el (c : String) : LEq := ⟨Term.single a, Term.single b,
      if a = b then [Term.many a 2] else [Term.single a, Term.single b], c, "elastic"⟩
    ⟨(Term.single a, Term.single b),
      if a = b then [el (if a = 0 then "data" else "vhs")] else if a = 0 ∧ b = 1 then [el "vhs"] else []⟩⟩

example : TableOK exCM.props exCM.table := by
  refine ⟨rfl, fun a ha e he => ?_⟩
  simp only [exCM, if_true] at he
  rw [List.mem_singleton] at he
  subst he
  exact ⟨rfl, rfl⟩

def RDB.counts (r : RDB ℚ × Except CMErr ℕ) : List ℕ × Option ℕ :=
  ([(0, 0), (0, 1), (0, 2), (1, 1), (1, 2), (2, 2)].map (fun p => (r.1.table.cell p.1 p.2).rhs.length), r.2.toOption)

example : RDB.counts (createMissing (fun _ _ _ _ => true) ⟨0, 0⟩ exCM (-1) (-1) 0 0) =
    ([1, 1, 0, 1, 1, 1], some 1) := by decide +kernel
example : RDB.counts (createMissing (fun _ _ _ _ => true) ⟨0, 0⟩ exCM (-1) (-1) 10 0) =
    ([1, 1, 1, 1, 1, 1], some 2) := by decide +kernel
example : RDB.counts (createMissing (fun _ _ _ _ => true) ⟨10, 0⟩ exCM 2 0 0 0) =
    ([1, 1, 1, 1, 0, 1], some 1) := by decide +kernel
example : RDB.counts (createMissing (fun _ _ _ _ => false) ⟨0, 0⟩ exCM (-1) (-1) 10 0) =
    ([1, 1, 0, 1, 0, 1], none) := by decide +kernel
example : RDB.counts (createMissingByName (fun _ _ _ _ => true) ⟨0, 0⟩ exCM "Argon" "Ar" 10 0) =
    ([1, 1, 1, 1, 1, 1], some 2) := by decide +kernel

/-- Two species of equal mass: a call naming the later one first makes an equation whose reactants are in
the opposite order of its entry. -/
example : ((createMissing (K := ℚ) (fun _ _ _ _ => true) ⟨0, 0⟩
    { exCM with props := [⟨"e", 1, -1⟩, ⟨"H", 2000, 0⟩, ⟨"H*", 2000, 0⟩] } 2 1 10 1).1.table.cell 1 2).rhs.map
      (fun e => (e.A.species, e.B.species)) = [(2, 1)] := by decide +kernel

end Chimp
