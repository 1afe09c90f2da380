import Verif.Model.TreeDB
import Verif.Props.XPath
import Verif.Props.Session

/-!
# C115: a database filled from a document

From the tree of an XML document to the species and the table of interactions.
-/

namespace Chimp

variable {W : Type}

/-! ### Specification -/

/-- A `Particle` element describes a species: its name, and its mass and charge in SI units; what is not written is zero.
A polarizability has to be one. -/
def Reader.Says (R : Reader) (x : Xml) (p : Props ℝ) : Prop :=
  x.attr "name" = some p.name ∧
  ((x.named "mass" = [] ∧ p.mass = 0) ∨ ∃ c, x.named "mass" = [c] ∧ R.eval c.str = some ⟨p.mass, { kilogram := 1 }⟩) ∧
  ((x.named "charge" = [] ∧ p.charge = 0) ∨
    ∃ c, x.named "charge" = [c] ∧ R.eval c.str = some ⟨p.charge, { ampere := 1, second := 1 }⟩) ∧
  (x.named "polarizability" = [] ∨ ∃ c v, x.named "polarizability" = [c] ∧
    R.eval c.str = some ⟨v, { ampere := 2, second := 4, kilogram := -1 }⟩)

/-- The element at `k`th place among the `Interaction` elements of a document, in document order. -/
def Xml.interaction (root : Xml) (k : ℕ) (x : Xml) : Prop :=
  ∃ a, (root.everywhere "Interaction")[k]? = some a ∧ root.get a = some x

/-! ### Species -/

private theorem optional_iff (R : Reader) (x : Xml) (path : String) (d : SIDim) (v : ℝ) :
    R.optional x path d = .ok v ↔
      (x.named path = [] ∧ v = 0) ∨ ∃ c, x.named path = [c] ∧ R.eval c.str = some ⟨v, d⟩ := by
  unfold Reader.optional
  split
  · rename_i h
    simp [h, eq_comm]
  · rename_i c h
    simp only [h, List.cons_ne_nil, false_and, false_or, List.cons.injEq, and_true, exists_eq_left']
    cases R.eval c.str with
    | none => simp
    | some q =>
      obtain ⟨q1, q2⟩ := q
      simp only [Qty.coeffIn, Option.some.injEq, Qty.mk.injEq]
      split_ifs with hd
      · simp [hd]
      · simp [hd]
  · rename_i h1 h2
    constructor
    · intro h; cases h
    · rintro (⟨h, -⟩ | ⟨c, h, -⟩)
      · exact absurd h h1
      · exact absurd h (h2 c)

private theorem particle_iff (R : Reader) (x : Xml) (p : Props ℝ) : R.particle x = .ok p ↔ R.Says x p := by
  unfold Reader.particle Reader.Says
  have hm : (x.named "mass" = [] ∧ p.mass = 0) ∨ (∃ c, x.named "mass" = [c] ∧
      R.eval c.str = some ⟨p.mass, { kilogram := 1 }⟩) ↔ R.optional x "mass" .mass = .ok p.mass :=
    (optional_iff R x "mass" .mass p.mass).symm
  have hc : (x.named "charge" = [] ∧ p.charge = 0) ∨ (∃ c, x.named "charge" = [c] ∧
      R.eval c.str = some ⟨p.charge, { ampere := 1, second := 1 }⟩) ↔ R.optional x "charge" .charge = .ok p.charge :=
    (optional_iff R x "charge" .charge p.charge).symm
  have hp : (x.named "polarizability" = [] ∨ ∃ c v, x.named "polarizability" = [c] ∧
      R.eval c.str = some ⟨v, { ampere := 2, second := 4, kilogram := -1 }⟩) ↔
      ∃ v, R.optional x "polarizability" .polarizability = .ok v := by
    simp only [optional_iff, SIDim.polarizability]
    constructor
    · rintro (h | ⟨c, v, h⟩)
      · exact ⟨0, .inl ⟨h, rfl⟩⟩
      · exact ⟨v, .inr ⟨c, h⟩⟩
    · rintro ⟨v, ⟨h, -⟩ | ⟨c, h⟩⟩
      · exact .inl h
      · exact .inr ⟨c, v, h⟩
  rw [hm, hc, hp]
  obtain ⟨n, m, c⟩ := p
  cases x.attr "name" with
  | none => simp
  | some n' =>
    dsimp only
    cases h1 : R.optional x "mass" .mass <;> cases h2 : R.optional x "charge" .charge <;>
      cases h3 : R.optional x "polarizability" .polarizability <;> simp

mutual
private theorem addrs_nodup (x : Xml) : x.addrs.Nodup := by
  cases x with
  | text s => simp [Xml.addrs]
  | elem t as ks =>
    simp only [Xml.addrs, List.nodup_cons]
    refine ⟨fun h => ?_, (addrsFrom_nodup ks 0).1⟩
    obtain ⟨i, c, e, -⟩ := (addrsFrom_nodup ks 0).2 _ h
    cases e
private theorem addrsFrom_nodup (ks : List Xml) (n : ℕ) : (Xml.addrsFrom n ks).Nodup ∧
    ∀ a ∈ Xml.addrsFrom n ks, ∃ i c, a = i :: c ∧ n ≤ i := by
  cases ks with
  | nil => simp [Xml.addrsFrom]
  | cons k ks =>
    obtain ⟨h1, h2⟩ := addrsFrom_nodup ks (n + 1)
    have h3 := addrs_nodup k
    simp only [Xml.addrsFrom]
    refine ⟨List.Nodup.append (h3.map fun a b h => (List.cons.inj h).2) h1 ?_, ?_⟩
    · intro a ha hb
      obtain ⟨c, -, rfl⟩ := List.mem_map.1 ha
      obtain ⟨i, c', e, hi⟩ := h2 _ hb
      cases e
      omega
    · intro a ha
      rcases List.mem_append.1 ha with ha | ha
      · obtain ⟨c, -, rfl⟩ := List.mem_map.1 ha
        exact ⟨n, c, rfl, le_rfl⟩
      · obtain ⟨i, c, e, hi⟩ := h2 _ ha
        exact ⟨i, c, e, by omega⟩
end

theorem everywhere_nodup (root : Xml) (t : String) : (root.everywhere t).Nodup := (addrs_nodup root).filter _

/-- **C115**  Adding a species by name succeeds exactly if the document has one `Particle` element of this name, at any
depth, that describes a species; this species is added as in C01. -/
theorem C115_add_name (R : Reader) (s s' : TreeDB W) (n : String) :
    s.addName R n = .ok s' ↔ ∃ a x p, (∀ b, (∃ y, s.root.get b = some y ∧ y.hasTag "Particle" = true ∧
        y.attr "name" = some n) ↔ b = a) ∧ s.root.get a = some x ∧ R.Says x p ∧ p.name = n ∧
      s' = { s with props := addParticleType s.props p } := by
  have hmem : ∀ b, b ∈ s.root.particles n ↔ ∃ y, s.root.get b = some y ∧ y.hasTag "Particle" = true ∧
      y.attr "name" = some n := by
    intro b
    unfold Xml.particles
    rw [List.mem_filter, mem_everywhere]
    cases s.root.get b <;> simp
  have hnd : (s.root.particles n).Nodup := (everywhere_nodup s.root "Particle").filter _
  unfold TreeDB.addName
  constructor
  · intro h
    split at h
    swap
    · cases h
    rename_i a ha
    split at h
    · cases h
    rename_i x hx
    split at h
    · cases h
    rename_i p hp
    cases h
    have hs := (particle_iff R x p).1 hp
    refine ⟨a, x, p, fun b => ?_, hx, hs, ?_, rfl⟩
    · rw [← hmem, ha, List.mem_singleton]
    · obtain ⟨y, hy, -, hn⟩ := (hmem a).1 (by rw [ha]; simp)
      rw [hx] at hy
      cases hy
      rw [hs.1] at hn
      exact Option.some.inj hn
  · rintro ⟨a, x, p, hb, hx, hp, -, rfl⟩
    have e : s.root.particles n = [a] := by
      refine List.perm_singleton.1 ((List.perm_ext_iff_of_nodup hnd (List.nodup_singleton a)).2 fun b => ?_)
      rw [hmem, hb, List.mem_singleton]
    simp only [e, hx, (particle_iff R x p).2 hp]

/-- **C115**  Adding species by name, if it returns: names stay distinct, every name given is there, nothing that was there
is lost, and everything new is described by a `Particle` element of the document with one of the names given. -/
theorem C115_names (R : Reader) : ∀ (ns : List String) (s s' : TreeDB W), s.addNames R ns = (s', none) →
    NodupNames s.props → NodupNames s'.props ∧ s'.root = s.root ∧ s'.filter = s.filter ∧ s'.table = s.table ∧
      (∀ n ∈ ns, ∃ p ∈ s'.props, p.name = n) ∧ (∀ p ∈ s.props, p ∈ s'.props) ∧
      ∀ p ∈ s'.props, p ∈ s.props ∨ p.name ∈ ns ∧ ∃ a x, s.root.get a = some x ∧ x.hasTag "Particle" = true ∧ R.Says x p
  | [], s, s', h, hnd => by
    simp only [TreeDB.addNames, Prod.mk.injEq, and_true] at h
    subst h
    exact ⟨hnd, rfl, rfl, rfl, by simp, fun p hp => hp, fun p hp => .inl hp⟩
  | n :: ns, s, s', h, hnd => by
    unfold TreeDB.addNames at h
    split at h
    · cases h
    rename_i s1 h1
    obtain ⟨a, x, p, hb, hx, hp, hpn, rfl⟩ := (C115_add_name R s s1 n).1 h1
    obtain ⟨y, hy, ht, -⟩ := (hb a).2 rfl
    rw [hx] at hy
    cases hy
    obtain ⟨g1, g2, g3, g4, g5, g6, g7⟩ := C115_names R ns _ s' h (nodupNames_add hnd p)
    have hsub : ∀ q ∈ s.props, q ∈ addParticleType s.props p := by
      intro q hq
      unfold addParticleType
      split
      · exact hq
      · exact List.mem_append_left _ hq
    have hold : ∀ q ∈ addParticleType s.props p, q ∈ s.props ∨ q = p := by
      intro q hq
      unfold addParticleType at hq
      split at hq
      · exact .inl hq
      · simpa using hq
    have hname : ∃ q ∈ addParticleType s.props p, q.name = n := by
      unfold addParticleType
      split
      · rename_i hf
        by_contra hno
        push Not at hno
        exact hf ((findParticle_eq_length_iff _ _).2 fun q hq => by rw [hpn]; exact hno q hq)
      · exact ⟨p, by simp, hpn⟩
    refine ⟨g1, g2, g3, g4, ?_, fun q hq => g6 q (hsub q hq), ?_⟩
    · intro m hm
      rcases List.mem_cons.1 hm with rfl | hm
      · obtain ⟨q, hq, hqn⟩ := hname
        exact ⟨q, g6 q hq, hqn⟩
      · exact g5 m hm
    · intro q hq
      rcases g7 q hq with hq | ⟨hq, hh⟩
      · rcases hold q hq with hq | rfl
        · exact .inl hq
        · exact .inr ⟨by simp [hpn], a, x, hx, ht, hp⟩
      · exact .inr ⟨List.mem_cons_of_mem _ hq, hh⟩

/-! ### The queries and the filters -/

section
variable {parse : List Char → Option ℤ} {number : List Char → Option ℝ} {root : Xml} {d : Doc}

private theorem keepTree_eq (hlen : d.nodes.length = (root.everywhere "Interaction").length)
    {query : List ℕ → List (List ℕ)} {p : XInter → Bool}
    (h : ∀ k a, (root.everywhere "Interaction")[k]? = some a → (k ∈ keepIf d p [k] ↔ query a ≠ [])) (s : List ℕ) :
    keepTree root query s = keepIf d p s := by
  unfold keepTree keepIf
  refine List.filter_congr fun k _ => ?_
  cases ha : (root.everywhere "Interaction")[k]? with
  | none =>
    have : d.nodes[k]? = none := by
      rw [List.getElem?_eq_none_iff] at ha ⊢
      omega
    simp [this]
  | some a =>
    have := h k a ha
    unfold keepIf at this
    rw [List.mem_filter] at this
    simp only [List.mem_singleton, true_and] at this
    rw [Bool.eq_iff_iff, this]
    simp

private theorem onTree_eq (hn : SameNumbers parse number) (hd : docOf parse root = some d)
    (h1 : ∀ a x, root.get a = some x → x.hasTag "Interaction" = true → OneEquation x) (hr : root.hasTag "Eq" = false)
    (f : Filter) : ∀ s, f.onTree number root d s = f.apply d s := by
  obtain ⟨hlen, h⟩ := C114_document hn hd h1
  induction f with
  | null => intro s; rfl
  | elastic =>
    exact keepTree_eq hlen fun k a ha => ((h k a ha).2.1 [k] (by simp)).2.1
  | label l =>
    exact keepTree_eq hlen fun k a ha => ((h k a ha).2.1 [k] (by simp)).2.2 l
  | eqio out terms =>
    refine keepTree_eq hlen fun k a ha => ?_
    by_cases ht : terms = []
    · subst ht
      simp only [eqioQuery, hr, if_true, Bool.false_eq_true, if_false, ne_eq, not_true_eq_false, iff_false]
      unfold keepIf
      rw [List.mem_filter]
      rintro ⟨-, hk⟩
      split at hk
      · cases hk
      · simp [eqioMatches] at hk
    · have := ((h k a ha).2.1 [k] (by simp)).1 out terms ht
      rw [eqioQuery, if_neg ht]
      exact this
  | and l r hl hr' => intro s; simp only [Filter.onTree, Filter.apply, hl, hr']
  | or l r hl hr' => intro s; simp only [Filter.onTree, Filter.apply, hl, hr']
  | not l r hl hr' => intro s; simp only [Filter.onTree, Filter.apply, hl, hr']
  | sect name required f ih =>
    intro s
    have hsec : sectionRanks root name = (List.range d.nodes.length).filter fun k => d.inSection name k := by
      rw [hlen, sectionRanks]
      refine List.filter_congr fun k hk => ?_
      obtain ⟨a, ha⟩ : ∃ a, (root.everywhere "Interaction")[k]? = some a :=
        ⟨_, List.getElem?_eq_getElem (List.mem_range.1 hk)⟩
      rw [ha, Bool.eq_iff_iff, (docOf_some hd).2 name k a ha]
      simp
    simp only [Filter.onTree, Filter.apply, ih, hsec]

private theorem queryTree_eq (hn : SameNumbers parse number) (hd : docOf parse root = some d)
    (h1 : ∀ a x, root.get a = some x → x.hasTag "Interaction" = true → OneEquation x) (db : Registry ℝ) (A B : ℕ)
    (nA nB : String) : queryTree number root db A B nA nB = queryNodes d db A B nA nB := by
  obtain ⟨hlen, h⟩ := C114_document hn hd h1
  unfold queryTree
  have e : queryNodes d db A B nA nB = (List.range (root.everywhere "Interaction").length).filter
      fun k => decide (k ∈ queryNodes d db A B nA nB) := by
    conv_lhs => unfold queryNodes
    rw [hlen]
    refine List.filter_congr fun k hk => ?_
    rw [Bool.eq_iff_iff, decide_eq_true_iff]
    unfold queryNodes
    rw [List.mem_filter, hlen]
    exact ⟨fun h => ⟨hk, h⟩, fun h => h.2⟩
  rw [e]
  refine List.filter_congr fun k hk => ?_
  obtain ⟨a, ha⟩ : ∃ a, (root.everywhere "Interaction")[k]? = some a :=
    ⟨_, List.getElem?_eq_getElem (List.mem_range.1 hk)⟩
  rw [ha, Bool.eq_iff_iff, decide_eq_true_iff, decide_eq_true_iff]
  exact ((h k a ha).1 db A B nA nB).symm

/-! ### The table -/

private theorem session_doc (R : Reader) (T : Tools W) (hd : docOf parse root = some d) (db : Registry ℝ) :
    ∃ D : SDoc, D.doc = d ∧ ∀ k x w, root.interaction k x → loadXml R T parse db x = .ok w →
      loadNode T D db k = .ok w := by
  have key : ∀ k, ∃ i : InterDoc, ∀ x w, root.interaction k x → loadXml R T parse db x = .ok w →
      ∀ D : SDoc, D.doc = d → D.inter k = i → loadNode T D db k = .ok w := by
    intro k
    by_cases hk : ∃ x w, root.interaction k x ∧ loadXml R T parse db x = .ok w
    · obtain ⟨x, w, ⟨a, ha, hx⟩, hw⟩ := hk
      obtain ⟨c, m, cs, i, -, -, -, -, hD⟩ := (C114_loads (R := R) (T := T) hd ha hx).1 hw
      refine ⟨i, fun x' w' hx' hw' => ?_⟩
      obtain ⟨a', ha', hxa⟩ := hx'
      rw [ha] at ha'
      cases ha'
      rw [hx] at hxa
      cases hxa
      rw [hw] at hw'
      cases hw'
      exact hD
    · exact ⟨{ cs := .constant 0 none }, fun x w hx hw => absurd ⟨x, w, hx, hw⟩ hk⟩
  choose i hi using key
  exact ⟨{ doc := d, inter := i }, rfl, fun k x w hx hw => hi k x w hx hw _ rfl rfl⟩

private theorem pushTree_ok {R : Reader} {T : Tools W} {db : Registry ℝ} {D : SDoc}
    (hD : ∀ k x w, root.interaction k x → loadXml R T parse db x = .ok w → loadNode T D db k = .ok w) :
    ∀ (ks : List ℕ) (l l' : List (WEq W)), pushTree R T parse db root ks l = (l', none) →
      pushAll T D db ks l = (l', none) ∧ ∀ k ∈ ks, ∃ x w, root.interaction k x ∧ loadXml R T parse db x = .ok w
  | [], l, l', h => by
    simp only [pushTree, Prod.mk.injEq, and_true] at h
    simp [pushAll, h]
  | k :: ks, l, l', h => by
    unfold pushTree at h
    split at h
    · cases h
    rename_i x hx
    split at h
    · cases h
    rename_i w hw
    obtain ⟨a, ha, hxa⟩ := Option.bind_eq_some_iff.1 hx
    obtain ⟨h2, h3⟩ := pushTree_ok hD ks (l ++ [w]) l' h
    refine ⟨?_, ?_⟩
    · rw [pushAll, hD k x w ⟨a, ha, hxa⟩ hw]
      exact h2
    · intro j hj
      rcases List.mem_cons.1 hj with rfl | hj
      · exact ⟨x, w, ⟨a, ha, hxa⟩, hw⟩
      · exact h3 j hj

private theorem pushTree_err {R : Reader} {T : Tools W} {db : Registry ℝ} {e : TreeErr} :
    ∀ (ks : List ℕ) (l l' : List (WEq W)), pushTree R T parse db root ks l = (l', some e) →
      (∀ k ∈ ks, ∃ x, root.interaction k x) →
      ∃ k ∈ ks, ∃ x z, root.interaction k x ∧ loadXml R T parse db x = .error z ∧ e = .load z
  | [], l, l', h, _ => by simp [pushTree] at h
  | k :: ks, l, l', h, hk => by
    unfold pushTree at h
    obtain ⟨x, a, ha, hx⟩ := hk k List.mem_cons_self
    rw [ha, Option.bind_some, hx] at h
    dsimp only at h
    split at h
    · rename_i z hz
      simp only [Prod.mk.injEq, Option.some.injEq] at h
      exact ⟨k, List.mem_cons_self, x, z, ⟨a, ha, hx⟩, hz, h.2.symm⟩
    · rename_i w hw
      obtain ⟨j, hj, hh⟩ := pushTree_err ks _ l' h fun j hj => hk j (List.mem_cons_of_mem _ hj)
      exact ⟨j, List.mem_cons_of_mem _ hj, hh⟩

private theorem fillTree_ok {R : Reader} {T : Tools W} {db : Registry ℝ} {D : SDoc} {f : Filter}
    (hn : SameNumbers parse number) (hd : docOf parse root = some d)
    (h1 : ∀ a x, root.get a = some x → x.hasTag "Interaction" = true → OneEquation x) (hr : root.hasTag "Eq" = false)
    (hdD : D.doc = d)
    (hD : ∀ k x w, root.interaction k x → loadXml R T parse db x = .ok w → loadNode T D db k = .ok w) :
    ∀ (l : List (ℕ × ℕ)) (t t' : UTable (WSet W)), fillTree R T parse number root d f db l t = (t', none) →
      fillW T D f db l t = (t', none) ∧ ∀ A B, (A, B) ∈ l → ∀ k ∈ cellNodes d f db A B,
        ∃ x w, root.interaction k x ∧ loadXml R T parse db x = .ok w
  | [], t, t', h => by
    simp only [fillTree, Prod.mk.injEq, and_true] at h
    simp [fillW, h]
  | (A, B) :: l, t, t', h => by
    unfold fillTree at h
    split at h
    swap
    · cases h
    rename_i a b ha hb
    rw [queryTree_eq hn hd h1, onTree_eq hn hd h1 hr] at h
    dsimp only at h
    split at h
    · cases h
    rename_i hnone
    obtain ⟨p1, p2⟩ := pushTree_ok hD _ _ _ (Prod.ext rfl hnone)
    obtain ⟨i1, i2⟩ := fillTree_ok hn hd h1 hr hdD hD l _ t' h
    refine ⟨?_, ?_⟩
    · rw [fillW, ha, hb]
      dsimp only
      rw [hdD, p1]
      exact i1
    · intro A' B' hm k hk
      rcases List.mem_cons.1 hm with hm | hm
      · cases hm
        refine p2 k ?_
        simpa [cellNodes, ha, hb] using hk
      · exact i2 A' B' hm k hk

private theorem fillTree_err {R : Reader} {T : Tools W} {db : Registry ℝ} {f : Filter} {e : TreeErr}
    (hn : SameNumbers parse number) (hd : docOf parse root = some d)
    (h1 : ∀ a x, root.get a = some x → x.hasTag "Interaction" = true → OneEquation x) (hr : root.hasTag "Eq" = false) :
    ∀ (l : List (ℕ × ℕ)) (t t' : UTable (WSet W)), (∀ A B, (A, B) ∈ l → A ≤ B ∧ B < db.length) →
      fillTree R T parse number root d f db l t = (t', some e) →
      ∃ A B, (A, B) ∈ l ∧ ∃ k ∈ cellNodes d f db A B, ∃ x z, root.interaction k x ∧
        loadXml R T parse db x = .error z ∧ e = .load z
  | [], t, t', _, h => by simp [fillTree] at h
  | (A, B) :: l, t, t', hl, h => by
    unfold fillTree at h
    obtain ⟨hAB, hB⟩ := hl A B List.mem_cons_self
    have ha : db[A]? = some (db[A]'(by omega)) := List.getElem?_eq_getElem (by omega)
    have hb : db[B]? = some (db[B]'hB) := List.getElem?_eq_getElem hB
    rw [ha, hb] at h
    dsimp only at h
    rw [queryTree_eq hn hd h1, onTree_eq hn hd h1 hr] at h
    split at h
    · rename_i z hz
      simp only [Prod.mk.injEq, Option.some.injEq] at h
      obtain ⟨-, rfl⟩ := h
      obtain ⟨k, hk, x, y, hx, hy, he⟩ := pushTree_err _ _ _ (Prod.ext rfl hz) fun k hk => by
        have hs := apply_spec d f _ (queryNodes_nodeSet d db A B (db[A]'(by omega)).name (db[B]'hB).name)
        have hlt : k < d.nodes.length := (queryNodes_nodeSet d db A B _ _).2 k (keeps_sub d _ f k ((hs.2 k).1 hk))
        rw [(C114_document hn hd h1).1] at hlt
        obtain ⟨x, hx, -⟩ := mem_everywhere.1 (List.getElem_mem hlt)
        exact ⟨x, _, List.getElem?_eq_getElem hlt, hx⟩
      refine ⟨A, B, List.mem_cons_self, k, ?_, x, y, hx, hy, he⟩
      simpa [cellNodes, ha, hb] using hk
    · obtain ⟨A', B', hm, hh⟩ := fillTree_err hn hd h1 hr l _ t' (fun A B hm => hl A B (List.mem_cons_of_mem _ hm)) h
      exact ⟨A', B', List.mem_cons_of_mem _ hm, hh⟩

/-- **C115**  Filling the table throws exactly if an `Interaction` element that is wanted for two species and kept by the
filter cannot be loaded.  If it returns, the species are those that were added, in order of mass and name, and the entry for
two species holds, behind what was there, the equations loaded from exactly the elements that are wanted and kept, in
document order. -/
theorem C115_table {R : Reader} {T : Tools W} (hn : SameNumbers parse number) {s s' : TreeDB W}
    (hd : docOf parse s.root = some d)
    (h1 : ∀ a x, s.root.get a = some x → x.hasTag "Interaction" = true → OneEquation x)
    (hr : s.root.hasTag "Eq" = false) (hnd : NodupNames s.props) (hc : CleanNames d s.props) {r : Option TreeErr}
    (h : s.init R T parse number d = (s', r)) :
    s'.props.Perm s.props ∧ s'.props.Pairwise MassNameBefore ∧ s'.root = s.root ∧ s'.filter = s.filter ∧
    (∀ e, r = some e → ∃ a ∈ s.props, ∃ b ∈ s.props, ∃ k x z,
      s.filter.Keeps d (Wanted d s'.props a.name b.name) k ∧ s.root.interaction k x ∧
      loadXml R T parse s'.props x = .error z ∧ e = .load z) ∧
    (r = none → ∀ A B a b, A ≤ B → s'.props[A]? = some a → s'.props[B]? = some b → ∃ ks es,
      s'.table.get? A B = some ⟨(Term.single A, Term.single B),
        (if B < s.table.side then (s.table.cell A B).rhs else []) ++ es⟩ ∧
      ks.Pairwise (· < ·) ∧ (∀ k, k ∈ ks ↔ s.filter.Keeps d (Wanted d s'.props a.name b.name) k) ∧
      List.Forall₂ (fun k w => ∃ x, s.root.interaction k x ∧ loadXml R T parse s'.props x = .ok w) ks es) := by
  have hperm := sortProps_perm s.props
  have hnd' : NodupNames (sortProps s.props) := (nodupNames_of_perm hperm).2 hnd
  have hc' : CleanNames d (sortProps s.props) := ⟨fun p hp => hc.1 p (hperm.mem_iff.1 hp), hc.2⟩
  unfold TreeDB.init at h
  dsimp only at h
  simp only [Prod.mk.injEq] at h
  obtain ⟨rfl, rfl⟩ := h
  refine ⟨hperm, (sortProps_strict hnd).imp fun {a b} hab => (Props.lt_iff a b).1 hab, rfl, rfl, ?_, ?_⟩
  · intro e he
    obtain ⟨A, B, hm, k, hk, x, z, hx, hz, rfl⟩ := fillTree_err hn hd h1 hr _ _ _
      (fun A B hm => (mem_indexPairs _ _ _).1 hm) (Prod.ext rfl he)
    obtain ⟨hAB, hB⟩ := (mem_indexPairs _ _ _).1 hm
    have ha : (sortProps s.props)[A]? = some ((sortProps s.props)[A]'(by omega)) := List.getElem?_eq_getElem (by omega)
    have hb : (sortProps s.props)[B]? = some ((sortProps s.props)[B]'hB) := List.getElem?_eq_getElem hB
    exact ⟨_, hperm.mem_iff.1 (List.mem_of_getElem? ha), _, hperm.mem_iff.1 (List.mem_of_getElem? hb), k, x, z,
      ((cellNodes_spec hnd' hc' ha hb).2 k).1 hk, hx, hz, rfl⟩
  · intro hnone A B a b hAB ha hb
    obtain ⟨D, hdD, hD⟩ := session_doc R T hd (sortProps s.props)
    obtain ⟨f1, f2⟩ := fillTree_ok (f := s.filter) hn hd h1 hr hdD hD _ _ _ (Prod.ext rfl hnone)
    have hB : B < (sortProps s.props).length := by
      by_contra hlt
      dsimp only at hb
      rw [List.getElem?_eq_none (by omega)] at hb
      cases hb
    have hm : (A, B) ∈ indexPairs (sortProps s.props).length := (mem_indexPairs _ _ _).2 ⟨hAB, hB⟩
    obtain ⟨g1, -, g3, -, -⟩ := fillW_spec (T := T) (d := D) (f := s.filter) (db := sortProps s.props)
      (indexPairs (sortProps s.props).length) (resizeW s.table (sortProps s.props).length) (nodup_indexPairs _)
      (fun A B hm => (mem_indexPairs _ _ _).1 hm)
    rw [f1, hdD] at g3
    rw [f1] at g1
    obtain ⟨es, hes, hcell⟩ := g3 rfl A B hm
    obtain ⟨k1, k2⟩ := cellNodes_spec (f := s.filter) hnd' hc' ha hb
    refine ⟨cellNodes d s.filter (sortProps s.props) A B, es, ?_, k1, k2, ?_⟩
    · dsimp only at g1 hcell ⊢
      unfold UTable.get?
      rw [g1, if_pos ⟨by simp only [resizeW]; omega, by simp only [resizeW]; omega⟩, min_eq_left hAB, max_eq_right hAB,
        hcell]
      simp only [resizeW]
      split_ifs <;> rfl
    · have := f2 A B hm
      revert this
      generalize cellNodes d s.filter (sortProps s.props) A B = ks at hes
      intro this
      clear hcell
      induction hes with
      | nil => exact .nil
      | cons hkw _ ih =>
        refine .cons ?_ (ih fun k hk => this k (List.mem_cons_of_mem _ hk))
        obtain ⟨x, w, hx, hw⟩ := this _ List.mem_cons_self
        have := hD _ x w hx hw
        rw [hkw] at this
        cases this
        exact ⟨x, hx, hw⟩

/-- **C115**  The table is the one that `Model/Session` computes for a document with the same interactions, so that
what is proved about databases in use (C79 to C82) is true of it. -/
theorem C115_session {R : Reader} {T : Tools W} (hn : SameNumbers parse number) {s s' : TreeDB W}
    (hd : docOf parse s.root = some d)
    (h1 : ∀ a x, s.root.get a = some x → x.hasTag "Interaction" = true → OneEquation x)
    (hr : s.root.hasTag "Eq" = false) (h : s.init R T parse number d = (s', none)) :
    ∃ D : SDoc, D.doc = d ∧ ∀ dflt, Call.init.run T false ⟨D, s.filter, dflt, s.props, s.table⟩ =
      (⟨D, s.filter, dflt, s'.props, s'.table⟩, .ok 0) := by
  obtain ⟨D, hdD, hD⟩ := session_doc R T hd (sortProps s.props)
  refine ⟨D, hdD, fun dflt => ?_⟩
  unfold TreeDB.init at h
  dsimp only at h
  simp only [Prod.mk.injEq] at h
  obtain ⟨rfl, hnone⟩ := h
  obtain ⟨f1, -⟩ := fillTree_ok (f := s.filter) hn hd h1 hr hdD hD _ _ _ (Prod.ext rfl hnone)
  show Session.init T false _ = _
  unfold Session.init
  dsimp only
  rw [f1]
  rfl

end

/-! ### A document -/

namespace TreeDBExample

open LoadXmlExample (mass db known nodup masses)

/-- Elastic scattering of electrons by hydrogen. -/
def scattering : Xml :=
  .elem "Interaction" []
    [.elem "Eq" []
      [.elem "In" [] [.elem "T" [] [.elem "P" [] [.text "e"]], .text " + ", .elem "T" [] [.elem "P" [] [.text "H"]]],
       .text "  -->  ",
       .elem "Out" [] [.elem "T" [] [.elem "P" [] [.text "e"]], .text " + ", .elem "T" [] [.elem "P" [] [.text "H"]]]],
     pyVHS "a" "t" "n" none]

/-- The Python module writes it. -/
theorem written :
    pyInteraction mass [("H", 1), ("e", 1)] [("e", 1), ("H", 1)] [pyVHS "a" "t" "n" none] = scattering := by
  have e : ∀ l ∈ [[("H", (1 : ℤ)), ("e", 1)], [("e", 1), ("H", 1)]],
      (sortPartialEq mass l).map (fun t => ofLex (ofLex t).2) = [("e", 1), ("H", 1)] := by
    intro l hl
    simp only [List.mem_cons, List.not_mem_nil, or_false] at hl
    rcases hl with rfl | rfl <;>
    simp [sortPartialEq, List.insertionSort, List.orderedInsert, Prod.Lex.toLex_le_toLex, mass]
  simp [pyInteraction, pyEqXml, xmlPartial, e, xmlTerms, pyTerm, scattering]

/-- A document with two species and this interaction. -/
def tree : Xml :=
  .elem "ParticleDB" []
    [.elem "particles" []
      [.elem "Particle" [("name", "H")] [.elem "mass" [] [.text "M"]],
       .elem "Particle" [("name", "e")] [.elem "mass" [] [.text "m"], .elem "charge" [] [.text "q"]]],
     .elem "standard" [] [scattering]]

/-- A calculator for its texts. -/
noncomputable def desk : Reader where
  eval s := if s = ['a'] then some ⟨3, .area⟩ else if s = ['t'] then some ⟨273, .temperature⟩
    else if s = ['n'] then some ⟨1, .unity⟩ else if s = ['M'] then some ⟨2000, .mass⟩
    else if s = ['m'] then some ⟨1, .mass⟩ else if s = ['q'] then some ⟨-1, .charge⟩ else none
  pairs _ := .error .notAQuantity
  takes _ := true
  KB := 1
  tiny := 1
  me := 1

/-- Decimal numbers. -/
def parse (c : List Char) : Option ℤ := if c = [] then none else LoadXmlExample.parse c

theorem reads : ReadsNumbers parse := by
  intro n
  rw [parse, if_neg, LoadXmlExample.reads n]
  simp [Nat.repr, Nat.toDigits_ne_nil]

noncomputable def number (c : List Char) : Option ℝ := (parse c).map fun k => (k : ℝ)

theorem numbers : SameNumbers parse number where
  agree c k h := by simp [number, h]
  empty := rfl
  nan := by rw [number, show parse [] = none from rfl]; rfl

theorem interactions : tree.everywhere "Interaction" = [[1, 0]] := by decide +kernel

theorem one (a : List ℕ) (x : Xml) (h : tree.get a = some x) (ht : x.hasTag "Interaction" = true) : OneEquation x := by
  have ha := mem_everywhere.2 ⟨x, h, ht⟩
  rw [interactions, List.mem_singleton] at ha
  subst ha
  simp only [tree, Xml.get, List.getElem?_cons_zero, List.getElem?_cons_succ, Option.some.injEq] at h
  subst h
  refine ⟨_, _, _, rfl, rfl, rfl, ?_⟩
  intro T hT p hp
  simp [Xml.named, Xml.hasTag] at hT
  rcases hT with rfl | rfl <;>
  · simp [Xml.named, Xml.hasTag] at hp
    subst hp
    exact ⟨_, rfl, by simp [Xml.str, Xml.strs]⟩

def doc : Doc := (docOf parse tree).get (by decide +kernel)

theorem doc_eq : docOf parse tree = some doc := (Option.some_get _).symm

theorem nodes : doc.nodes = [⟨[{ P := "e" }, { P := "H" }], [{ P := "e" }, { P := "H" }], "e + H", "e + H",
    true, "vhs", none⟩] := by
  rfl

/-- Both species are added. -/
theorem added : (TreeDB.addNames desk ["H", "e"] { root := tree } : TreeDB Unit × Option TreeErr) =
    ({ root := tree, props := [⟨"H", 2000, 0⟩, ⟨"e", 1, -1⟩] }, none) := by
  have e : ∀ (s s' : TreeDB Unit) (n : String) (a : List ℕ) (x : Xml) (p : Props ℝ), s.root = tree →
      tree.particles n = [a] → tree.get a = some x → desk.Says x p →
      s.addName desk n = .ok { s with props := addParticleType s.props p } := by
    intro s s' n a x p hs hp hx hsay
    unfold TreeDB.addName
    rw [hs, hp]
    dsimp only
    rw [hx]
    dsimp only
    rw [(particle_iff desk x p).2 hsay]
  rw [TreeDB.addNames, e _ { root := tree } "H" [0, 0] _ ⟨"H", 2000, 0⟩ rfl (by decide +kernel) rfl ?_]
  · dsimp only
    rw [TreeDB.addNames, e _ { root := tree } "e" [0, 1] _ ⟨"e", 1, -1⟩ rfl (by decide +kernel) rfl ?_]
    · simp [TreeDB.addNames, addParticleType, findParticle]
    · simp [Reader.Says, Xml.attr, Xml.named, Xml.hasTag, Xml.str, Xml.strs, desk, SIDim.mass, SIDim.charge]
  · simp [Reader.Says, Xml.attr, Xml.named, Xml.hasTag, Xml.str, Xml.strs, desk, SIDim.mass]

theorem sorted : sortProps ([⟨"H", 2000, 0⟩, ⟨"e", 1, -1⟩] : Registry ℝ) = db := by
  simp [sortProps, List.insertionSort, List.orderedInsert, Props.lt, db]

/-- Filling the table returns, and the entry for electrons and hydrogen holds one equation, with Bird's cross section for
these species. -/
theorem made (T : Tools Unit) : ∃ s' w, (TreeDB.init desk T parse number doc (TreeDB.addNames desk ["H", "e"]
      { root := tree }).1) = (s', none) ∧ s'.props = db ∧
    s'.table.get? 0 1 = some ⟨(Term.single 0, Term.single 1), [w]⟩ ∧
    IsVHSFor db mass [("H", 1), ("e", 1)] [("e", 1), ("H", 1)] 1 1 3 273 1 w ∧ w.model = .elastic := by
  rw [added]
  obtain ⟨w, hw, hv, hm⟩ := (C112_python_elastic desk T reads nodup masses known (List.Perm.swap ..) "a" "t" "n" none).1
    3 273 1 (by simp [desk]) (by simp [desk]) (by simp [desk])
  simp only [Option.map_none] at hw
  rw [written] at hw
  have hint : ∀ k x, tree.interaction k x → k = 0 ∧ x = scattering := by
    rintro k x ⟨a, ha, hx⟩
    rw [interactions] at ha
    match k with
    | 0 =>
      simp only [List.getElem?_cons_zero, Option.some.injEq] at ha
      subst ha
      simp only [tree, Xml.get, List.getElem?_cons_zero, List.getElem?_cons_succ, Option.some.injEq] at hx
      exact ⟨rfl, hx.symm⟩
    | k + 1 => simp at ha
  cases hr : (TreeDB.init desk T parse number doc
    ({ root := tree, props := [⟨"H", 2000, 0⟩, ⟨"e", 1, -1⟩] } : TreeDB Unit)) with
  | mk s' r =>
  have hnd : NodupNames ([⟨"H", 2000, 0⟩, ⟨"e", 1, -1⟩] : Registry ℝ) := by unfold NodupNames; simp
  have hclean : CleanNames doc ([⟨"H", 2000, 0⟩, ⟨"e", 1, -1⟩] : Registry ℝ) := by
    refine ⟨by simp, ?_⟩
    decide +kernel
  have hs' : s'.props = db := by
    rw [← sorted]
    exact (congrArg (fun t => t.1.props) hr).symm
  obtain ⟨-, -, -, -, herr, hok⟩ := C115_table numbers doc_eq one (by decide +kernel) hnd hclean hr
  have hnone : r = none := by
    cases r with
    | none => rfl
    | some e =>
      obtain ⟨a, -, b, -, k, x, z, -, hx, hz, -⟩ := herr e rfl
      obtain ⟨rfl, rfl⟩ := hint k x hx
      rw [hs', hw] at hz
      cases hz
  subst hnone
  obtain ⟨ks, es, htab, hinc, hks, hes⟩ := hok rfl 0 1 ⟨"e", 1, -1⟩ ⟨"H", 2000, 0⟩ (by omega) (by rw [hs']; rfl)
    (by rw [hs']; rfl)
  refine ⟨s', w, rfl, hs', ?_, hv, hm⟩
  have h0 : 0 ∈ ks := by
    refine (hks 0).2 ⟨⟨_, by rw [nodes]; rfl, rfl, ?_, by simp, ?_⟩, ⟨_, by rw [nodes]; rfl, rfl⟩⟩
    · exact ⟨{ P := "e" }, { P := "H" }, .inl rfl, rfl, rfl, rfl, rfl⟩
    · rw [hs']
      simp [db]
  have hz : ∀ k ∈ ks, k = 0 := by
    intro k hk
    obtain ⟨⟨x, hx, -⟩, -⟩ := (hks k).1 hk
    rw [nodes] at hx
    have := (List.getElem?_eq_some_iff.1 hx).1
    simpa using this
  have hk0 : ks = [0] := by
    match ks, h0, hz, hinc with
    | [k], h0, hz, _ => rw [hz k (by simp)]
    | k :: l :: ks, _, hz, hinc =>
      have h1 := hz k (by simp)
      have h2 := hz l (by simp)
      have := (List.pairwise_cons.1 hinc).1 l (by simp)
      omega
  subst hk0
  obtain ⟨w', es', ⟨x, hx, hwx⟩, hnil, rfl⟩ := List.forall₂_cons_left_iff.1 hes
  cases hnil
  obtain ⟨-, rfl⟩ := hint 0 x hx
  rw [hs', hw] at hwx
  cases hwx
  rw [htab]
  rfl

end TreeDBExample

end Chimp
