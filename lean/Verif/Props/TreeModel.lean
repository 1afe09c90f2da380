import Verif.Model.TreeModel
import Verif.Props.TreeDB
import Verif.Props.Writer

/-!
# C116  Models and filters read from a document tree
-/

namespace Chimp

variable {W : Type}

/-! ### Specification -/

/-- A child of an `EqIO` element describes a term: the name in `P`, the number in `n` or one. -/
def DescribesEqTerm (parse : List Char → Option ℤ) (x : Xml) (t : EqTerm) : Prop :=
  (∃ p, x.named "P" = [p] ∧ p.str = t.name.toList) ∧
  ((x.named "n" = [] ∧ t.n = 1) ∨ ∃ c, x.named "n" = [c] ∧ parse c.str = some t.n)

/-- The meaning of an element as a filter.  Text between the elements has none. -/
inductive MeansFilter (parse : List Char → Option ℤ) : Xml → Filter → Prop
  | null as ks : MeansFilter parse (.elem "Null" as ks) .null
  | elastic as ks : MeansFilter parse (.elem "Elastic" as ks) .elastic
  | label as ks l : Xml.strs ks = l.toList → MeansFilter parse (.elem "Label" as ks) (.label l)
  | eqio as ks d out ts set : as.lookup "dir" = some d → d.toLower = (if out then "out" else "in") → ts ≠ [] →
      List.Forall₂ (DescribesEqTerm parse) (ks.filter Xml.isElem) ts → IsTermSet ts set →
      MeansFilter parse (.elem "EqIO" as ks) (.eqio out set)
  | and as ks a b l r : ks.filter Xml.isElem = [a, b] → MeansFilter parse a l → MeansFilter parse b r →
      MeansFilter parse (.elem "And" as ks) (.and l r)
  | or as ks a b l r : ks.filter Xml.isElem = [a, b] → MeansFilter parse a l → MeansFilter parse b r →
      MeansFilter parse (.elem "Or" as ks) (.or l r)
  | not as ks a b l r : ks.filter Xml.isElem = [a, b] → MeansFilter parse a l → MeansFilter parse b r →
      MeansFilter parse (.elem "Not" as ks) (.not l r)
  | sect0 as ks : ks.filter Xml.isElem = [] →
      MeansFilter parse (.elem "Section" as ks) (.sect ((as.lookup "name").getD "standard")
        (containsChars "required".toList (((as.lookup "preference").getD "preferred").toLower).toList) .null)
  | sect1 as ks a f : ks.filter Xml.isElem = [a] → MeansFilter parse a f →
      MeansFilter parse (.elem "Section" as ks) (.sect ((as.lookup "name").getD "standard")
        (containsChars "required".toList (((as.lookup "preference").getD "preferred").toLower).toList) f)

/-- The meaning of an `equation-filter` element: without a child everything is kept. -/
def MeansEquationFilter (parse : List Char → Option ℤ) (x : Xml) (f : Filter) : Prop :=
  (x.kids.filter Xml.isElem = [] ∧ f = .null) ∨ ∃ c, x.kids.filter Xml.isElem = [c] ∧ MeansFilter parse c f

/-- A `model` element of this name, at any depth. -/
def Xml.ModelAt (root : Xml) (m : String) (a : List ℕ) (x : Xml) : Prop :=
  root.get a = some x ∧ x.hasTag "model" = true ∧ x.attr "name" = some m

/-- A name listed in a model. -/
def Xml.ListedIn (root : Xml) (strip : List Char → List Char) (m n : String) : Prop :=
  ∃ a x y P, root.ModelAt m a x ∧ y ∈ x.named "particles" ∧ P ∈ y.named "P" ∧ n.toList = strip P.str

/-- The only `equation-filter` of the models of this name. -/
def Xml.FilterOf (root : Xml) (m : String) (e : Xml) : Prop :=
  ∃ a x, root.ModelAt m a x ∧ x.named "equation-filter" = [e] ∧
    ∀ b y, root.ModelAt m b y → y.named "equation-filter" ≠ [] → b = a

/-! ### Filters -/

private theorem xmlEqTerm_iff (parse : List Char → Option ℤ) (x : Xml) (t : EqTerm) :
    xmlEqTerm parse x = .ok t ↔ DescribesEqTerm parse x t := by
  unfold xmlEqTerm DescribesEqTerm
  obtain ⟨nm, n⟩ := t
  constructor
  · intro h
    split at h
    swap
    · cases h
    rename_i p hp
    split at h
    · rename_i hn
      cases h
      exact ⟨⟨p, hp, by simp⟩, .inl ⟨hn, rfl⟩⟩
    · rename_i c hn
      split at h
      · rename_i k hk
        cases h
        exact ⟨⟨p, hp, by simp⟩, .inr ⟨c, hn, hk⟩⟩
      · cases h
    · cases h
  · rintro ⟨⟨p, hp, hs⟩, h⟩
    simp only at hs h
    rw [hp]
    simp only [hs, String.ofList_toList]
    rcases h with ⟨hn, rfl⟩ | ⟨c, hn, hk⟩
    · rw [hn]
    · rw [hn]
      simp only [hk]

private theorem xmlEqTerms_iff (parse : List Char → Option ℤ) : ∀ (l : List Xml) (ts : List EqTerm),
    xmlEqTerms parse l = .ok ts ↔ List.Forall₂ (DescribesEqTerm parse) l ts
  | [], ts => by
    simp only [xmlEqTerms, Except.ok.injEq, List.forall₂_nil_left_iff]
    exact eq_comm
  | x :: xs, ts => by
    have ih := xmlEqTerms_iff parse xs
    rw [List.forall₂_cons_left_iff]
    unfold xmlEqTerms
    constructor
    · intro h
      split at h
      · cases h
      rename_i t ht
      split at h
      · cases h
      rename_i us hus
      cases h
      exact ⟨t, us, (xmlEqTerm_iff parse x t).1 ht, (ih us).1 hus, rfl⟩
    · rintro ⟨t, us, h1, h2, rfl⟩
      rw [(xmlEqTerm_iff parse x t).2 h1]
      simp only [(ih us).2 h2]

private theorem xmlFilters_eq (parse : List Char → Option ℤ) : ∀ ks : List Xml,
    xmlFilters parse ks = (ks.filter Xml.isElem).map (xmlFilter parse)
  | [] => by simp [xmlFilters]
  | k :: ks => by
    have ih := xmlFilters_eq parse ks
    simp only [xmlFilters, List.filter_cons]
    split <;> simp [ih]

private theorem size_kid {n : String} {as : List (String × String)} {ks l : List Xml} {a : Xml}
    (h : ks.filter Xml.isElem = l) (ha : a ∈ l) : sizeOf a < sizeOf (Xml.elem n as ks) := by
  subst h
  have := List.sizeOf_lt_of_mem (List.mem_of_mem_filter ha)
  simp only [Xml.elem.sizeOf_spec]
  omega

private theorem map_two {α β : Type} {g : α → β} {l : List α} {b c : β} (h : l.map g = [b, c]) :
    ∃ x y, l = [x, y] ∧ g x = b ∧ g y = c := by
  match l, h with
  | [x, y], h => simp at h; exact ⟨x, y, rfl, h.1, h.2⟩

private theorem map_one {α β : Type} {g : α → β} {l : List α} {b : β} (h : l.map g = [b]) : ∃ x, l = [x] ∧ g x = b := by
  match l, h with
  | [x], h => simp at h; exact ⟨x, rfl, h⟩

private theorem xmlFilter_sound (parse : List Char → Option ℤ) : ∀ (n : ℕ) (x : Xml) (f : Filter), sizeOf x < n →
    xmlFilter parse x = .ok f → MeansFilter parse x f
  | 0, _, _, hn, _ => absurd hn (Nat.not_lt_zero _)
  | _ + 1, .text s, f, _, h => by
    rw [xmlFilter] at h
    cases h
  | n + 1, .elem name as ks, f, hsz, h => by
    rw [xmlFilter] at h
    dsimp only at h
    rw [xmlFilters_eq] at h
    split at h
    · rename_i hn
      subst hn
      cases h
      exact .null _ _
    split at h
    · rename_i hn
      subst hn
      cases h
      exact .elastic _ _
    split at h
    · rename_i hn
      subst hn
      cases h
      exact .label _ _ _ (by simp)
    split at h
    · rename_i hn
      subst hn
      split at h
      · cases h
      rename_i d hd
      split at h
      swap
      · cases h
      rename_i hdir
      split at h
      · cases h
      rename_i hlen
      split at h
      · cases h
      rename_i ts hts
      cases h
      have hts' := (xmlEqTerms_iff parse _ _).1 hts
      refine .eqio _ _ d _ ts _ hd ?_ ?_ hts' ((isTermSet_iff _ _).2 rfl)
      · rcases hdir with hdir | hdir
        · rw [hdir]; simp
        · rw [hdir]; simp
      · rintro rfl
        have := hts'.length_eq
        simp only [List.length_nil] at this
        omega
    split at h
    · rename_i hn
      split at h
      · rename_i l r hlr
        obtain ⟨a, b, hab, ha, hb⟩ := map_two hlr
        have sa : sizeOf a < sizeOf (Xml.elem name as ks) := size_kid hab (by simp)
        have sb : sizeOf b < sizeOf (Xml.elem name as ks) := size_kid hab (by simp)
        have da := xmlFilter_sound parse n a l (by omega) ha
        have db := xmlFilter_sound parse n b r (by omega) hb
        cases h
        rcases hn with rfl | rfl | rfl
        · exact .and _ _ a b l r hab da db
        · exact .or _ _ a b l r hab da db
        · exact .not _ _ a b l r hab da db
      all_goals cases h
    split at h
    · rename_i hn
      split at h
      · rename_i h0
        cases h
        subst hn
        exact .sect0 _ _ (List.map_eq_nil_iff.1 h0)
      · rename_i g hg
        obtain ⟨a, ha, hga⟩ := map_one hg
        have sa : sizeOf a < sizeOf (Xml.elem name as ks) := size_kid ha (by simp)
        have da := xmlFilter_sound parse n a g (by omega) hga
        cases h
        subst hn
        exact .sect1 _ _ a g ha da
      all_goals cases h
    · cases h

/-- **C116**  An element is read as a filter exactly if it has a meaning, and then as this filter. -/
theorem C116_filter (parse : List Char → Option ℤ) (x : Xml) (f : Filter) :
    xmlFilter parse x = .ok f ↔ MeansFilter parse x f := by
  refine ⟨xmlFilter_sound parse _ x f (Nat.lt_succ_self _), fun h => ?_⟩
  induction h with
  | null => simp [xmlFilter]
  | elastic => simp [xmlFilter]
  | label as ks l h => simp [xmlFilter, h]
  | eqio as ks d out ts set hd hdir hne hts hset =>
    rw [(isTermSet_iff _ _).1 hset]
    have hlen : ¬ (ks.filter Xml.isElem).length < 1 := by
      rw [hts.length_eq]
      intro hc
      exact hne (List.length_eq_zero_iff.1 (by omega))
    rw [xmlFilter]
    dsimp only
    simp only [show "EqIO" ≠ "Null" by decide, show "EqIO" ≠ "Elastic" by decide, show "EqIO" ≠ "Label" by decide,
      if_false, if_true, hd, if_neg hlen, (xmlEqTerms_iff parse _ _).2 hts]
    cases out <;> simp [hdir]
  | and as ks a b l r hab _ _ ia ib => rw [xmlFilter]; simp [xmlFilters_eq, hab, ia, ib]
  | or as ks a b l r hab _ _ ia ib => rw [xmlFilter]; simp [xmlFilters_eq, hab, ia, ib]
  | not as ks a b l r hab _ _ ia ib => rw [xmlFilter]; simp [xmlFilters_eq, hab, ia, ib]
  | sect0 as ks h => rw [xmlFilter]; simp [xmlFilters_eq, h]
  | sect1 as ks a f h _ ia => rw [xmlFilter]; simp [xmlFilters_eq, h, ia]

private theorem xmlEquationFilter_iff (parse : List Char → Option ℤ) (x : Xml) (f : Filter) :
    xmlEquationFilter parse x = .ok f ↔ MeansEquationFilter parse x f := by
  unfold xmlEquationFilter MeansEquationFilter
  constructor
  · intro h
    split at h
    · rename_i h0
      cases h
      exact .inl ⟨h0, rfl⟩
    · rename_i c hc
      exact .inr ⟨c, hc, (C116_filter parse c f).1 h⟩
    · cases h
  · rintro (⟨h, rfl⟩ | ⟨c, h, hm⟩)
    · rw [h]
    · rw [h]
      exact (C116_filter parse c f).2 hm

/-- The form of a term in a document. -/
def eqTermXml (t : EqTerm) : Xml :=
  .elem "T" [] [.elem "P" [] [.text t.name], .elem "n" [] [.text (Nat.repr t.n.toNat)]]

/-- The form of a filter in a document, with text between the elements. -/
def filterXml (sep : String) : Filter → Xml
  | .null => .elem "Null" [] []
  | .elastic => .elem "Elastic" [] []
  | .label l => .elem "Label" [] [.text l]
  | .eqio out ts => .elem "EqIO" [("dir", if out then "out" else "in")] (ts.flatMap fun t => [.text sep, eqTermXml t])
  | .and l r => .elem "And" [] [.text sep, filterXml sep l, .text sep, filterXml sep r, .text sep]
  | .or l r => .elem "Or" [] [.text sep, filterXml sep l, .text sep, filterXml sep r, .text sep]
  | .not l r => .elem "Not" [] [.text sep, filterXml sep l, .text sep, filterXml sep r, .text sep]
  | .sect name req f => .elem "Section" [("name", name), ("preference", if req then "required" else "preferred")]
      [.text sep, filterXml sep f, .text sep]

/-- Every number in a term of the filter is at least zero. -/
def Filter.Counted : Filter → Prop
  | .eqio _ ts => ∀ t ∈ ts, 0 ≤ t.n
  | .and l r => l.Counted ∧ r.Counted
  | .or l r => l.Counted ∧ r.Counted
  | .not l r => l.Counted ∧ r.Counted
  | .sect _ _ f => f.Counted
  | _ => True

private theorem filterXml_isElem (sep : String) (f : Filter) : (filterXml sep f).isElem = true := by
  cases f <;> rfl

/-- **C116**  Every filter can be written, and what is written is read as this filter. -/
theorem C116_written {parse : List Char → Option ℤ} (hp : ReadsNumbers parse) (sep : String) (f : Filter)
    (h : f.ProperSets) (hc : f.Counted) : xmlFilter parse (filterXml sep f) = .ok f := by
  rw [C116_filter]
  have e2 : ∀ l r : Filter, [Xml.text sep, filterXml sep l, .text sep, filterXml sep r, .text sep].filter Xml.isElem =
      [filterXml sep l, filterXml sep r] := by
    intro l r
    simp [filterXml_isElem, show ∀ s, (Xml.text s).isElem = false from fun _ => rfl]
  induction f with
  | null => exact .null _ _
  | elastic => exact .elastic _ _
  | label l => exact .label _ _ _ (by simp [Xml.strs, Xml.str])
  | eqio out ts =>
    refine .eqio _ _ (if out then "out" else "in") out ts ts rfl ?_ h.1 ?_ ⟨h.2, fun t => (firstNamed_of_sorted h.2 t).symm⟩
    · cases out <;> decide +kernel
    · have e : (ts.flatMap fun t => [Xml.text sep, eqTermXml t]).filter Xml.isElem = ts.map eqTermXml := by
        clear h hc
        induction ts with
        | nil => rfl
        | cons t ts ih =>
          simp [show (Xml.text sep).isElem = false from rfl, show (eqTermXml t).isElem = true from rfl, ih]
      rw [e, List.forall₂_map_left_iff]
      refine List.forall₂_same.2 fun t ht => ⟨⟨_, rfl, by simp [Xml.strs, Xml.str]⟩, .inr ⟨_, rfl, ?_⟩⟩
      have := hp t.n.toNat
      simp only [Xml.str, Xml.strs, List.append_nil, this, Option.some.injEq]
      exact Int.toNat_of_nonneg (hc t ht)
  | and l r il ir => exact .and _ _ _ _ _ _ (e2 l r) (il h.1 hc.1) (ir h.2 hc.2)
  | or l r il ir => exact .or _ _ _ _ _ _ (e2 l r) (il h.1 hc.1) (ir h.2 hc.2)
  | not l r il ir => exact .not _ _ _ _ _ _ (e2 l r) (il h.1 hc.1) (ir h.2 hc.2)
  | sect name req f ih =>
    have e1 : [Xml.text sep, filterXml sep f, .text sep].filter Xml.isElem = [filterXml sep f] := by
      simp [filterXml_isElem, show ∀ s, (Xml.text s).isElem = false from fun _ => rfl]
    have := MeansFilter.sect1 [("name", name), ("preference", if req then "required" else "preferred")] _
      (filterXml sep f) f e1 (ih h hc)
    have e : containsChars "required".toList (((([("name", name), ("preference", if req then "required" else "preferred")]
        : List (String × String)).lookup "preference").getD "preferred").toLower).toList = req := by
      cases req
      · exact (by decide +kernel : containsChars "required".toList ("preferred".toLower).toList = false)
      · exact (by decide +kernel : containsChars "required".toList ("required".toLower).toList = true)
    rw [e] at this
    exact this

/-! ### Models -/

private theorem mem_models {root : Xml} {m : String} {a : List ℕ} :
    a ∈ root.models m ↔ ∃ x, root.ModelAt m a x := by
  unfold Xml.models Xml.ModelAt
  rw [List.mem_filter, mem_everywhere]
  cases root.get a <;> simp

private theorem flatMap_one {α β : Type} {g : α → List β} {b : β} : ∀ {l : List α}, l.Nodup →
    (l.flatMap g = [b] ↔ ∃ a ∈ l, g a = [b] ∧ ∀ c ∈ l, g c ≠ [] → c = a)
  | [], _ => by simp
  | x :: l, hnd => by
    obtain ⟨hx, hl⟩ := List.nodup_cons.1 hnd
    have ih := flatMap_one (g := g) (b := b) hl
    rw [List.flatMap_cons]
    constructor
    · intro h
      rcases List.append_eq_cons_iff.1 h with ⟨h1, h2⟩ | ⟨t, h1, h2⟩
      · obtain ⟨a, ha, hga, hu⟩ := ih.1 h2
        refine ⟨a, List.mem_cons_of_mem _ ha, hga, fun c hc hgc => ?_⟩
        rcases List.mem_cons.1 hc with rfl | hc
        · exact absurd h1 hgc
        · exact hu c hc hgc
      · obtain ⟨rfl, h3⟩ := List.append_eq_nil_iff.1 h2.symm
        refine ⟨x, List.mem_cons_self, h1, fun c hc hgc => ?_⟩
        rcases List.mem_cons.1 hc with rfl | hc
        · rfl
        · exact absurd (List.flatMap_eq_nil_iff.1 h3 c hc) hgc
    · rintro ⟨a, ha, hga, hu⟩
      rcases List.mem_cons.1 ha with rfl | ha
      · have : l.flatMap g = [] := by
          rw [List.flatMap_eq_nil_iff]
          intro c hc
          by_contra hgc
          have := hu c (List.mem_cons_of_mem _ hc) hgc
          exact hx (this ▸ hc)
        rw [hga, this, List.append_nil]
      · have hgx : g x = [] := by
          by_contra hgx
          have := hu x List.mem_cons_self hgx
          exact hx (this ▸ ha)
        rw [hgx, List.nil_append]
        exact ih.2 ⟨a, ha, hga, fun c hc => hu c (List.mem_cons_of_mem _ hc)⟩

private theorem filterOf_iff {root : Xml} {m : String} {e : Xml} :
    (root.models m).flatMap (root.from ["equation-filter"]) = [e] ↔ root.FilterOf m e := by
  have hf : ∀ a x, root.get a = some x → root.from ["equation-filter"] a = x.named "equation-filter" := by
    intro a x hx
    unfold Xml.from
    rw [hx]
    simp [Xml.along]
  rw [flatMap_one (show (root.models m).Nodup from (everywhere_nodup root "model").filter _)]
  unfold Xml.FilterOf
  constructor
  · rintro ⟨a, ha, hga, hu⟩
    obtain ⟨x, hx⟩ := mem_models.1 ha
    rw [hf a x hx.1] at hga
    exact ⟨a, x, hx, hga, fun b y hy hne => hu b (mem_models.2 ⟨y, hy⟩) (by rwa [hf b y hy.1])⟩
  · rintro ⟨a, x, hx, hga, hu⟩
    refine ⟨a, mem_models.2 ⟨x, hx⟩, by rwa [hf a x hx.1], fun c hc hne => ?_⟩
    obtain ⟨y, hy⟩ := mem_models.1 hc
    rw [hf c y hy.1] at hne
    exact hu c y hy hne

private theorem mem_listed {root : Xml} {strip : List Char → List Char} {m n : String} :
    n ∈ ((root.models m).flatMap (root.from ["particles", "P"])).map (fun P => String.ofList (strip P.str)) ↔
      root.ListedIn strip m n := by
  unfold Xml.ListedIn
  simp only [List.mem_map, List.mem_flatMap]
  constructor
  · rintro ⟨P, ⟨a, ha, hP⟩, rfl⟩
    obtain ⟨x, hx⟩ := mem_models.1 ha
    unfold Xml.from at hP
    rw [hx.1] at hP
    simp only [Xml.along, List.mem_flatMap, List.mem_singleton] at hP
    obtain ⟨y, hy, P', hP', rfl⟩ := hP
    exact ⟨a, x, y, P, hx, hy, hP', by simp⟩
  · rintro ⟨a, x, y, P, hx, hy, hP, hn⟩
    refine ⟨P, ⟨a, mem_models.2 ⟨x, hx⟩, ?_⟩, by rw [← hn, String.ofList_toList]⟩
    unfold Xml.from
    rw [hx.1]
    simp only [Xml.along, List.mem_flatMap, List.mem_singleton]
    exact ⟨y, hy, P, hP, rfl⟩

/-- **C116**  A model, if it is added: every species it lists is there, nothing is lost, everything new is listed and
described by a `Particle` element, and the filter is what the only `equation-filter` of the model means. -/
theorem C116_model (R : Reader) {parse : List Char → Option ℤ} {strip : List Char → List Char} {m : String}
    {s s' : TreeDB W} (h : s.addModel R parse strip m = (s', none)) (hnd : NodupNames s.props) :
    NodupNames s'.props ∧ s'.root = s.root ∧ s'.table = s.table ∧
    (∀ n, s.root.ListedIn strip m n → ∃ p ∈ s'.props, p.name = n) ∧ (∀ p ∈ s.props, p ∈ s'.props) ∧
    (∀ p ∈ s'.props, p ∈ s.props ∨ s.root.ListedIn strip m p.name ∧
      ∃ a x, s.root.get a = some x ∧ x.hasTag "Particle" = true ∧ R.Says x p) ∧
    ∃ e, s.root.FilterOf m e ∧ MeansEquationFilter parse e s'.filter := by
  unfold TreeDB.addModel at h
  dsimp only at h
  split at h
  · cases h
  rename_i hnone
  split at h
  swap
  · cases h
  rename_i e he
  split at h
  · cases h
  rename_i f hf
  cases h
  obtain ⟨g1, g2, g3, g4, g5, g6, g7⟩ := C115_names R _ s _ (Prod.ext rfl hnone) hnd
  refine ⟨g1, g2, g4, fun n hn => g5 n (mem_listed.2 hn), g6, fun p hp => ?_, e, filterOf_iff.1 he,
    (xmlEquationFilter_iff parse e f).1 hf⟩
  rcases g7 p hp with hp | ⟨hp, hh⟩
  · exact .inl hp
  · exact .inr ⟨mem_listed.1 hp, hh⟩

/-- **C116**  When a model cannot be added: a species it lists cannot be added by its name, or there is not one
`equation-filter`, or it has no meaning. -/
theorem C116_model_throws (R : Reader) {parse : List Char → Option ℤ} {strip : List Char → List Char} {m : String}
    {s s' : TreeDB W} {e : TreeErr} (h : s.addModel R parse strip m = (s', some e)) :
    (∃ n t, s.root.ListedIn strip m n ∧ t.root = s.root ∧ TreeDB.addName R n (t : TreeDB W) = .error e) ∨
    (¬ ∃ x, s.root.FilterOf m x) ∨ ∃ x, s.root.FilterOf m x ∧ ¬ ∃ f, MeansEquationFilter parse x f := by
  have hadd : ∀ (ns : List String) (t t' : TreeDB W), t.addNames R ns = (t', some e) →
      ∃ n ∈ ns, ∃ u : TreeDB W, u.root = t.root ∧ u.addName R n = .error e := by
    intro ns
    induction ns with
    | nil => intro t t' ht; simp [TreeDB.addNames] at ht
    | cons n ns ih =>
      intro t t' ht
      unfold TreeDB.addNames at ht
      split at ht
      · rename_i z hz
        cases ht
        exact ⟨n, by simp, t, rfl, hz⟩
      · rename_i t1 h1
        obtain ⟨k, hk, u, hu, hue⟩ := ih t1 t' ht
        obtain ⟨a, x, p, -, -, -, -, rfl⟩ := (C115_add_name R t t1 n).1 h1
        exact ⟨k, List.mem_cons_of_mem _ hk, u, hu, hue⟩
  unfold TreeDB.addModel at h
  dsimp only at h
  split at h
  · rename_i z hz
    cases h
    obtain ⟨n, hn, u, hu, hue⟩ := hadd _ s _ (Prod.ext rfl hz)
    exact .inl ⟨n, u, mem_listed.1 hn, hu, hue⟩
  split at h
  · rename_i x hx
    split at h
    · rename_i z hz
      refine .inr (.inr ⟨x, filterOf_iff.1 hx, ?_⟩)
      rintro ⟨f, hf⟩
      rw [(xmlEquationFilter_iff parse x f).2 hf] at hz
      cases hz
    · cases h
  · rename_i hne
    refine .inr (.inl ?_)
    rintro ⟨x, hx⟩
    exact hne x (filterOf_iff.2 hx)

/-- **C116**  From a document to the table: after `addModel` on a new database and `initBinaryInteractions`, the species are
those that the model lists, in order of mass and name, and the entry for two of them holds the equations loaded from exactly
the `Interaction` elements that are wanted and that the filter described in the model keeps. -/
theorem C116_database {R : Reader} {T : Tools W} {parse : List Char → Option ℤ} {number : List Char → Option ℝ}
    {strip : List Char → List Char} {m : String} {root : Xml} {d : Doc} (hn : SameNumbers parse number)
    (hd : docOf parse root = some d)
    (h1 : ∀ a x, root.get a = some x → x.hasTag "Interaction" = true → OneEquation x) (hr : root.hasTag "Eq" = false)
    (hcp : ∀ n, root.ListedIn strip m n → ':' ∉ n.toList)
    (hco : ∀ x ∈ d.nodes, ∀ t ∈ x.outs, ':' ∉ t.P.toList ∧ t.P ≠ "") {s s' : TreeDB W}
    (h : TreeDB.addModel R parse strip m { root } = (s, none)) (hi : s.init R T parse number d = (s', none)) :
    s'.props.Pairwise MassNameBefore ∧ (∀ n, root.ListedIn strip m n ↔ ∃ p ∈ s'.props, p.name = n) ∧
    (∀ p ∈ s'.props, ∃ a x, root.get a = some x ∧ x.hasTag "Particle" = true ∧ R.Says x p) ∧
    ∃ e f, root.FilterOf m e ∧ MeansEquationFilter parse e f ∧
      ∀ A B a b, A ≤ B → s'.props[A]? = some a → s'.props[B]? = some b → ∃ ks es,
        s'.table.get? A B = some ⟨(Term.single A, Term.single B), es⟩ ∧ ks.Pairwise (· < ·) ∧
        (∀ k, k ∈ ks ↔ f.Keeps d (Wanted d s'.props a.name b.name) k) ∧
        List.Forall₂ (fun k w => ∃ x, root.interaction k x ∧ loadXml R T parse s'.props x = .ok w) ks es := by
  obtain ⟨g1, g2, g3, g4, -, g5, e, ge, gf⟩ := C116_model R h (by unfold NodupNames; simp)
  simp only [List.not_mem_nil, false_or] at g5
  simp only at g2 g3
  obtain ⟨t1, t2, t3, t4, -, t5⟩ := C115_table (R := R) (T := T) hn (s := s) (by rw [g2]; exact hd) (by rw [g2]; exact h1)
    (by rw [g2]; exact hr) g1 ⟨fun p hp => hcp _ (g5 p hp).1, hco⟩ hi
  refine ⟨t2, fun n => ⟨fun hl => ?_, ?_⟩, fun p hp => (g5 p (t1.mem_iff.1 hp)).2, e, s.filter, ge, gf, ?_⟩
  · obtain ⟨p, hp, hpn⟩ := g4 n hl
    exact ⟨p, t1.mem_iff.2 hp, hpn⟩
  · rintro ⟨p, hp, rfl⟩
    exact (g5 p (t1.mem_iff.1 hp)).1
  · intro A B a b hAB ha hb
    obtain ⟨ks, es, q1, q2, q3, q4⟩ := t5 rfl A B a b hAB ha hb
    refine ⟨ks, es, ?_, q2, q3, ?_⟩
    · rw [q1, g3]
      simp
    · rw [g2] at q4
      exact q4

/-! ### A document -/

namespace TreeModelExample

open LoadXmlExample (mass db known nodup masses)
open TreeDBExample (scattering written desk parse reads number numbers sorted)

/-- The document of `TreeDBExample` with a model. -/
def tree : Xml :=
  .elem "ParticleDB" []
    [.elem "particles" []
      [.elem "Particle" [("name", "H")] [.elem "mass" [] [.text "M"]],
       .elem "Particle" [("name", "e")] [.elem "mass" [] [.text "m"], .elem "charge" [] [.text "q"]]],
     .elem "standard" [] [scattering],
     .elem "model" [("name", "gas")]
      [.elem "particles" [] [.elem "P" [] [.text " H"], .text ", ", .elem "P" [] [.text "e "]],
       .elem "equation-filter" [] [.text " ", .elem "Section" [("preference", "Required")]
         [.elem "Or" [] [.elem "Elastic" [] [], .text " ", .elem "Label" [] [.text "vss_elastic"]]]]]]

def strip (c : List Char) : List Char := c.filter (· != ' ')

/-- The filter of the model. -/
def wish : Filter := .sect "standard" true (.or .elastic (.label "vss_elastic"))

theorem wished : xmlEquationFilter parse (.elem "equation-filter" [] [.text " ", .elem "Section" [("preference", "Required")]
    [.elem "Or" [] [.elem "Elastic" [] [], .text " ", .elem "Label" [] [.text "vss_elastic"]]]]) = .ok wish := by
  rw [xmlEquationFilter_iff]
  refine .inr ⟨_, rfl, ?_⟩
  have h := MeansFilter.sect1 (parse := parse) [("preference", "Required")]
    [.elem "Or" [] [.elem "Elastic" [] [], .text " ", .elem "Label" [] [.text "vss_elastic"]]] _ _ rfl
    (.or _ _ _ _ _ _ rfl (.elastic [] []) (.label [] [.text "vss_elastic"] "vss_elastic" rfl))
  rw [show containsChars "required".toList
    ((((([("preference", "Required")] : List (String × String)).lookup "preference").getD "preferred").toLower).toList) = true
    by decide +kernel] at h
  exact h

theorem added : (TreeDB.addModel desk parse strip "gas" { root := tree } : TreeDB Unit × Option TreeErr) =
    ({ root := tree, filter := wish, props := [⟨"H", 2000, 0⟩, ⟨"e", 1, -1⟩] }, none) := by
  have e : ∀ (s : TreeDB Unit) (n : String) (a : List ℕ) (x : Xml) (p : Props ℝ), s.root = tree →
      tree.particles n = [a] → tree.get a = some x → desk.Says x p → p.name = n →
      s.addName desk n = .ok { s with props := addParticleType s.props p } := by
    intro s n a x p hs hp hx hsay hpn
    refine (C115_add_name desk s _ n).2 ⟨a, x, p, fun b => ?_, by rw [hs]; exact hx, hsay, hpn, rfl⟩
    rw [hs, ← List.mem_singleton, ← hp]
    unfold Xml.particles
    rw [List.mem_filter, mem_everywhere]
    cases tree.get b <;> simp
  have hnames : ((tree.models "gas").flatMap (tree.from ["particles", "P"])).map (fun P => String.ofList (strip P.str)) =
      ["H", "e"] := by decide +kernel
  have hfilter : (tree.models "gas").flatMap (tree.from ["equation-filter"]) = [.elem "equation-filter" [] [.text " ",
      .elem "Section" [("preference", "Required")]
        [.elem "Or" [] [.elem "Elastic" [] [], .text " ", .elem "Label" [] [.text "vss_elastic"]]]]] := by
    rw [show tree.models "gas" = [[2]] by decide +kernel]
    rfl
  have hadd : (TreeDB.addNames desk ["H", "e"] { root := tree } : TreeDB Unit × Option TreeErr) =
      ({ root := tree, props := [⟨"H", 2000, 0⟩, ⟨"e", 1, -1⟩] }, none) := by
    rw [TreeDB.addNames, e _ "H" [0, 0] _ ⟨"H", 2000, 0⟩ rfl (by decide +kernel) rfl ?_ rfl]
    · dsimp only
      rw [TreeDB.addNames, e _ "e" [0, 1] _ ⟨"e", 1, -1⟩ rfl (by decide +kernel) rfl ?_ rfl]
      · simp [TreeDB.addNames, addParticleType, findParticle]
      · simp [Reader.Says, Xml.attr, Xml.named, Xml.hasTag, Xml.str, Xml.strs, desk, SIDim.mass, SIDim.charge]
    · simp [Reader.Says, Xml.attr, Xml.named, Xml.hasTag, Xml.str, Xml.strs, desk, SIDim.mass, SIDim.charge]
  unfold TreeDB.addModel
  dsimp only
  rw [hnames, hadd]
  dsimp only
  rw [hfilter]
  dsimp only
  rw [wished]

theorem interactions : tree.everywhere "Interaction" = [[1, 0]] := by decide +kernel

theorem one (a : List ℕ) (x : Xml) (h : tree.get a = some x) (ht : x.hasTag "Interaction" = true) : OneEquation x := by
  have ha := mem_everywhere.2 ⟨x, h, ht⟩
  rw [interactions, List.mem_singleton] at ha
  subst ha
  exact TreeDBExample.one [1, 0] x h ht

def doc : Doc := (docOf parse tree).get (by decide +kernel)

/-- The hypotheses of `C116_database` are met: the model is added and filling the table returns. -/
theorem made (T : Tools Unit) : ∃ s s', s'.props = db ∧
    TreeDB.addModel desk parse strip "gas" { root := tree } = ((s : TreeDB Unit), none) ∧ s.init desk T parse number doc = (s', none) ∧ docOf parse tree = some doc ∧ tree.hasTag "Eq" = false ∧
    (∀ n, tree.ListedIn strip "gas" n → ':' ∉ n.toList) ∧
    (∀ x ∈ doc.nodes, ∀ t ∈ x.outs, ':' ∉ t.P.toList ∧ t.P ≠ "") := by
  have hdoc : docOf parse tree = some doc := (Option.some_get _).symm
  have hlist : ∀ n, tree.ListedIn strip "gas" n → n = "H" ∨ n = "e" := by
    intro n hn
    have := mem_listed.2 hn
    rw [show ((tree.models "gas").flatMap (tree.from ["particles", "P"])).map (fun P => String.ofList (strip P.str)) =
      ["H", "e"] by decide +kernel] at this
    simpa using this
  have hco : ∀ x ∈ doc.nodes, ∀ t ∈ x.outs, ':' ∉ t.P.toList ∧ t.P ≠ "" := by decide +kernel
  cases hr : (TreeDB.init desk T parse number doc
    ({ root := tree, filter := wish, props := [⟨"H", 2000, 0⟩, ⟨"e", 1, -1⟩] } : TreeDB Unit)) with
  | mk s' r =>
  obtain ⟨-, -, -, -, herr, -⟩ := C115_table numbers hdoc one rfl (by unfold NodupNames; simp) ⟨by simp, hco⟩ hr
  have hs' : s'.props = db := by
    rw [← sorted]
    exact (congrArg (fun t => t.1.props) hr).symm
  obtain ⟨w, hw, -⟩ := (C112_python_elastic desk T reads nodup masses known (List.Perm.swap ..) "a" "t" "n" none).1
    3 273 1 (by simp [desk]) (by simp [desk]) (by simp [desk])
  simp only [Option.map_none] at hw
  rw [written] at hw
  refine ⟨_, s', hs', added, ?_, hdoc, rfl, ?_, hco⟩
  · rw [hr]
    cases r with
    | none => rfl
    | some e =>
      obtain ⟨a, -, b, -, k, x, z, -, ⟨c, hc, hx⟩, hz, -⟩ := herr e rfl
      rw [show ({ root := tree, filter := wish, props := [⟨"H", 2000, 0⟩, ⟨"e", 1, -1⟩] } : TreeDB Unit).root = tree from rfl,
        interactions] at hc
      obtain rfl : c = [1, 0] := by simpa using List.mem_of_getElem? hc
      have : x = scattering := (Option.some.inj hx).symm
      rw [hs', this, hw] at hz
      cases hz
  · intro n hn
    rcases hlist n hn with rfl | rfl <;> decide +kernel

end TreeModelExample

end Chimp
