import Verif.Model.XPath
import Verif.Props.LoadXml

/-!
# C114: the XPath queries select what they are meant to

The other models of filters and of the table of interactions give each query its meaning by hand.  Here the queries are
expressions, with the text that the library writes, and are evaluated by the rules of XPath.
-/

namespace Chimp

variable {W : Type}

/-! ### What is meant, on the tree -/

/-- A `T` element is the term `t`: its species, and its number unless `t.n < 0`. -/
def IsTerm (number : List Char → Option ℝ) (t : EqTerm) (x : Xml) : Prop :=
  stringOf (x.named "P") = t.name.toList ∧
  (t.n = 1 → number (stringOf (x.named "n")) = some 1 ∨ stringOf (x.named "n") = []) ∧
  (1 < t.n → number (stringOf (x.named "n")) = some (t.n : ℝ))

/-- The interaction has an equation with as many terms on this side as there are in the list, and each term of the list
(unless its number is zero) is among them. -/
def SideIs (number : List Char → Option ℝ) (side : String) (terms : List EqTerm) (x : Xml) : Prop :=
  ∃ e ∈ x.named "Eq", ((e.named side).flatMap (Xml.named "T")).length = terms.length ∧
    ∃ s ∈ e.named side, ∀ t ∈ terms, t.n ≠ 0 → ∃ y ∈ s.named "T", IsTerm number t y

/-- The interaction has an equation with a product, and all products are listed in the text. -/
def ProductsIn (txt : String) (x : Xml) : Prop :=
  ∃ e ∈ x.named "Eq", ∃ o ∈ e.named "Out", (∃ T ∈ o.named "T", ∃ p ∈ T.named "P", True) ∧
    ∀ T ∈ o.named "T", ∀ p ∈ T.named "P", containsChars (':' :: (stringOf p.texts ++ [':'])) txt.toList = true

/-! ### Positions -/

private theorem get_append (x : Xml) (a c : List ℕ) : x.get (a ++ c) = (x.get a).bind fun y => y.get c := by
  induction a generalizing x with
  | nil => simp [Xml.get]
  | cons i a ih =>
    cases x with
    | text s => simp [Xml.get]
    | elem t as ks =>
      simp only [List.cons_append, Xml.get]
      cases ks[i]? with
      | none => rfl
      | some k => exact ih k

private theorem named_iff {x y : Xml} {t : String} :
    y ∈ x.named t ↔ ∃ i, x.get [i] = some y ∧ y.hasTag t = true := by
  cases x with
  | text s => simp [Xml.named, Xml.get]
  | elem u as ks =>
    simp only [Xml.named, List.mem_filter, Xml.get]
    rw [List.mem_iff_getElem?]
    constructor
    · rintro ⟨⟨i, hi⟩, ht⟩
      exact ⟨i, by rw [hi], ht⟩
    · rintro ⟨i, hi, ht⟩
      refine ⟨⟨i, ?_⟩, ht⟩
      cases hk : ks[i]? with
      | none => rw [hk] at hi; simp at hi
      | some k => rw [hk] at hi; exact hi

private theorem mem_child {number : List Char → Option ℝ} {root x : Xml} {a b : List ℕ} (h : root.get a = some x)
    {t : String} {ps : List XPred} :
    b ∈ (XStep.child t ps).run number root a ↔
      ∃ i y, b = a ++ [i] ∧ root.get (a ++ [i]) = some y ∧ y ∈ x.named t ∧ ∀ p ∈ ps, p.holds number y := by
  have hg : ∀ i, root.get (a ++ [i]) = x.get [i] := fun i => by rw [get_append, h]; rfl
  simp only [XStep.run, h]
  cases x with
  | text s => simp [Xml.named]
  | elem u as ks =>
    have hk : ∀ i, (Xml.elem u as ks).get [i] = ks[i]? := fun i => by
      simp only [Xml.get]
      cases ks[i]? <;> simp
    simp only [List.mem_map, List.mem_filter, List.mem_range, decide_eq_true_eq, hg, hk]
    constructor
    · rintro ⟨i, ⟨-, y, hy, ht, hp⟩, rfl⟩
      exact ⟨i, y, rfl, hy, named_iff.2 ⟨i, by rw [hk, hy], ht⟩, hp⟩
    · rintro ⟨i, y, rfl, hy, hn, hp⟩
      refine ⟨i, ⟨?_, y, hy, ?_, hp⟩, rfl⟩
      · exact (List.getElem?_eq_some_iff.1 hy).1
      · obtain ⟨_, _, ht⟩ := named_iff.1 hn
        exact ht

/-- A child step followed by the rest of a path. -/
private theorem mem_child_then {number : List Char → Option ℝ} {root x : Xml} {a b : List ℕ} (h : root.get a = some x)
    {t : String} {ps : List XPred} {p : List XStep} :
    b ∈ runPath number root (.child t ps :: p) a ↔
      ∃ i y, root.get (a ++ [i]) = some y ∧ y ∈ x.named t ∧ (∀ q ∈ ps, q.holds number y) ∧
        b ∈ runPath number root p (a ++ [i]) := by
  simp only [runPath, List.mem_flatMap, mem_child h]
  constructor
  · rintro ⟨c, ⟨i, y, rfl, h1, h2, h3⟩, h4⟩
    exact ⟨i, y, h1, h2, h3, h4⟩
  · rintro ⟨i, y, h1, h2, h3, h4⟩
    exact ⟨_, ⟨i, y, rfl, h1, h2, h3⟩, h4⟩

private theorem parent_then {number : List Char → Option ℝ} {root : Xml} {a : List ℕ} {i : ℕ} {p : List XStep} :
    runPath number root (.parent :: p) (a ++ [i]) = runPath number root p a := by
  simp [runPath, XStep.run]

private theorem along_one (x : Xml) (t : String) : x.along [t] = x.named t := by
  simp [Xml.along]

private theorem along_two (x : Xml) (t u : String) : x.along [t, u] = (x.named t).flatMap (Xml.named u) := by
  show (x.named t).flatMap (Xml.along [u]) = _
  congr 1
  funext y
  exact along_one y u

/-- The position of a child. -/
private theorem child_at {root x y : Xml} {a : List ℕ} (h : root.get a = some x) {t : String} (hy : y ∈ x.named t) :
    ∃ i, root.get (a ++ [i]) = some y := by
  obtain ⟨i, hi, -⟩ := named_iff.1 hy
  exact ⟨i, by rw [get_append, h]; exact hi⟩

/-! ### The text of the queries -/

private theorem printPath_append {p q : List XStep} (hp : p ≠ []) (hq : q ≠ []) :
    printPath (p ++ q) = printPath p ++ "/" ++ printPath q := by
  induction p with
  | nil => exact absurd rfl hp
  | cons s l ih =>
    cases l with
    | nil =>
      obtain ⟨t, l', rfl⟩ := List.exists_cons_of_ne_nil hq
      rfl
    | cons t l =>
      have := ih (by simp)
      simp only [List.cons_append] at this ⊢
      rw [printPath, this]
      simp only [printPath, String.append_assoc]

private theorem slash1 (s : String) : slashes [s] = s := rfl

private theorem slash2 (s t : String) : slashes [s, t] = s ++ "/" ++ t := rfl

/-- **C114**  The text that `getXpathQuery` writes for a set of terms that is not empty, and those of the filters `Elastic`
and `Label` and of the condition on the products, are the XPath notations of the expressions that are evaluated below;
`Base::filter` adds the step `Eq`. -/
theorem C114_text (side : String) (terms : List EqTerm) (l txt : String) (p : List XStep) :
    (terms ≠ [] → printPath (sidePath side terms) = sideQuery side terms) ∧
    printPath elasticPath = "Eq[string(In) = string(Out)]/.." ∧
    printPath (labelPath l) = "self::node()[@model='" ++ l ++ "']" ∧
    printPath (productsPath txt) = productsQuery txt ∧
    (p ≠ [] → printPath (thenEq p) = printPath p ++ "/Eq") := by
  refine ⟨fun hne => ?_, ?_, ?_, ?_, fun hp => ?_⟩
  · have hmid : ∀ (pre : List XStep), pre ≠ [] → ∀ ts : List EqTerm,
        printPath (pre ++ (ts.filter fun t => t.n ≠ 0).flatMap (fun t => [.child "T" [termPred t], .parent]) ++
          [.parent, .parent]) = printPath pre ++ ts.foldr (fun t q =>
          (if t.n = 0 then ""
           else "/T[string(P)='" ++ t.name ++ "'" ++
            (if t.n = 1 then " and (number(n)=1 or string(n)='')]/.."
             else if t.n > 1 then " and number(n)=" ++ Nat.repr t.n.toNat ++ "]/.."
             else "]/..")) ++ q) "" ++ "/../.." := by
      intro pre hpre ts
      induction ts generalizing pre with
      | nil =>
        simp only [List.filter_nil, List.flatMap_nil, List.append_nil, List.foldr_nil]
        rw [printPath_append hpre (by simp)]
        simp only [printPath, XStep.print, String.append_assoc, String.append_empty]
        rfl
      | cons t ts ih =>
        by_cases h0 : t.n = 0
        · simp only [List.foldr_cons, h0, if_true, String.empty_append]
          rw [List.filter_cons_of_neg (by simp [h0])]
          exact ih pre hpre
        · have := ih (pre ++ [.child "T" [termPred t], .parent]) (by simp)
          rw [List.filter_cons_of_pos (by simp [h0]), List.flatMap_cons, ← List.append_assoc pre]
          refine this.trans ?_
          rw [printPath_append hpre (by simp)]
          simp only [List.foldr_cons, h0, if_false]
          generalize List.foldr _ "" ts = rest
          unfold termPred
          split_ifs with h1 h2
          · apply String.toList_inj.1
            simp [printPath, XStep.print, printPreds, XPred.print, slash1, show Nat.repr 1 = "1" from rfl]
          · apply String.toList_inj.1
            simp [printPath, XStep.print, printPreds, XPred.print, slash1]
          · apply String.toList_inj.1
            simp [printPath, XStep.print, printPreds, XPred.print, slash1]
    have h := hmid [.child "Eq" [.count [side, "T"] terms.length], .child side []] (by simp) terms
    unfold sidePath sideQuery
    rw [if_neg (by simpa using hne)]
    refine h.trans ?_
    generalize List.foldr _ "" terms = rest
    apply String.toList_inj.1
    simp [printPath, XStep.print, printPreds, XPred.print, slash2]
  · decide
  · apply String.toList_inj.1
    simp [labelPath, printPath, XStep.print, printPreds, XPred.print]
  · apply String.toList_inj.1
    simp [productsPath, productsQuery, printPath, XStep.print, printPreds, XPred.print, slash2, List.replicate]
  · rw [thenEq, printPath_append hp (by simp)]
    apply String.toList_inj.1
    simp [printPath, XStep.print, printPreds]

/-! ### Sides -/

private theorem exists_mem_iff {α : Type} {l : List α} : (∃ b, b ∈ l) ↔ l ≠ [] :=
  ⟨fun ⟨_, hb⟩ => List.ne_nil_of_mem hb, List.exists_mem_of_ne_nil l⟩

private theorem termPred_holds {number : List Char → Option ℝ} {t : EqTerm} {x : Xml} :
    (termPred t).holds number x ↔ IsTerm number t x := by
  unfold termPred IsTerm
  split_ifs with h1 h2
  · simp only [XPred.holds, along_one, h1]
    simp
  · simp only [XPred.holds, along_one]
    simp [h1, h2]
  · simp only [XPred.holds, along_one]
    simp [h1, h2]

private theorem mem_terms {number : List Char → Option ℝ} {root s : Xml} {a b : List ℕ} (h : root.get a = some s)
    (ts : List EqTerm) (p : List XStep) :
    b ∈ runPath number root (ts.flatMap (fun t => [XStep.child "T" [termPred t], .parent]) ++ p) a ↔
      (∀ t ∈ ts, ∃ y ∈ s.named "T", IsTerm number t y) ∧ b ∈ runPath number root p a := by
  induction ts with
  | nil => simp
  | cons t ts ih =>
    rw [List.flatMap_cons, List.append_assoc]
    rw [List.cons_append, List.cons_append, List.nil_append, mem_child_then h]
    simp only [parent_then, ih, List.mem_singleton, forall_eq, termPred_holds, List.forall_mem_cons]
    constructor
    · rintro ⟨i, y, -, hy, ht, h1, h2⟩
      exact ⟨⟨⟨y, hy, ht⟩, h1⟩, h2⟩
    · rintro ⟨⟨⟨y, hy, ht⟩, h1⟩, h2⟩
      obtain ⟨i, hi⟩ := child_at h hy
      exact ⟨i, y, hi, hy, ht, h1, h2⟩

/-- The query for a side, followed by more steps. -/
private theorem mem_side {number : List Char → Option ℝ} {root x : Xml} {a b : List ℕ} (h : root.get a = some x)
    (side : String) (terms : List EqTerm) (p : List XStep) :
    b ∈ runPath number root (sidePath side terms ++ p) a ↔ SideIs number side terms x ∧ b ∈ runPath number root p a := by
  unfold sidePath SideIs
  simp only [List.append_assoc, List.cons_append, List.nil_append]
  rw [mem_child_then h]
  simp only [List.mem_singleton, forall_eq, XPred.holds, along_two]
  have key : ∀ (i : ℕ) (e : Xml), root.get (a ++ [i]) = some e →
      (b ∈ runPath number root (XStep.child side [] :: (List.flatMap (fun t => [XStep.child "T" [termPred t], XStep.parent])
        (terms.filter fun t => t.n ≠ 0) ++ XStep.parent :: XStep.parent :: p)) (a ++ [i]) ↔
        (∃ s ∈ e.named side, ∀ t ∈ terms, t.n ≠ 0 → ∃ y ∈ s.named "T", IsTerm number t y) ∧ b ∈ runPath number root p a) := by
    intro i e he
    rw [mem_child_then he]
    constructor
    · rintro ⟨j, s, hs, hn, -, hb⟩
      rw [mem_terms hs] at hb
      obtain ⟨h1, h2⟩ := hb
      rw [parent_then, parent_then] at h2
      exact ⟨⟨s, hn, fun t ht h0 => h1 t (List.mem_filter.2 ⟨ht, by simpa using h0⟩)⟩, h2⟩
    · rintro ⟨⟨s, hn, hs⟩, hb⟩
      obtain ⟨j, hj⟩ := child_at he hn
      refine ⟨j, s, hj, hn, by simp, ?_⟩
      rw [mem_terms hj, parent_then, parent_then]
      refine ⟨fun t ht => ?_, hb⟩
      rw [List.mem_filter] at ht
      exact hs t ht.1 (by simpa using ht.2)
  constructor
  · rintro ⟨i, e, he, hn, hc, hb⟩
    obtain ⟨h1, h2⟩ := (key i e he).1 hb
    exact ⟨⟨e, hn, hc, h1⟩, h2⟩
  · rintro ⟨⟨e, hn, hc, h1⟩, h2⟩
    obtain ⟨i, he⟩ := child_at h hn
    exact ⟨i, e, he, hn, hc, (key i e he).2 ⟨h1, h2⟩⟩

private theorem mem_products {number : List Char → Option ℝ} {root x : Xml} {a b : List ℕ} (h : root.get a = some x)
    (txt : String) :
    b ∈ runPath number root (productsPath txt) a ↔ ProductsIn txt x ∧ b = a := by
  unfold productsPath ProductsIn
  rw [mem_child_then h]
  have hp : ∀ o : Xml, (∀ q ∈ [XPred.has ["T", "P"] (.listed 5 txt), .not (.has ["T", "P"] (.not (.listed 1 txt)))],
      q.holds number o) ↔ (∃ T ∈ o.named "T", ∃ p ∈ T.named "P", True) ∧
        ∀ T ∈ o.named "T", ∀ p ∈ T.named "P", containsChars (':' :: (stringOf p.texts ++ [':'])) txt.toList = true := by
    intro o
    simp only [List.mem_cons, List.not_mem_nil, or_false, forall_eq_or_imp, forall_eq, XPred.holds, along_two,
      List.mem_flatMap]
    constructor
    · rintro ⟨⟨p, ⟨T, hT, hp⟩, -⟩, h2⟩
      refine ⟨⟨T, hT, p, hp, trivial⟩, fun T' hT' p' hp' => ?_⟩
      by_contra hc
      exact h2 ⟨p', ⟨T', hT', hp'⟩, hc⟩
    · rintro ⟨⟨T, hT, p, hp, -⟩, h2⟩
      refine ⟨⟨p, ⟨T, hT, hp⟩, h2 T hT p hp⟩, ?_⟩
      rintro ⟨p', ⟨T', hT', hp'⟩, hc⟩
      exact hc (h2 T' hT' p' hp')
  constructor
  · rintro ⟨i, e, he, hn, -, hb⟩
    rw [mem_child_then he] at hb
    obtain ⟨j, o, ho, hon, hq, hb⟩ := hb
    rw [parent_then, parent_then] at hb
    exact ⟨⟨e, hn, o, hon, (hp o).1 hq⟩, by simpa [runPath] using hb⟩
  · rintro ⟨⟨e, hn, o, hon, hq⟩, rfl⟩
    obtain ⟨i, he⟩ := child_at h hn
    obtain ⟨j, ho⟩ := child_at he hon
    refine ⟨i, e, he, hn, by simp, ?_⟩
    rw [mem_child_then he]
    refine ⟨j, o, ho, hon, (hp o).2 hq, ?_⟩
    rw [parent_then, parent_then]
    simp [runPath]

private theorem then_eq {number : List Char → Option ℝ} {root x : Xml} {a : List ℕ} (h : root.get a = some x) :
    (∃ b, b ∈ runPath number root [.child "Eq" []] a) ↔ x.named "Eq" ≠ [] := by
  constructor
  · rintro ⟨b, hb⟩
    rw [mem_child_then h] at hb
    obtain ⟨i, y, -, hy, -⟩ := hb
    exact List.ne_nil_of_mem hy
  · intro hne
    obtain ⟨y, hy⟩ := List.exists_mem_of_ne_nil _ hne
    obtain ⟨i, hi⟩ := child_at h hy
    exact ⟨a ++ [i], (mem_child_then h).2 ⟨i, y, hi, hy, by simp, by simp [runPath]⟩⟩

/-- **C114**  The query for a side, asked at an interaction: it selects this interaction itself if the side is as
specified, otherwise nothing; so the filter `EqIO` keeps the interaction exactly in this case. -/
theorem C114_side (number : List Char → Option ℝ) {root x : Xml} {a : List ℕ} (h : root.get a = some x) (side : String)
    (terms : List EqTerm) :
    (∀ b, b ∈ runPath number root (sidePath side terms) a ↔ SideIs number side terms x ∧ b = a) ∧
    (runPath number root (thenEq (sidePath side terms)) a ≠ [] ↔ SideIs number side terms x) := by
  constructor
  · intro b
    have := mem_side (number := number) (b := b) h side terms []
    rw [List.append_nil] at this
    rw [this]
    simp [runPath]
  · rw [← exists_mem_iff]
    simp only [thenEq, mem_side h]
    constructor
    · rintro ⟨b, hb, -⟩
      exact hb
    · intro hs
      have hs' := hs
      obtain ⟨e, he, -⟩ := hs'
      obtain ⟨b, hb⟩ := (then_eq (number := number) h).2 (List.ne_nil_of_mem he)
      exact ⟨b, hs, hb⟩

/-- **C114**  The filter `Elastic` keeps an interaction exactly if the text of its reactants is that of its products, and
the filter `Label` exactly if its attribute `model` has this value and it has an equation. -/
theorem C114_elastic_label (number : List Char → Option ℝ) {root x : Xml} {a : List ℕ} (h : root.get a = some x)
    (l : String) :
    (runPath number root (thenEq elasticPath) a ≠ [] ↔
      ∃ e ∈ x.named "Eq", stringOf (e.named "In") = stringOf (e.named "Out")) ∧
    (runPath number root (thenEq (labelPath l)) a ≠ [] ↔ x.attr "model" = some l ∧ x.named "Eq" ≠ []) := by
  constructor
  · rw [← exists_mem_iff]
    simp only [thenEq, elasticPath, List.cons_append, List.nil_append, mem_child_then h, parent_then, List.mem_singleton,
      forall_eq, XPred.holds, along_one]
    constructor
    · rintro ⟨b, i, e, -, he, hs, -⟩
      exact ⟨e, he, hs⟩
    · rintro ⟨e, he, hs⟩
      obtain ⟨i, hi⟩ := child_at h he
      exact ⟨a ++ [i], i, e, hi, he, hs, i, e, hi, he, by simp, by simp [runPath]⟩
  · rw [← exists_mem_iff]
    simp only [thenEq, labelPath, List.cons_append, List.nil_append]
    rw [← then_eq (number := number) h]
    have e : ∀ b, b ∈ runPath number root (.self [.attr "model" l] :: [.child "Eq" []]) a ↔
        x.attr "model" = some l ∧ b ∈ runPath number root [.child "Eq" []] a := by
      intro b
      rw [runPath, List.mem_flatMap]
      simp only [XStep.run, h, Option.some.injEq, List.mem_singleton, forall_eq, XPred.holds, exists_eq_left']
      by_cases hl : x.attr "model" = some l
      · simp [hl]
      · simp [hl]
    simp only [e, exists_and_left]

/-! ### The whole document -/

mutual
private theorem mem_addrs (x : Xml) (a : List ℕ) : a ∈ x.addrs ↔ (x.get a).isSome := by
  cases x with
  | text s => cases a <;> simp [Xml.addrs, Xml.get]
  | elem t as ks =>
    cases a with
    | nil => simp [Xml.addrs, Xml.get]
    | cons i a =>
      simp only [Xml.addrs, List.mem_cons, reduceCtorEq, false_or]
      rw [mem_addrsFrom ks 0 i a]
      simp only [Xml.get, Nat.zero_le, true_and, Nat.sub_zero]
      cases ks[i]? <;> simp
private theorem mem_addrsFrom (ks : List Xml) (n i : ℕ) (a : List ℕ) :
    i :: a ∈ Xml.addrsFrom n ks ↔ n ≤ i ∧ ∃ k, ks[i - n]? = some k ∧ (k.get a).isSome := by
  cases ks with
  | nil => simp [Xml.addrsFrom]
  | cons k ks =>
    simp only [Xml.addrsFrom, List.mem_append, List.mem_map, List.cons.injEq, mem_addrsFrom ks (n + 1) i a]
    constructor
    · rintro (⟨b, hb, rfl, rfl⟩ | ⟨hn, k', hk, hs⟩)
      · exact ⟨le_rfl, k, by simp, (mem_addrs k b).1 hb⟩
      · refine ⟨by omega, k', ?_, hs⟩
        rw [show i - n = (i - (n + 1)) + 1 by omega]
        simpa using hk
    · rintro ⟨hn, k', hk, hs⟩
      by_cases hi : n = i
      · subst hi
        left
        simp only [Nat.sub_self, List.getElem?_cons_zero, Option.some.injEq] at hk
        subst hk
        exact ⟨a, (mem_addrs k a).2 hs, rfl, rfl⟩
      · right
        refine ⟨by omega, k', ?_, hs⟩
        rw [show i - n = (i - (n + 1)) + 1 by omega] at hk
        simpa using hk
end

/-- `//t` selects every element of this name and nothing else. -/
theorem mem_everywhere {root : Xml} {t : String} {a : List ℕ} :
    a ∈ root.everywhere t ↔ ∃ x, root.get a = some x ∧ x.hasTag t = true := by
  simp only [Xml.everywhere, List.mem_filter, mem_addrs]
  cases root.get a <;> simp

/-- **C114**  The query for two species, asked of the whole document, selects exactly the `Interaction` elements, at any
depth, that have a `cross_section`, an equation with the reactants specified, and an equation all of whose products are
listed. -/
theorem C114_reactants (number : List Char → Option ℝ) (root : Xml) (terms : List EqTerm) (txt : String) (b : List ℕ) :
    b ∈ reactantQuery number root terms txt ↔ ∃ x, root.get b = some x ∧ x.hasTag "Interaction" = true ∧
      x.named "cross_section" ≠ [] ∧ SideIs number "In" terms x ∧ ProductsIn txt x := by
  unfold reactantQuery
  simp only [List.mem_flatMap, mem_everywhere]
  constructor
  · rintro ⟨a, ⟨x, hx, ht⟩, hb⟩
    rw [mem_child_then hx] at hb
    obtain ⟨i, c, -, hc, -, hb⟩ := hb
    rw [parent_then, mem_side hx, mem_products hx] at hb
    obtain ⟨h1, h2, rfl⟩ := hb
    exact ⟨x, hx, ht, List.ne_nil_of_mem hc, h1, h2⟩
  · rintro ⟨x, hx, ht, hc, h1, h2⟩
    refine ⟨b, ⟨x, hx, ht⟩, ?_⟩
    obtain ⟨c, hc⟩ := List.exists_mem_of_ne_nil _ hc
    obtain ⟨i, hi⟩ := child_at hx hc
    rw [mem_child_then hx]
    refine ⟨i, c, hi, hc, by simp, ?_⟩
    rw [parent_then, mem_side hx, mem_products hx]
    exact ⟨h1, h2, rfl⟩

/-! ### Interactions as the other models have them -/

/-- The interaction has one equation with one `In` and one `Out`, and the names of its products are plain text. -/
def OneEquation (x : Xml) : Prop :=
  ∃ e i o, x.named "Eq" = [e] ∧ e.named "In" = [i] ∧ e.named "Out" = [o] ∧
    ∀ T ∈ o.named "T", ∀ p ∈ T.named "P", ∃ s, p.texts = [.text s] ∧ p.str = s.toList

/-- Text that is read as an integer is this number in XPath; the empty text is no number. -/
structure SameNumbers (parse : List Char → Option ℤ) (number : List Char → Option ℝ) : Prop where
  agree : ∀ c k, parse c = some k → number c = some (k : ℝ)
  empty : parse [] = none
  nan : number [] = none

private theorem mapM_some_iff {α β : Type} {f : α → Option β} : ∀ {l : List α} {m : List β},
    l.mapM f = some m ↔ List.Forall₂ (fun a b => f a = some b) l m
  | [], m => by cases m <;> simp
  | a :: l, m => by
    have ih := fun m => mapM_some_iff (f := f) (l := l) (m := m)
    cases m with
    | nil => cases h1 : f a <;> cases h2 : l.mapM f <;> simp [List.mapM_cons, h1, h2]
    | cons b m =>
      rw [List.forall₂_cons, ← ih]
      cases h1 : f a <;> cases h2 : l.mapM f <;> simp [List.mapM_cons, h1, h2]

private theorem forall₂_left {α β : Type} {R : α → β → Prop} {l : List α} {m : List β} (h : List.Forall₂ R l m) {a : α}
    (ha : a ∈ l) : ∃ b ∈ m, R a b := by
  induction h with
  | nil => cases ha
  | cons h1 _ ih =>
    rcases List.mem_cons.1 ha with rfl | ha
    · exact ⟨_, List.mem_cons_self, h1⟩
    · obtain ⟨b, hb, hR⟩ := ih ha
      exact ⟨b, List.mem_cons_of_mem _ hb, hR⟩

private theorem forall₂_right {α β : Type} {R : α → β → Prop} {l : List α} {m : List β} (h : List.Forall₂ R l m) {b : β}
    (hb : b ∈ m) : ∃ a ∈ l, R a b := by
  obtain ⟨a, ha, hR⟩ := forall₂_left h.flip hb
  exact ⟨a, ha, hR⟩

private theorem isTerm_iff {parse : List Char → Option ℤ} {number : List Char → Option ℝ} (hn : SameNumbers parse number)
    {y : Xml} {n : TNode} (h : readT parse y = some n) {t : EqTerm} : IsTerm number t y ↔ termMatches t n = true := by
  unfold readT at h
  split at h
  swap
  · cases h
  rename_i p m src hp hm hs
  cases h
  unfold IsTerm termMatches
  rw [hp]
  have e1 : stringOf [p] = t.name.toList ↔ (String.ofList p.str == t.name) = true := by
    rw [beq_iff_eq]
    constructor
    · intro h
      rw [show p.str = t.name.toList from h, String.ofList_toList]
    · intro h
      rw [← h, String.toList_ofList]
      rfl
  rw [e1]
  unfold queryInt at hm
  split at hm
  · rename_i hq
    cases hm
    rw [hq]
    simp only [stringOf, hn.nan, reduceCtorEq, false_or, Bool.and_eq_true]
    split_ifs with h1 h2
    · simp [h1]
    · simp [h1, h2]
    · simp [h1, h2]
  · rename_i c hq
    rw [hq]
    cases hk : parse c.str with
    | none => rw [hk] at hm; simp at hm
    | some k =>
      rw [hk] at hm
      simp only [Option.map_some, Option.some.injEq] at hm
      subst hm
      have hc : c.str ≠ [] := fun h0 => by rw [h0, hn.empty] at hk; simp at hk
      simp only [stringOf, hn.agree _ _ hk, Option.some.injEq, hc, or_false, Bool.and_eq_true]
      split_ifs with h1 h2
      · simp only [h1, forall_const, lt_irrefl, false_implies, and_true, Bool.or_eq_true, beq_iff_eq, Option.some.injEq,
          reduceCtorEq, or_false]
        norm_cast
      · simp only [h1, false_implies, true_and, h2, forall_const, beq_iff_eq, Option.some.injEq]
        norm_cast
      · simp [h1, h2]
  · cases hm

private theorem side_iff {parse : List Char → Option ℤ} {number : List Char → Option ℝ} (hn : SameNumbers parse number)
    {x e s : Xml} {side : String} (he : x.named "Eq" = [e]) (hs : e.named side = [s]) {ts : List TNode}
    (h : readSide parse side x = some ts) {terms : List EqTerm} (hne : terms ≠ []) :
    SideIs number side terms x ↔ eqioMatches terms ts = true := by
  unfold readSide at h
  rw [he] at h
  simp only [List.flatMap_cons, List.flatMap_nil, List.append_nil, hs] at h
  have hf := mapM_some_iff.1 h
  have hl := hf.length_eq
  unfold SideIs eqioMatches
  rw [he, if_neg (by simpa using hne)]
  simp only [List.mem_singleton, exists_eq_left, hs, List.flatMap_cons, List.flatMap_nil, List.append_nil,
    Bool.and_eq_true, beq_iff_eq, List.all_eq_true, Bool.or_eq_true, List.any_eq_true, hl]
  have key : ∀ t, (∃ y ∈ s.named "T", IsTerm number t y) ↔ ∃ n ∈ ts, termMatches t n = true := by
    intro t
    constructor
    · rintro ⟨y, hy, ht⟩
      obtain ⟨n, hn', hr⟩ := forall₂_left hf hy
      exact ⟨n, hn', (isTerm_iff hn hr).1 ht⟩
    · rintro ⟨n, hn', ht⟩
      obtain ⟨y, hy, hr⟩ := forall₂_right hf hn'
      exact ⟨y, hy, (isTerm_iff hn hr).2 ht⟩
  simp only [key]
  refine and_congr_right fun _ => forall_congr' fun t => forall_congr' fun _ => ?_
  tauto

private theorem products_iff {parse : List Char → Option ℤ} {x e o : Xml} (he : x.named "Eq" = [e])
    (ho : e.named "Out" = [o])
    (hp : ∀ T ∈ o.named "T", ∀ p ∈ T.named "P", ∃ s, p.texts = [.text s] ∧ p.str = s.toList) {ts : List TNode}
    (h : readSide parse "Out" x = some ts) (txt : String) :
    ProductsIn txt x ↔ productsListed txt.toList ts = true := by
  unfold readSide at h
  rw [he] at h
  simp only [List.flatMap_cons, List.flatMap_nil, List.append_nil, ho] at h
  have hf := mapM_some_iff.1 h
  have hr : ∀ {y n}, readT parse y = some n → ∃ p, y.named "P" = [p] ∧ n.P = String.ofList p.str := by
    intro y n h
    unfold readT at h
    split at h
    · rename_i p m src hp hm hs
      cases h
      exact ⟨p, hp, rfl⟩
    · cases h
  have key : ∀ {y n}, y ∈ o.named "T" → readT parse y = some n → ∀ p ∈ y.named "P",
      (containsChars (':' :: (stringOf p.texts ++ [':'])) txt.toList = true ↔ nameListed txt.toList n = true) := by
    intro y n hy hyn p hpm
    obtain ⟨p', hp', hn⟩ := hr hyn
    have : p = p' := by simpa [hp'] using hpm
    subst this
    obtain ⟨s, hs, hs'⟩ := hp y hy p hpm
    rw [nameListed, hn, String.toList_ofList, hs]
    simp only [stringOf, Xml.str, hs']
  unfold ProductsIn productsListed
  rw [he]
  simp only [List.mem_singleton, exists_eq_left, ho, and_true, Bool.and_eq_true, List.any_eq_true, Bool.not_eq_true',
    List.any_eq_false]
  constructor
  · rintro ⟨⟨T, hT, p, hpT⟩, hall⟩
    have hall' : ∀ n ∈ ts, nameListed txt.toList n = true := by
      intro n hn
      obtain ⟨y, hy, hyn⟩ := forall₂_right hf hn
      obtain ⟨p, hp1, -⟩ := hr hyn
      have hpm : p ∈ y.named "P" := by simp [hp1]
      exact (key hy hyn p hpm).1 (hall y hy p hpm)
    obtain ⟨n, hn, -⟩ := forall₂_left hf hT
    exact ⟨⟨n, hn, hall' n hn⟩, fun n hn => by simp [hall' n hn]⟩
  · rintro ⟨⟨n, hn, -⟩, hall⟩
    obtain ⟨y, hy, hyn⟩ := forall₂_right hf hn
    obtain ⟨p, hp1, -⟩ := hr hyn
    refine ⟨⟨y, hy, p, by simp [hp1]⟩, ?_⟩
    intro T hT q hq
    obtain ⟨m, hm, hTm⟩ := forall₂_left hf hT
    exact (key hT hTm q hq).2 (by simpa using hall m hm)

/-- **C114**  For an interaction with one equation, the meaning of every query is what the model of filters and of the
table computes from the terms, texts and attributes that the library reads from this element. -/
theorem C114_read {parse : List Char → Option ℤ} {number : List Char → Option ℝ} (hn : SameNumbers parse number) {x : Xml}
    (h1 : OneEquation x) {n : XInter} (h : xInter parse x = some n) :
    (∀ terms, terms ≠ [] → (SideIs number "In" terms x ↔ eqioMatches terms n.ins = true) ∧
      (SideIs number "Out" terms x ↔ eqioMatches terms n.outs = true)) ∧
    ((∃ e ∈ x.named "Eq", stringOf (e.named "In") = stringOf (e.named "Out")) ↔ n.inText = n.outText) ∧
    (∀ txt, ProductsIn txt x ↔ productsListed txt.toList n.outs = true) ∧
    (x.named "cross_section" ≠ [] ↔ n.hasCS = true) ∧
    (∀ l, x.attr "model" = some l ∧ x.named "Eq" ≠ [] ↔ n.modelAttr = some l) := by
  obtain ⟨e, i, o, he, hi, ho, hp⟩ := h1
  unfold xInter at h
  split at h
  swap
  · cases h
  rename_i ins outs hin hout
  cases h
  refine ⟨fun terms hne => ⟨side_iff hn he hi hin hne, side_iff hn he ho hout hne⟩, ?_, fun txt =>
    products_iff he ho hp hout txt, ?_, fun l => ?_⟩
  · simp only [he, List.mem_singleton, exists_eq_left, hi, ho, Xml.along, List.flatMap_cons, List.flatMap_nil,
      List.append_nil]
    constructor
    · intro h
      simpa using congrArg String.ofList h
    · intro h
      simpa using congrArg String.toList h
  · simp
  · simp [he]

private theorem reactantSpec_ne_nil (A B : ℕ) (nA nB : String) : reactantSpec A B nA nB ≠ [] := by
  unfold reactantSpec eqTermSet
  split_ifs
  · simp [eqTermInsert]
  · simp only [List.foldl, eqTermInsert]
    split_ifs <;> simp

theorem docOf_some {parse : List Char → Option ℤ} {root : Xml} {d : Doc} (h : docOf parse root = some d) :
    List.Forall₂ (fun a n => ∃ x, root.get a = some x ∧ xInter parse x = some n) (root.everywhere "Interaction") d.nodes ∧
    ∀ s k a, (root.everywhere "Interaction")[k]? = some a → (d.inSection s k = true ↔ a ∈ sectionNodes root s) := by
  unfold docOf at h
  split at h
  · cases h
  rename_i ns hns
  cases h
  constructor
  · refine List.Forall₂.imp ?_ (mapM_some_iff.1 hns)
    intro a n h
    simpa [Option.bind_eq_some_iff] using h
  · intro s k a hk
    simp [hk]

private theorem forall₂_at {α β : Type} {R : α → β → Prop} {l : List α} {m : List β} (h : List.Forall₂ R l m) {k : ℕ}
    {a : α} (ha : l[k]? = some a) : ∃ b, m[k]? = some b ∧ R a b := by
  induction h generalizing k with
  | nil => simp at ha
  | cons h1 _ ih =>
    cases k with
    | zero =>
      simp only [List.getElem?_cons_zero, Option.some.injEq] at ha
      subst ha
      exact ⟨_, rfl, h1⟩
    | succ k => exact ih (by simpa using ha)

/-- **C114**  The document of the models of filters and of the table has one node for each `Interaction` element of the
tree, in document order.  What these models select, the queries select: for a pair of species, for the filters `EqIO`
(with a term), `Elastic` and `Label`; and a section has the `Interaction` elements below the children of this name of the
element `ParticleDB`, at any depth. -/
theorem C114_document {parse : List Char → Option ℤ} {number : List Char → Option ℝ} (hn : SameNumbers parse number)
    {root : Xml} {d : Doc} (hd : docOf parse root = some d)
    (h1 : ∀ a x, root.get a = some x → x.hasTag "Interaction" = true → OneEquation x) :
    d.nodes.length = (root.everywhere "Interaction").length ∧
    ∀ k a, (root.everywhere "Interaction")[k]? = some a →
      (∀ (db : Registry ℝ) A B nA nB, k ∈ queryNodes d db A B nA nB ↔
        a ∈ reactantQuery number root (reactantSpec A B nA nB) (String.ofList (namesText db))) ∧
      (∀ S, k ∈ S →
        (∀ out terms, terms ≠ [] → (k ∈ (Filter.eqio out terms).apply d S ↔
          runPath number root (thenEq (sidePath (if out then "Out" else "In") terms)) a ≠ [])) ∧
        (k ∈ Filter.elastic.apply d S ↔ runPath number root (thenEq elasticPath) a ≠ []) ∧
        (∀ l, k ∈ (Filter.label l).apply d S ↔ runPath number root (thenEq (labelPath l)) a ≠ [])) ∧
      (∀ s, d.inSection s k = true ↔ root.hasTag "ParticleDB" = true ∧
        ∃ i c y, a = i :: c ∧ c ≠ [] ∧ root.get [i] = some y ∧ y.hasTag s = true) := by
  obtain ⟨hf, hs⟩ := docOf_some hd
  refine ⟨hf.length_eq.symm, fun k a hk => ?_⟩
  obtain ⟨n, hkn, x, hx, hxn⟩ := forall₂_at hf hk
  obtain ⟨x', hx', ht⟩ := mem_everywhere.1 (List.mem_of_getElem? hk)
  have : x' = x := by simpa [hx] using hx'.symm
  subst this
  obtain ⟨r1, r2, r3, r4, r5⟩ := C114_read hn (h1 a x' hx ht) hxn
  refine ⟨fun db A B nA nB => ?_, fun S hS => ⟨fun out terms hne => ?_, ?_, fun l => ?_⟩, fun s => ?_⟩
  · rw [C114_reactants]
    have hlt : k < d.nodes.length := by
      by_contra hc
      rw [List.getElem?_eq_none (by omega)] at hkn
      cases hkn
    simp only [queryNodes, List.mem_filter, List.mem_range, hlt, true_and, hkn, Bool.and_eq_true, hx, Option.some.injEq,
      exists_eq_left', ht, r4, (r1 _ (reactantSpec_ne_nil A B nA nB)).1, r3, String.toList_ofList, and_assoc]
  · rw [(C114_side number hx _ terms).2]
    cases out
    · simp [Filter.apply, keepIf, hS, hkn, (r1 terms hne).1]
    · simp [Filter.apply, keepIf, hS, hkn, (r1 terms hne).2]
  · rw [(C114_elastic_label number hx "").1, r2]
    simp [Filter.apply, keepIf, hS, hkn]
  · rw [(C114_elastic_label number hx l).2, r5]
    simp [Filter.apply, keepIf, hS, hkn]
  · rw [hs s k a hk]
    simp only [sectionNodes, List.mem_filter, List.mem_of_getElem? hk, true_and, Bool.and_eq_true]
    refine and_congr_right fun _ => ?_
    match a with
    | [] => simp
    | [i] => simp
    | i :: j :: c =>
      cases hg : root.get [i] with
      | none => simp [hg]
      | some y => simp [hg]

/-- **C114**  Loading an equation from its element is what the model of a session does for the node of this element: the
terms and the names of the models come from the document, the numbers from the element. -/
theorem C114_loads {R : Reader} {T : Tools W} {parse : List Char → Option ℤ} {db : Registry ℝ} {root x : Xml} {d : Doc}
    (hd : docOf parse root = some d) {k : ℕ} {a : List ℕ} (hk : (root.everywhere "Interaction")[k]? = some a)
    (hx : root.get a = some x) {w : WEq W} :
    loadXml R T parse db x = .ok w ↔ ∃ c m cs i, x.named "cross_section" = [c] ∧ c.attr "model" = some m ∧
      R.crossSection c = .ok cs ∧ R.inter w.eq.model cs x = .ok i ∧
      ∀ D : SDoc, D.doc = d → D.inter k = i → loadNode T D db k = .ok w := by
  obtain ⟨n, hkn, x', hx', hxn⟩ := forall₂_at (docOf_some hd).1 hk
  have : x' = x := by simpa [hx] using hx'.symm
  subst this
  have hread : ∀ c m, x'.named "cross_section" = [c] → c.attr "model" = some m →
      readInteraction parse x' = some n.node := by
    intro c m hc hm
    unfold xInter at hxn
    split at hxn
    swap
    · cases hxn
    rename_i ins outs hin hout
    cases hxn
    simp [readInteraction, hin, hout, hc, hm, XInter.node]
  have hattr : ∀ {c q}, x'.named "cross_section" = [c] → readInteraction parse x' = some q →
      ∃ m, c.attr "model" = some m := by
    intro c q hc hq
    unfold readInteraction at hq
    rw [hc] at hq
    split at hq
    swap
    · cases hq
    rename_i c' h1 h2 h3
    cases h3
    split at hq
    · exact ⟨_, by assumption⟩
    · cases hq
  have heq : ∀ {e i}, completeEq T db e i = .ok w → w.eq = e := by
    intro e i h
    unfold completeEq at h
    split at h
    swap
    · cases h
    dsimp only at h
    repeat' split at h
    all_goals first | cases h; rfl | cases h
  rw [loadXml_iff]
  constructor
  · rintro ⟨q, c, e, cs, i, hq, hc, he, hcs, hi, hw⟩
    obtain ⟨m, hm⟩ := hattr hc hq
    rw [hread c m hc hm] at hq
    cases hq
    refine ⟨c, m, cs, i, hc, hm, hcs, by rwa [heq hw], ?_⟩
    intro D hD hDi
    simp only [loadNode, hD, hkn, he, hDi, hw]
  · rintro ⟨c, m, cs, i, hc, hm, hcs, hi, hD⟩
    have h := hD { doc := d, inter := fun _ => i } rfl rfl
    simp only [loadNode, hkn] at h
    split at h
    · cases h
    rename_i e he
    split at h
    · cases h
    rename_i w' hw
    cases h
    exact ⟨n.node, c, e, cs, i, hread c m hc hm, hc, he, hcs, by rwa [heq hw] at hi, hw⟩

/-! ### A document -/

namespace XPathExample

/-- A term. -/
def term (p n : String) : Xml := .elem "T" [] [.elem "n" [] [.text n], .elem "P" [] [.text p]]

/-- Elastic scattering, and electrons that excite hydrogen, in a section of its own and one level deeper. -/
def tree : Xml :=
  .elem "ParticleDB" []
    [.elem "standard" []
      [.text " ", .elem "Interaction" []
        [.elem "Eq" [] [.elem "In" [] [term "H" "1", term "e" "1"], .elem "Out" [] [term "H" "1", term "e" "1"]],
         .elem "cross_section" [("model", "vhs")] []]],
     .elem "hot" []
      [.elem "group" []
        [.elem "Interaction" [("model", "inelastic")]
          [.elem "Eq" [] [.elem "In" [] [term "e" "1", .elem "T" [] [.elem "P" [] [.text "H"]]],
             .elem "Out" [] [term "H*" "1", term "e" "1"]],
           .elem "cross_section" [("model", "vhs")] []]]]]

def parse (c : List Char) : Option ℤ := if c = ['1'] then some 1 else if c = ['2'] then some 2 else none

noncomputable def number (c : List Char) : Option ℝ := (parse c).map fun k => (k : ℝ)

theorem numbers : SameNumbers parse number where
  agree c k h := by simp [number, h]
  empty := by decide
  nan := by simp [number, parse]

theorem interactions : tree.everywhere "Interaction" = [[0, 1], [1, 0, 0]] := by decide +kernel

theorem one (a : List ℕ) (x : Xml) (h : tree.get a = some x) (ht : x.hasTag "Interaction" = true) : OneEquation x := by
  have ha := mem_everywhere.2 ⟨x, h, ht⟩
  rw [interactions] at ha
  simp only [List.mem_cons, List.not_mem_nil, or_false] at ha
  rcases ha with rfl | rfl
  all_goals
    simp only [tree, Xml.get, List.getElem?_cons_zero, List.getElem?_cons_succ, Option.some.injEq] at h
    subst h
    refine ⟨_, _, _, rfl, rfl, rfl, ?_⟩
    intro T hT p hp
    simp only [Xml.named, Xml.hasTag, term, List.filter, List.mem_cons, List.not_mem_nil, or_false, beq_self_eq_true] at hT
    rcases hT with rfl | rfl <;>
    · simp [Xml.named, Xml.hasTag] at hp
      subst hp
      exact ⟨_, rfl, by simp [Xml.str, Xml.strs]⟩

/-- The document of the other models. -/
def doc : Doc := (docOf parse tree).get (by decide +kernel)

theorem doc_eq : docOf parse tree = some doc := (Option.some_get _).symm

/-- With electrons, hydrogen and excited hydrogen both interactions are selected; without the excited state only the
elastic one is. -/
example : queryNodes doc ([⟨"e", 1, -1⟩, ⟨"H", 2000, 0⟩, ⟨"H*", 2000, 0⟩] : Registry ℝ) 0 1 "e" "H" = [0, 1] ∧
    queryNodes doc ([⟨"e", 1, -1⟩, ⟨"H", 2000, 0⟩] : Registry ℝ) 0 1 "e" "H" = [0] := by
  constructor <;> decide +kernel

/-- So does the query. -/
example : [1, 0, 0] ∈ reactantQuery number tree (reactantSpec 0 1 "e" "H") ":e::H::H*:" ∧
    [1, 0, 0] ∉ reactantQuery number tree (reactantSpec 0 1 "e" "H") ":e::H:" := by
  obtain ⟨-, h⟩ := C114_document numbers doc_eq one
  have h0 := (h 1 [1, 0, 0] (by rw [interactions]; rfl)).1
  constructor
  · rw [show ":e::H::H*:" =
      String.ofList (namesText ([⟨"e", 1, -1⟩, ⟨"H", 2000, 0⟩, ⟨"H*", 2000, 0⟩] : Registry ℝ)) by decide +kernel, ← h0]
    decide +kernel
  · rw [show ":e::H:" = String.ofList (namesText ([⟨"e", 1, -1⟩, ⟨"H", 2000, 0⟩] : Registry ℝ)) by decide +kernel, ← h0]
    decide +kernel

/-- The excitation is in the section `hot`, and not elastic. -/
example : [1, 0, 0] ∈ sectionNodes tree "hot" ∧ [0, 1] ∉ sectionNodes tree "hot" ∧
    runPath number tree (thenEq elasticPath) [1, 0, 0] = [] ∧
    runPath number tree (thenEq (labelPath "inelastic")) [1, 0, 0] ≠ [] := by
  refine ⟨by decide +kernel, by decide +kernel, ?_, ?_⟩
  · by_contra hc
    obtain ⟨e, he, hs⟩ := (C114_elastic_label number (root := tree) (a := [1, 0, 0]) rfl "").1.1 hc
    simp [Xml.named, Xml.hasTag] at he
    subst he
    revert hs
    decide +kernel
  · exact (C114_elastic_label number (root := tree) (a := [1, 0, 0]) rfl "inelastic").2.2
      ⟨by decide +kernel, by simp [Xml.named, Xml.hasTag]⟩

/-- The text for the pair. -/
example : sideQuery "In" (reactantSpec 0 1 "e" "H") = "Eq[count(In/T) = 2]/In/T[string(P)='H' and (number(n)=1 or " ++
    "string(n)='')]/../T[string(P)='e' and (number(n)=1 or string(n)='')]/../../.." := by
  decide +kernel

end XPathExample

open XPathExample in
/-- **C114**  Without the condition of one equation: this interaction is selected for electrons and hydrogen, though
neither of its equations has these reactants and known products. -/
theorem C114_two_equations : [0, 0] ∈ reactantQuery XPathExample.number
    (.elem "ParticleDB" [] [.elem "standard" [] [.elem "Interaction" []
      [.elem "Eq" [] [.elem "In" [] [term "e" "1", term "H" "1"], .elem "Out" [] [term "H*" "1", term "e" "1"]],
       .elem "Eq" [] [.elem "In" [] [term "e" "2"], .elem "Out" [] [term "e" "2"]],
       .elem "cross_section" [] []]]]) (reactantSpec 0 1 "e" "H") ":e::H:" := by
  rw [C114_reactants]
  refine ⟨_, rfl, by decide +kernel, by decide +kernel, ?_, ?_⟩
  · refine ⟨_, List.mem_cons_self, by decide +kernel, _, List.mem_cons_self, ?_⟩
    intro t ht _
    have : t = ⟨"H", 1⟩ ∨ t = ⟨"e", 1⟩ := by
      rw [show reactantSpec 0 1 "e" "H" = [⟨"H", 1⟩, ⟨"e", 1⟩] by decide +kernel] at ht
      simpa using ht
    rcases this with rfl | rfl
    · refine ⟨term "H" "1", by simp [Xml.named, Xml.hasTag, term], ?_⟩
      simp [IsTerm, term, Xml.named, Xml.hasTag, stringOf, Xml.str, Xml.strs, number, parse]
    · refine ⟨term "e" "1", by simp [Xml.named, Xml.hasTag, term], ?_⟩
      simp [IsTerm, term, Xml.named, Xml.hasTag, stringOf, Xml.str, Xml.strs, number, parse]
  · refine ⟨.elem "Eq" [] [.elem "In" [] [term "e" "2"], .elem "Out" [] [term "e" "2"]],
      by simp [Xml.named, Xml.hasTag], .elem "Out" [] [term "e" "2"], by simp [Xml.named, Xml.hasTag],
      ⟨term "e" "2", by simp [Xml.named, Xml.hasTag, term], _, List.mem_cons_self, trivial⟩, ?_⟩
    intro T hT p hp
    simp [Xml.named, Xml.hasTag, term] at hT
    subst hT
    simp [Xml.named, Xml.hasTag] at hp
    subst hp
    decide +kernel

end Chimp
