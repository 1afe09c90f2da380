import Verif.Model.Writer
import Verif.Props.Equation
import Verif.Props.Filter

/-!
# Property C87: written and printed equations

The Python module writes an interaction from two dictionaries; the library reads it, and prints a
loaded equation.  The specification: a dictionary is a list of items with distinct keys (`Dict`);
its terms are listed by increasing mass and name (`Listed`); a term is written as in `termStr`, a
side as its terms with `" + "` between them, an equation as two sides with an arrow between them.
-/

namespace Chimp

variable {K : Type}

/-! ## Specification -/

/-- A dictionary: its items, with distinct keys. -/
def Dict (d : List (String × ℤ)) : Prop := (d.map Prod.fst).Nodup

/-- The items of `d` in increasing order of mass and name. -/
def Listed [LinearOrder K] (mass : String → K) (d l : List (String × ℤ)) : Prop :=
  l.Perm d ∧ l.Pairwise fun a b => mass a.1 < mass b.1 ∨ (mass a.1 = mass b.1 ∧ a.1 < b.1)

/-- A term in text: number if not one, name, and the sources that are given. -/
def termStr (name : String) (n : ℤ) (src : List ℤ) : List Char :=
  (if n = 1 then [] else (Nat.repr n.toNat).toList ++ [' ']) ++ name.toList ++
  (if ∀ i ∈ src, i < 0 then []
   else '[' :: List.intercalate [','] ((src.filter (0 ≤ ·)).map fun i => (Nat.repr i.toNat).toList) ++ [']'])

/-- Terms with `" + "` between them. -/
def sideStr (l : List (List Char)) : List Char := List.intercalate [' ', '+', ' '] l

/-- Two sides with the arrow between them. -/
def arrowStr (a b : List Char) : List Char := a ++ [' ', ' ', '-', '-', '>', ' ', ' '] ++ b

/-- The species written on a side, each once, by increasing mass and name. -/
def Listing [LinearOrder K] (db : Registry K) (l : List TNode) (ps : List (Props K)) : Prop :=
  ps.Pairwise MassNameBefore ∧ (∀ p ∈ ps, p ∈ db) ∧ ∀ x, (∃ p ∈ ps, p.name = x) ↔ ∃ t ∈ l, t.P = x

/-! ## Lemmas -/

theorem joinWith_eq (sep : List Char) : ∀ l : List (List Char), joinWith sep l = List.intercalate sep l
  | [] => rfl
  | [s] => by simp [joinWith, List.intercalate]
  | s :: t :: l => by
    rw [joinWith, joinWith_eq sep (t :: l)]
    simp [List.intercalate, List.intersperse]

section
variable [LinearOrder K]

/-- The items in the order in which they are written. -/
def pyItems (mass : String → K) (d : List (String × ℤ)) : List (String × ℤ) :=
  (sortPartialEq mass d).map fun t => ofLex (ofLex t).2

theorem sortPartialEq_perm (mass : String → K) (d : List (String × ℤ)) :
    (sortPartialEq mass d).Perm (d.map fun i => toLex (mass i.1, toLex (i.1, i.2))) :=
  List.perm_insertionSort _ _

theorem pyItems_listed (mass : String → K) {d : List (String × ℤ)} (hd : Dict d) :
    Listed mass d (pyItems mass d) := by
  have hp := sortPartialEq_perm mass d
  constructor
  · have := hp.map fun t => ofLex (ofLex t).2
    simpa [pyItems, Function.comp_def] using this
  · have hs : (sortPartialEq mass d).Pairwise (· ≤ ·) := List.pairwise_insertionSort _ _
    have hm : ∀ t ∈ sortPartialEq mass d, (ofLex t).1 = mass (ofLex (ofLex t).2).1 := by
      intro t ht
      obtain ⟨i, _, rfl⟩ := List.mem_map.1 (hp.mem_iff.1 ht)
      rfl
    have hn : (sortPartialEq mass d).Pairwise fun a b => (ofLex (ofLex a).2).1 ≠ (ofLex (ofLex b).2).1 := by
      have h1 : ((sortPartialEq mass d).map fun t => (ofLex (ofLex t).2).1).Nodup := by
        refine (hp.map _).nodup_iff.2 ?_
        simpa [Dict, Function.comp_def] using hd
      exact List.pairwise_map.1 h1
    refine List.pairwise_map.2 ?_
    refine List.Pairwise.imp_of_mem ?_ (hs.and hn)
    rintro a b ha hb ⟨hle, hne⟩
    rw [← hm a ha, ← hm b hb]
    rcases Prod.Lex.le_iff.1 hle with h | ⟨h, h'⟩
    · exact .inl h
    · refine .inr ⟨h, ?_⟩
      rcases Prod.Lex.le_iff.1 h' with h2 | ⟨h2, _⟩
      · exact h2
      · exact absurd h2 hne

theorem Listed.unique {mass : String → K} {d d' l l' : List (String × ℤ)} (h : Listed mass d l)
    (h' : Listed mass d' l') (hd : d.Perm d') : l = l' := by
  refine List.Perm.eq_of_pairwise ?_ h.2 h'.2 (h.1.trans (hd.trans h'.1.symm))
  rintro a b _ _ (hab | ⟨hab, hab'⟩) (hba | ⟨hba, hba'⟩)
  · exact absurd (lt_trans hab hba) (lt_irrefl _)
  · exact absurd hba hab.ne'
  · exact absurd hab hba.ne'
  · exact absurd (lt_trans hab' hba') (lt_irrefl _)

end

/-- The node that is read from a written term. -/
def pyNode (i : String × ℤ) : TNode := ⟨i.1, if i.2 > 1 then some i.2 else none, -1, ""⟩

theorem pyTermText_eq (i : String × ℤ) : pyTermText i.1 i.2 = termText (pyNode i) := by
  unfold pyTermText termText pyNode TNode.mult
  split
  · rename_i h
    simp [h]
  · simp

theorem pyTermText_termStr {i : String × ℤ} (h : 1 ≤ i.2) : pyTermText i.1 i.2 = termStr i.1 i.2 [] := by
  unfold pyTermText termStr
  by_cases h1 : i.2 = 1
  · simp [h1]
  · rw [if_pos (by omega), if_neg h1]; simp

theorem sideText_eq : ∀ l : List TNode, sideText l = sideStr (l.map termText)
  | [] => rfl
  | [t] => by simp [sideText, sideStr, List.intercalate]
  | t :: u :: l => by
    rw [sideText, sideText_eq (u :: l)]
    · simp [sideStr, List.intercalate]
    · simp

theorem strs_append (a b : List Xml) : Xml.strs (a ++ b) = Xml.strs a ++ Xml.strs b := by
  induction a with
  | nil => simp [Xml.strs]
  | cons k ks ih => simp [Xml.strs, ih]

theorem pyTerm_str (n : String) (k : ℤ) : (pyTerm n k).str = pyTermText n k := by
  unfold pyTerm pyTermText
  split <;> simp [Xml.str, Xml.strs]

theorem xmlTerms_str : ∀ l : List (String × ℤ),
    Xml.strs (xmlTerms l) = joinWith " + ".toList (l.map fun i => pyTermText i.1 i.2)
  | [] => rfl
  | [t] => by simp [xmlTerms, Xml.strs, joinWith, pyTerm_str]
  | t :: u :: l => by
    simp only [xmlTerms, Xml.strs, pyTerm_str, xmlTerms_str (u :: l), List.map_cons, joinWith]
    simp [Xml.str]

theorem formatPartial_items [LinearOrder K] (mass : String → K) (d : List (String × ℤ)) :
    formatPartial mass d = sideStr ((pyItems mass d).map fun i => pyTermText i.1 i.2) := by
  rw [formatPartial, joinWith_eq, pyItems, List.map_map]
  rfl

theorem xmlPartial_str [LinearOrder K] (mass : String → K) (d : List (String × ℤ)) :
    Xml.strs (xmlPartial mass d) = formatPartial mass d := by
  rw [xmlPartial, xmlTerms_str, joinWith_eq, formatPartial_items]
  rfl

theorem formatPartial_sideText [LinearOrder K] (mass : String → K) (d : List (String × ℤ)) :
    formatPartial mass d = sideText ((pyItems mass d).map pyNode) := by
  rw [formatPartial_items, sideText_eq, List.map_map]
  congr 1
  exact List.map_congr_left fun i _ => pyTermText_eq i

/-- `parse` reads the numbers that Python writes. -/
def ReadsNumbers (parse : List Char → Option ℤ) : Prop :=
  ∀ n : ℕ, parse (Nat.repr n).toList = some (n : ℤ)

theorem readT_pyTerm {parse : List Char → Option ℤ} (hp : ReadsNumbers parse) (i : String × ℤ) :
    readT parse (pyTerm i.1 i.2) = some (pyNode i) := by
  unfold pyTerm pyNode
  split
  · rename_i h
    have hq : parse (Nat.toDigits 10 i.2.toNat) = some i.2 := by
      have := hp i.2.toNat
      rw [Nat.repr, String.toList_ofList] at this
      rw [this, Int.toNat_of_nonneg (by omega)]
    simp [readT, Xml.named, Xml.hasTag, queryInt, Xml.str, Xml.strs, Xml.attr, hq]
  · simp [readT, Xml.named, Xml.hasTag, queryInt, Xml.str, Xml.strs, Xml.attr]

theorem xmlTerms_T : ∀ l : List (String × ℤ),
    (xmlTerms l).filter (Xml.hasTag "T") = l.map fun i => pyTerm i.1 i.2
  | [] => rfl
  | [t] => by
    simp only [xmlTerms, List.map_cons, List.map_nil]
    rw [List.filter_cons_of_pos (by unfold pyTerm; split <;> simp [Xml.hasTag])]
    rfl
  | t :: u :: l => by
    have := xmlTerms_T (u :: l)
    simp only [xmlTerms, List.map_cons] at this ⊢
    rw [List.filter_cons_of_pos (by unfold pyTerm; split <;> simp [Xml.hasTag]),
      List.filter_cons_of_neg (by simp [Xml.hasTag]), this]

theorem mapM_some {α β : Type} (f : α → Option β) (g : α → β) : ∀ l : List α,
    (∀ a ∈ l, f a = some (g a)) → l.mapM f = some (l.map g)
  | [], _ => rfl
  | a :: l, h => by
    rw [List.mapM_cons, h a (by simp), mapM_some f g l (fun b hb => h b (by simp [hb]))]
    rfl

/-! ### Printing -/

section
variable [LinearOrder K]

theorem printIns_last (t : Term) (p : Props K) : ∀ s : List (Props K × Term),
    (∀ e ∈ s, e.1.lt p = true) → printAdd.ins t p s = s ++ [(p, t)]
  | [], _ => rfl
  | (q, u) :: l, h => by
    have hq : q.lt p = true := h (q, u) (by simp)
    rw [printAdd.ins, if_neg (by simp [Props.lt_asymm hq]), if_pos hq,
      printIns_last t p l (fun e he => h e (by simp [he]))]
    rfl

/-- Terms that belong to species of the list, in increasing order. -/
structure TermsOf (db : Registry K) (l : List (Props K × Term)) : Prop where
  sorted : l.Pairwise fun a b => a.1.lt b.1 = true
  mem : ∀ e ∈ l, e.1 ∈ db ∧ e.2.species = findParticleIndx db e.1.name

theorem printAddAll_sorted {db : Registry K} (hnd : NodupNames db) : ∀ l s : List (Props K × Term),
    TermsOf db (s ++ l) → printAddAll db (l.map Prod.snd) s = some (s ++ l)
  | [], s, _ => by simp [printAddAll]
  | (p, t) :: l, s, h => by
    obtain ⟨hp, ht⟩ := h.mem (p, t) (by simp)
    obtain ⟨i, hi, ei⟩ := idx_of_mem hnd hp
    simp only at ht
    have hs : t.species = (i : ℤ) := by rw [ht, ei]
    have hadd : printAdd db t s = some (s ++ [(p, t)]) := by
      unfold printAdd
      rw [if_neg (by omega), hs]
      simp only [Int.toNat_natCast, hi]
      rw [printIns_last]
      intro e he
      exact (List.pairwise_append.1 h.sorted).2.2 e he (p, t) (by simp)
    simp only [List.map_cons, printAddAll, hadd]
    rw [printAddAll_sorted hnd l (s ++ [(p, t)]) (by simpa using h)]
    simp

omit [LinearOrder K] in
theorem Term.print_eq {db : Registry K} (hnd : NodupNames db) {p : Props K} {t : Term} (hp : p ∈ db)
    (hs : t.species = findParticleIndx db p.name) (hn : 0 < t.n) (hl : t.n = (t.src.length : ℤ)) :
    t.print db = some (termStr p.name t.n t.src) := by
  obtain ⟨i, hi, ei⟩ := idx_of_mem hnd hp
  have hs' : t.species = (i : ℤ) := by rw [hs, ei]
  unfold Term.print
  rw [if_neg (by omega), hs']
  simp only [Int.toNat_natCast, hi]
  rw [if_neg (by push Not; exact ⟨hn, hl⟩)]
  unfold termStr
  have h1 : (if t.n > 1 then (Nat.repr t.n.toNat).toList ++ [' '] else []) =
      (if t.n = 1 then [] else (Nat.repr t.n.toNat).toList ++ [' ']) := by
    by_cases h : t.n = 1
    · simp [h]
    · rw [if_pos (by omega), if_neg h]
  have h2 : ((t.src.filter (0 ≤ ·)).map fun i => (Nat.repr i.toNat).toList) = [] ↔ ∀ i ∈ t.src, i < 0 := by
    simp [List.filter_eq_nil_iff]
  rw [h1]
  by_cases h : ∀ i ∈ t.src, i < 0
  · rw [if_pos (h2.2 h), if_pos h]
  · rw [if_neg (mt h2.1 h), if_neg h, joinWith_eq]

theorem printTerms_sorted {db : Registry K} (hnd : NodupNames db) {l : List (Props K × Term)}
    (h : TermsOf db l) (hn : ∀ e ∈ l, 0 < e.2.n ∧ e.2.n = (e.2.src.length : ℤ)) :
    printTerms db (l.map Prod.snd) =
      some (sideStr (l.map fun e => termStr e.1.name e.2.n e.2.src)) := by
  unfold printTerms
  rw [printAddAll_sorted hnd l [] (by simpa using h)]
  simp only [List.nil_append]
  rw [mapM_some _ (fun e : Props K × Term => termStr e.1.name e.2.n e.2.src), Option.map_some, joinWith_eq]
  · rfl
  · intro e he
    exact Term.print_eq hnd (h.mem e he).1 (h.mem e he).2 (hn e he).1 (hn e he).2

theorem termStr_none {name : String} {n : ℤ} {src : List ℤ} (h : ∀ i ∈ src, i < 0) :
    termStr name n src = termStr name n [] := by
  have h' : ∀ i ∈ ([] : List ℤ), i < 0 := by simp
  unfold termStr
  rw [if_pos h, if_pos h']

theorem inputPrint_eq {db : Registry K} (hnd : NodupNames db) {l : List TNode} {el : SideMap K} {A B : Term}
    (hpos : ∀ t ∈ l, 0 < t.mult) (h : loadAndSortTerms db l = .ok (el, 2))
    (hab : inputTerms db el = .ok (A, B)) :
    inputPrint db A B = some (sideStr (el.map fun e => termStr e.1.name (totalMult l e.1.name) [])) := by
  rcases two_particles hnd hpos h with ⟨p, hp, rfl, h2⟩ | ⟨p, q, hp, hq, hlt, rfl, h1, h2⟩
  · have hn : (infoOf l p.name).n = 2 := h2
    simp only [inputTerms, hn] at hab
    norm_num at hab
    obtain ⟨rfl, rfl⟩ := hab
    unfold inputPrint
    rw [if_pos rfl]
    have := printTerms_sorted hnd (l := [(p, Term.many (findParticleIndx db p.name) 2)])
      ⟨by simp, by simp [hp, Term.many]⟩ (by simp [Term.many])
    simp only [List.map_cons, List.map_nil, Term.single] at this ⊢
    rw [this, termStr_none (by simp [Term.many]), h2]
    rfl
  · have hn : (infoOf l p.name).n = 1 := h1
    simp only [inputTerms, hn] at hab
    norm_num at hab
    obtain ⟨rfl, rfl⟩ := hab
    have hne : findParticleIndx db p.name ≠ findParticleIndx db q.name := by
      intro hc
      have := idx_inj hnd hp hq hc
      subst this
      rw [Props.lt_irrefl] at hlt; cases hlt
    unfold inputPrint
    rw [if_neg (by simpa only [Term.single] using hne)]
    have := printTerms_sorted hnd (l := [(p, Term.single (findParticleIndx db p.name)),
        (q, Term.single (findParticleIndx db q.name))])
      ⟨by simp [hlt], by simp [hp, hq, Term.single]⟩ (by simp [Term.single])
    simp only [List.map_cons, List.map_nil] at this ⊢
    rw [this, termStr_none (by simp [Term.single]), termStr_none (name := q.name) (by simp [Term.single]), h1, h2]
    rfl

theorem listing_of_side {db : Registry K} (hnd : NodupNames db) {l : List TNode} {el : SideMap K} {n : ℤ}
    (h : loadAndSortTerms db l = .ok (el, n)) : Listing db l (el.map Prod.fst) := by
  obtain ⟨h1, h2, h3, _⟩ := C10_side_contents hnd l el n h
  refine ⟨List.pairwise_map.2 h1, ?_, ?_⟩
  · intro p hp
    obtain ⟨e, he, rfl⟩ := List.mem_map.1 hp
    exact (h3 e he).1
  · intro x
    rw [← h2 x]
    simp

end

/-! ## C87 -/

/-- **C87**  A loaded equation with positive numbers is printed as: the reactants by increasing mass and
name, each once with its total number; the arrow; the products likewise, each followed by the list of
the sources given for its particles, in document order.  Sources of reactants are not printed. -/
theorem C87_print [LinearOrder K] {db : Registry K} (hnd : NodupNames db) {cs ms : List String}
    {x : EqNode} {e : LEq} (h : loadEq db cs ms x = .ok e)
    (hi : ∀ t ∈ x.ins, 0 < t.mult) (ho : ∀ t ∈ x.outs, 0 < t.mult) :
    ∃ rs ps : List (Props K), Listing db x.ins rs ∧ Listing db x.outs ps ∧
      e.print db = some (arrowStr
        (sideStr (rs.map fun p => termStr p.name (totalMult x.ins p.name) []))
        (sideStr (ps.map fun p => termStr p.name (totalMult x.outs p.name) (srcList x.outs p.name)))) := by
  obtain ⟨ins, outs, nOut, a1, a2, a3, a4, -⟩ := loadEq_ok h
  refine ⟨ins.map Prod.fst, outs.map Prod.fst, listing_of_side hnd a1, listing_of_side hnd a2, ?_⟩
  have hprod : _ = e.products := Except.ok.inj ((outputTerms_loaded hnd a2).symm.trans a4)
  obtain ⟨h1, h2, h3, _⟩ := C10_side_contents hnd _ _ _ a2
  have hp := printTerms_sorted hnd (l := outs.map fun e : Props K × TermInfo =>
      (e.1, (⟨findParticleIndx db e.1.name, e.2.n, e.2.src, e.2.ops⟩ : Term)))
    ⟨List.pairwise_map.2 (h1.imp fun hab => (Props.lt_iff _ _).2 hab), ?_⟩ ?_
  · unfold LEq.print
    rw [inputPrint_eq hnd hi a1 a3]
    rw [List.map_map] at hp
    have hp' : printTerms db e.products = _ := hprod ▸ hp
    rw [hp']
    simp only [arrowStr, List.map_map]
    refine congrArg some (congrArg₂ _ rfl (congrArg sideStr (List.map_congr_left ?_)))
    intro d hd
    obtain ⟨_, b, c, _⟩ := h3 d hd
    simp only [Function.comp_apply, b, c]
  · intro d hd
    obtain ⟨e', he', rfl⟩ := List.mem_map.1 hd
    exact ⟨(h3 e' he').1, rfl⟩
  · intro d hd
    obtain ⟨e', he', rfl⟩ := List.mem_map.1 hd
    obtain ⟨_, b, _, _, c, _⟩ := h3 e' he'
    refine ⟨?_, c.symm⟩
    simp only [b]
    exact (totalMult_pos_iff ho _).2 ((h2 _).1 ⟨e', he', rfl⟩)

/-- Terms of one species are merged, their sources are listed, and reactant sources are left out. -/
example : (loadEq exDB ["vhs"] ["elastic", "inelastic"]
    ⟨[⟨"Ar", none, 1, ""⟩, ⟨"e", none, 0, ""⟩],
      [⟨"Ar", none, 1, ""⟩, ⟨"e", none, 0, ""⟩, ⟨"H", some 3, -1, ""⟩, ⟨"e", some 2, 1, ""⟩],
      "vhs", none⟩).toOption.map (fun e => e.print exDB) =
    some (some "e + Ar  -->  3 e[0,1,1] + 3 H + Ar[1]".toList) := by decide +kernel

/-- **C87** (finding)  An equation with a product of number zero loads, but printing it fails an
assertion. -/
theorem C87_print_zero : ∃ e, loadEq exDB ["vhs"] ["elastic", "inelastic"]
    ⟨[⟨"H", none, -1, ""⟩, ⟨"e", none, -1, ""⟩], [⟨"H", none, -1, ""⟩, ⟨"e", some 0, -1, ""⟩], "vhs", none⟩ = .ok e ∧
    e.print exDB = none := by
  refine ⟨⟨Term.single 0, Term.single 1, [⟨0, 0, [], []⟩, ⟨1, 1, [-1], [""]⟩], "vhs", "inelastic"⟩, ?_, by decide +kernel⟩
  rfl

/-! ### The written element -/

/-- Children of an interaction other than the equation: one cross section, of the given model. -/
def DataNodes (data : List Xml) (c : String) : Prop :=
  data.filter (Xml.hasTag "Eq") = [] ∧
  ∃ x, data.filter (Xml.hasTag "cross_section") = [x] ∧ x.attr "model" = some c

/-- Interactions as the two Python classes write them, with one cross section of model `c`. -/
inductive PyWritten [LinearOrder K] (mass : String → K) (lhs rhs : List (String × ℤ)) (c : String) :
    Option String → Xml → Prop
  | plain (data : List Xml) (h : DataNodes data c) :
      PyWritten mass lhs rhs c none (pyInteraction mass lhs rhs data)
  | vss (data : List Xml) (h : DataNodes data c) (param : String) (ref : Option (String × Option String)) :
      PyWritten mass lhs rhs c (some "vss_elastic")
        (pyVSSInteraction mass lhs rhs data param (ref.map fun r => pyReference r.1 r.2))

/-- **C87**  The two cross section classes of the Python module are such children, of models `data` and
`vhs`. -/
theorem C87_data (xs ys v t w : String) (d : List (String × String)) (ref : Option Xml) :
    DataNodes [pyData xs ys d ref] "data" ∧ DataNodes [pyVHS v t w ref] "vhs" := by
  refine ⟨⟨?_, _, rfl, ?_⟩, ⟨?_, _, rfl, ?_⟩⟩ <;> simp [pyData, pyVHS, Xml.hasTag, Xml.attr]

/-- **C87**  The `cross_section` elements written by the two classes hold what the objects hold: the scales of each
column under its own name and one `val` element for every point, in the order of the list, with its own two
coordinates; for the other class the value, the reference temperature and the exponent, each under its own name, once. -/
theorem C87_values (xs ys v t w : String) (d : List (String × String)) (ref : Option (String × Option String)) :
    let r := ref.map fun r => pyReference r.1 r.2
    (pyData xs ys d r).attr "xscale" = some xs ∧ (pyData xs ys d r).attr "yscale" = some ys ∧
    ((pyData xs ys d r).named "val").map (fun c => (c.attr "x", c.attr "y")) = d.map (fun i => (some i.1, some i.2)) ∧
    ((pyVHS v t w r).named "value").map Xml.str = [v.toList] ∧
    ((pyVHS v t w r).named "T_ref").map Xml.str = [t.toList] ∧
    ((pyVHS v t w r).named "visc_T_law").map Xml.str = [w.toList] := by
  refine ⟨by simp [pyData, Xml.attr, List.lookup_cons], by simp [pyData, Xml.attr, List.lookup_cons], ?_, ?_, ?_, ?_⟩
  · have h1 : (d.map fun d => Xml.elem "val" [("x", d.1), ("y", d.2)] []).filter (Xml.hasTag "val") =
        d.map fun d => Xml.elem "val" [("x", d.1), ("y", d.2)] [] :=
      List.filter_eq_self.2 fun c hc => by
        obtain ⟨i, -, rfl⟩ := List.mem_map.1 hc
        simp [Xml.hasTag]
    cases ref <;>
      simp [pyData, pyReference, Xml.named, Xml.hasTag, List.filter_append, h1, Xml.attr, List.lookup_cons]
  all_goals cases ref <;> simp [pyVHS, pyReference, Xml.named, Xml.hasTag, Xml.str, Xml.strs]

theorem PyWritten.parts [LinearOrder K] {mass : String → K} {lhs rhs : List (String × ℤ)} {c : String}
    {m : Option String} {x : Xml} (h : PyWritten mass lhs rhs c m x) :
    x.named "Eq" = [pyEqXml mass lhs rhs] ∧ x.attr "model" = m ∧
    ∃ y, x.named "cross_section" = [y] ∧ y.attr "model" = some c := by
  cases h with
  | plain data h =>
    obtain ⟨h1, y, h2, h3⟩ := h
    refine ⟨?_, rfl, y, ?_, h3⟩
    · simp only [pyInteraction, Xml.named]
      rw [List.filter_cons_of_pos (by simp [pyEqXml, Xml.hasTag]), h1]
    · simp only [pyInteraction, Xml.named]
      rw [List.filter_cons_of_neg (by simp [pyEqXml, Xml.hasTag]), h2]
  | vss data h param ref =>
    obtain ⟨h1, y, h2, h3⟩ := h
    have key : ∀ t, (t == "vss_param_inv") = false → (t == "reference") = false →
        (([.elem "vss_param_inv" [] [.text param]] : List Xml) ++
          (ref.map fun r => pyReference r.1 r.2).toList).filter (Xml.hasTag t) = [] := by
      intro t ht ht'
      have e1 : ("vss_param_inv" == t) = false := by rw [beq_eq_false_iff_ne] at ht ⊢; exact ht.symm
      have e2 : ("reference" == t) = false := by rw [beq_eq_false_iff_ne] at ht' ⊢; exact ht'.symm
      cases ref <;> simp only [Option.map_none, Option.map_some, Option.toList_none, Option.toList_some,
        List.cons_append, List.nil_append, List.filter_cons, Xml.hasTag, pyReference, e1, e2, List.filter_nil] <;> rfl
    refine ⟨?_, by simp [pyVSSInteraction, Xml.attr], y, ?_, h3⟩
    · simp only [pyVSSInteraction, Xml.named, List.cons_append, List.append_assoc]
      rw [List.filter_cons_of_pos (by simp [pyEqXml, Xml.hasTag]), List.filter_append, h1]
      have := key "Eq" (by decide) (by decide)
      simp only [List.cons_append, List.nil_append] at this ⊢
      rw [this]
    · simp only [pyVSSInteraction, Xml.named, List.cons_append, List.append_assoc]
      rw [List.filter_cons_of_neg (by simp [pyEqXml, Xml.hasTag]), List.filter_append, h2]
      have := key "cross_section" (by decide) (by decide)
      simp only [List.cons_append, List.nil_append] at this ⊢
      rw [this]

section
variable [LinearOrder K]

theorem pyEqXml_str (mass : String → K) (lhs rhs : List (String × ℤ)) :
    (pyEqXml mass lhs rhs).str = pyEqText mass lhs rhs := by
  simp [pyEqXml, Xml.str, Xml.strs, xmlPartial_str, pyEqText]

theorem eqString_written {mass : String → K} {lhs rhs : List (String × ℤ)} {c : String}
    {m : Option String} {x : Xml} (h : PyWritten mass lhs rhs c m x) :
    eqString x = pyEqText mass lhs rhs := by
  rw [eqString, h.parts.1]
  exact pyEqXml_str _ _ _

theorem read_items {mass : String → K} {lhs rhs : List (String × ℤ)} {c : String}
    {m : Option String} {x : Xml} (h : PyWritten mass lhs rhs c m x) {parse : List Char → Option ℤ}
    (hp : ReadsNumbers parse) :
    readInteraction parse x = some ⟨(pyItems mass lhs).map pyNode, (pyItems mass rhs).map pyNode, c, m⟩ := by
  obtain ⟨h1, h2, y, h3, h4⟩ := h.parts
  have side : ∀ l : List (String × ℤ), (l.map fun i => pyTerm i.1 i.2).mapM (readT parse) = some (l.map pyNode) := by
    intro l
    rw [List.mapM_map]
    exact mapM_some _ _ _ (fun i _ => readT_pyTerm hp i)
  have hin : readSide parse "In" x = some ((pyItems mass lhs).map pyNode) := by
    have e : ((pyEqXml mass lhs rhs).named "In") = [.elem "In" [] (xmlPartial mass lhs)] := by
      simp [pyEqXml, Xml.named, Xml.hasTag]
    rw [readSide, h1]
    simp only [List.flatMap_cons, List.flatMap_nil, e, List.append_nil]
    simp only [Xml.named, xmlPartial, xmlTerms_T]
    exact side _
  have hout : readSide parse "Out" x = some ((pyItems mass rhs).map pyNode) := by
    have e : ((pyEqXml mass lhs rhs).named "Out") = [.elem "Out" [] (xmlPartial mass rhs)] := by
      simp [pyEqXml, Xml.named, Xml.hasTag]
    rw [readSide, h1]
    simp only [List.flatMap_cons, List.flatMap_nil, e, List.append_nil]
    simp only [Xml.named, xmlPartial, xmlTerms_T]
    exact side _
  unfold readInteraction
  rw [hin, hout, h3, h2]
  simp only [h4]

end

/-- **C87**  What the library reads from a written interaction: one node for every entry of the
dictionaries, by increasing mass and name, without sources and operations and with the number of the
entry, left out when it is one; the model of the cross section; and the interaction model of the
class. -/
theorem C87_read [LinearOrder K] {mass : String → K} {lhs rhs : List (String × ℤ)} (hl : Dict lhs)
    (hr : Dict rhs) {c : String} {m : Option String} {x : Xml} (h : PyWritten mass lhs rhs c m x)
    {parse : List Char → Option ℤ} (hp : ReadsNumbers parse) :
    ∃ li ri, Listed mass lhs li ∧ Listed mass rhs ri ∧
      readInteraction parse x = some ⟨li.map fun i => ⟨i.1, if i.2 > 1 then some i.2 else none, -1, ""⟩,
        ri.map fun i => ⟨i.1, if i.2 > 1 then some i.2 else none, -1, ""⟩, c, m⟩ :=
  ⟨_, _, pyItems_listed mass hl, pyItems_listed mass hr, read_items h hp⟩

/-- The text of an equation given by two dictionaries. -/
def DictText [LinearOrder K] (mass : String → K) (lhs rhs : List (String × ℤ)) (text : List Char) : Prop :=
  ∃ li ri, Listed mass lhs li ∧ Listed mass rhs ri ∧
    text = arrowStr (sideStr (li.map fun i => termStr i.1 i.2 [])) (sideStr (ri.map fun i => termStr i.1 i.2 []))

theorem DictText.unique [LinearOrder K] {mass : String → K} {lhs rhs lhs' rhs' : List (String × ℤ)}
    {s t : List Char} (h : DictText mass lhs rhs s) (h' : DictText mass lhs' rhs' t) (hl : lhs.Perm lhs')
    (hr : rhs.Perm rhs') : s = t := by
  obtain ⟨a, b, ha, hb, rfl⟩ := h
  obtain ⟨a', b', ha', hb', rfl⟩ := h'
  rw [ha.unique ha' hl, hb.unique hb' hr]

theorem dictText_py [LinearOrder K] (mass : String → K) {lhs rhs : List (String × ℤ)} (hl : Dict lhs)
    (hr : Dict rhs) (pl : ∀ i ∈ lhs, 1 ≤ i.2) (pr : ∀ i ∈ rhs, 1 ≤ i.2) :
    DictText mass lhs rhs (pyEqText mass lhs rhs) := by
  have a := pyItems_listed mass hl
  have b := pyItems_listed mass hr
  refine ⟨_, _, a, b, ?_⟩
  rw [pyEqText, formatPartial_items, formatPartial_items]
  have e : ∀ {d l : List (String × ℤ)}, Listed mass d l → (∀ i ∈ d, 1 ≤ i.2) →
      (l.map fun i => pyTermText i.1 i.2) = l.map fun i => termStr i.1 i.2 [] := by
    intro d l h hd
    exact List.map_congr_left fun i hi => pyTermText_termStr (hd i (h.1.mem_iff.1 hi))
  rw [e a pl, e b pr]
  rfl

/-- **C87**  The text of a written equation, in Python and in the XML, does not depend on the order of
the dictionaries: terms by increasing mass and name, numbers other than one before the name. -/
theorem C87_text [LinearOrder K] {mass : String → K} {lhs rhs : List (String × ℤ)} (hl : Dict lhs)
    (hr : Dict rhs) (pl : ∀ i ∈ lhs, 1 ≤ i.2) (pr : ∀ i ∈ rhs, 1 ≤ i.2) :
    DictText mass lhs rhs (pyEqText mass lhs rhs) ∧
    ∀ c m x, PyWritten mass lhs rhs c m x → DictText mass lhs rhs (eqString x) := by
  refine ⟨dictText_py mass hl hr pl pr, fun c m x h => ?_⟩
  rw [eqString_written h]
  exact dictText_py mass hl hr pl pr

/-! ### Loading what was written -/

theorem nodesOf_dict : ∀ {l : List (String × ℤ)}, Dict l → ∀ {s : String} {n : ℤ}, (s, n) ∈ l →
    nodesOf (l.map pyNode) s = [pyNode (s, n)]
  | [], _, s, n, h => by simp at h
  | (u, k) :: l, hd, s, n, h => by
    have hd' : u ∉ l.map Prod.fst ∧ (l.map Prod.fst).Nodup := List.nodup_cons.1 hd
    by_cases hu : u = s
    · subst hu
      have hk : k = n := by
        rcases List.mem_cons.1 h with h | h
        · exact ((Prod.mk.inj h).2).symm
        · exact absurd (List.mem_map.2 ⟨_, h, rfl⟩) hd'.1
      subst hk
      have : nodesOf (l.map pyNode) u = [] := by
        rw [nodesOf, List.filter_eq_nil_iff]
        intro t ht hc
        obtain ⟨i, hi, rfl⟩ := List.mem_map.1 ht
        refine hd'.1 (List.mem_map.2 ⟨i, hi, ?_⟩)
        simpa [pyNode] using hc
      rw [List.map_cons, nodesOf, List.filter_cons_of_pos (by simp [pyNode])]
      exact congrArg _ this
    · have h' : (s, n) ∈ l := by
        rcases List.mem_cons.1 h with h | h
        · exact absurd (Prod.mk.inj h).1.symm hu
        · exact h
      rw [List.map_cons, nodesOf, List.filter_cons_of_neg (by simpa [pyNode] using hu)]
      exact nodesOf_dict hd'.2 h'

theorem pyNode_mult {i : String × ℤ} (h : 1 ≤ i.2) : (pyNode i).mult = i.2 := by
  unfold pyNode TNode.mult
  by_cases h1 : i.2 > 1
  · rw [if_pos h1]; rfl
  · rw [if_neg h1]; simp only [Option.getD_none]; omega

theorem infoOf_dict {l : List (String × ℤ)} (hd : Dict l) (hp : ∀ i ∈ l, 1 ≤ i.2) {s : String} {n : ℤ}
    (h : (s, n) ∈ l) : totalMult (l.map pyNode) s = n ∧
      srcList (l.map pyNode) s = List.replicate n.toNat (-1) ∧
      opsList (l.map pyNode) s = List.replicate n.toNat "" := by
  have hm := pyNode_mult (hp _ h)
  simp only at hm
  refine ⟨?_, ?_, ?_⟩
  · rw [totalMult, nodesOf_dict hd h]; simp [hm]
  · rw [srcList, nodesOf_dict hd h]; simp only [List.flatMap_cons, List.flatMap_nil, List.append_nil, hm]; rfl
  · rw [opsList, nodesOf_dict hd h]; simp only [List.flatMap_cons, List.flatMap_nil, List.append_nil, hm]; rfl

theorem mem_dict_iff {l : List (String × ℤ)} (hd : Dict l) (hp : ∀ i ∈ l, 1 ≤ i.2) {s : String} {n : ℤ} :
    (s, n) ∈ l ↔ (∃ t ∈ l.map pyNode, t.P = s) ∧ totalMult (l.map pyNode) s = n := by
  constructor
  · intro h
    exact ⟨⟨pyNode (s, n), List.mem_map.2 ⟨_, h, rfl⟩, rfl⟩, (infoOf_dict hd hp h).1⟩
  · rintro ⟨⟨t, ht, rfl⟩, rfl⟩
    obtain ⟨⟨u, k⟩, hi, rfl⟩ := List.mem_map.1 ht
    have := (infoOf_dict hd hp hi).1
    simp only [pyNode] at this ⊢
    rw [this]
    exact hi

theorem Dict.nodup {l : List (String × ℤ)} (h : Dict l) : l.Nodup := List.Nodup.of_map _ h

theorem Dict.perm {l m : List (String × ℤ)} (h : Dict l) (hp : m.Perm l) : Dict m :=
  (hp.map _).nodup_iff.2 h

theorem expandNames_dict {l : List (String × ℤ)} (hp : ∀ i ∈ l, 1 ≤ i.2) :
    expandNames (l.map pyNode) = l.flatMap fun i => List.replicate i.2.toNat i.1 := by
  unfold expandNames
  rw [List.flatMap_map]
  refine List.flatMap_congr fun i hi => ?_
  rw [pyNode_mult (hp i hi)]
  rfl

theorem sameSides_dict {l r : List (String × ℤ)} (hl : Dict l) (hr : Dict r) (pl : ∀ i ∈ l, 1 ≤ i.2)
    (pr : ∀ i ∈ r, 1 ≤ i.2) {c : String} {m : Option String} :
    SameSides ⟨l.map pyNode, r.map pyNode, c, m⟩ ↔ l.Perm r := by
  constructor
  · intro h
    rw [List.perm_ext_iff_of_nodup hl.nodup hr.nodup]
    rintro ⟨s, n⟩
    obtain ⟨h1, h2, _⟩ := h s
    rw [mem_dict_iff hl pl, mem_dict_iff hr pr]
    simp only at h1 h2
    rw [h1, h2]
  · intro h s
    have hn : ∀ t : TNode, t ∈ l.map pyNode ↔ t ∈ r.map pyNode := fun t => (h.map _).mem_iff
    refine ⟨by simp only [hn], ?_⟩
    by_cases hs : ∃ n, (s, n) ∈ l
    · obtain ⟨n, hs⟩ := hs
      obtain ⟨a, b, c⟩ := infoOf_dict hl pl hs
      obtain ⟨a', b', c'⟩ := infoOf_dict hr pr (h.mem_iff.1 hs)
      exact ⟨a.trans a'.symm, b.trans b'.symm, c.trans c'.symm⟩
    · have e1 : ∀ t ∈ l.map pyNode, t.P ≠ s := by
        rintro t ht rfl
        obtain ⟨i, hi, rfl⟩ := List.mem_map.1 ht
        exact hs ⟨i.2, hi⟩
      have e2 : ∀ t ∈ r.map pyNode, t.P ≠ s := fun t ht => e1 t ((hn t).2 ht)
      have := (infoOf_absent e1).trans (infoOf_absent e2).symm
      simp only [infoOf, TermInfo.mk.injEq] at this
      exact this

/-- The species of a dictionary are loaded, with the masses that Python uses. -/
def Known (db : Registry K) (mass : String → K) (d : List (String × ℤ)) : Prop :=
  ∀ i ∈ d, ∃ p ∈ db, p.name = i.1 ∧ p.mass = mass i.1

theorem listing_items [LinearOrder K] {db : Registry K} (hnd : NodupNames db) {mass : String → K}
    {d l : List (String × ℤ)} (hd : Dict d) (hp : ∀ i ∈ d, 1 ≤ i.2) (hk : Known db mass d)
    (hl : Listed mass d l) {ps : List (Props K)} (h : Listing db (l.map pyNode) ps) :
    (ps.map fun p => (p.name, totalMult (l.map pyNode) p.name)) = l := by
  have hdl := hd.perm hl.1
  have hpl : ∀ i ∈ l, 1 ≤ i.2 := fun i hi => hp i (hl.1.mem_iff.1 hi)
  obtain ⟨h1, h2, h3⟩ := h
  have hmass : ∀ p ∈ ps, p.mass = mass p.name := by
    intro p hpp
    obtain ⟨t, ht, hn⟩ := (h3 p.name).1 ⟨p, hpp, rfl⟩
    obtain ⟨i, hi, rfl⟩ := List.mem_map.1 ht
    obtain ⟨q, hq, e1, e2⟩ := hk i (hl.1.mem_iff.1 hi)
    have : p = q := nodupNames_inj hnd (h2 p hpp) hq (hn.symm.trans e1.symm)
    rw [this, e2, e1]
  have hpw : (ps.map fun p => (p.name, totalMult (l.map pyNode) p.name)).Pairwise
      fun a b => mass a.1 < mass b.1 ∨ (mass a.1 = mass b.1 ∧ a.1 < b.1) := by
    refine List.pairwise_map.2 (h1.imp_of_mem ?_)
    intro a b ha hb hab
    simp only
    rw [← hmass a ha, ← hmass b hb]
    exact hab
  refine Listed.unique (mass := mass) ⟨?_, hpw⟩ hl (List.Perm.refl d)
  refine List.Perm.trans ?_ hl.1
  rw [List.perm_ext_iff_of_nodup _ hdl.nodup]
  · rintro ⟨s, n⟩
    rw [mem_dict_iff hdl hpl, ← h3 s]
    simp only [List.mem_map, Prod.mk.injEq]
    constructor
    · rintro ⟨p, hpp, rfl, e⟩
      exact ⟨⟨p, hpp, rfl⟩, e⟩
    · rintro ⟨⟨p, hpp, rfl⟩, e⟩
      exact ⟨p, hpp, rfl, e⟩
  · refine List.Pairwise.imp ?_ hpw
    rintro a b (hab | hab) rfl
    · exact lt_irrefl _ hab
    · exact lt_irrefl _ hab.2

/-- **C87**  An interaction written for dictionaries with positive numbers, two reactant particles, and
known species loads.  Its reactants are the two particles of the first dictionary, lighter first; its
products are the entries of the second, without sources, by increasing mass and name; the interaction
model is that of the class, or else elastic exactly if the two dictionaries are the same; and it is
printed as the text that Python prints. -/
theorem C87_loads [LinearOrder K] {db : Registry K} (hnd : NodupNames db) {mass : String → K}
    {lhs rhs : List (String × ℤ)} (hl : Dict lhs) (hr : Dict rhs) (pl : ∀ i ∈ lhs, 1 ≤ i.2)
    (pr : ∀ i ∈ rhs, 1 ≤ i.2) (kl : Known db mass lhs) (kr : Known db mass rhs)
    (h2 : (lhs.map Prod.snd).sum = 2) {cs ms : List String} {c : String} (hc : c ∈ cs)
    (hms : ∀ m ∈ ["elastic", "inelastic", "vss_elastic"], m ∈ ms)
    {parse : List Char → Option ℤ} (hp : ReadsNumbers parse) {m : Option String} {x : Xml}
    (h : PyWritten mass lhs rhs c m x) :
    ∃ n e, readInteraction parse x = some n ∧ loadEq db cs ms n = .ok e ∧
      (∃ p q, p ∈ db ∧ q ∈ db ∧ (p = q ∨ MassNameBefore p q) ∧
        (lhs.flatMap fun i => List.replicate i.2.toNat i.1).Perm [p.name, q.name] ∧
        e.A = Term.single (findParticleIndx db p.name) ∧ e.B = Term.single (findParticleIndx db q.name)) ∧
      (∃ ri, Listed mass rhs ri ∧
        e.products = ri.map fun i => Term.many (findParticleIndx db i.1) i.2.toNat) ∧
      e.csModel = c ∧ (∀ w, m = some w → e.model = w) ∧
      (m = none → lhs.Perm rhs → e.model = "elastic") ∧
      (m = none → ¬ lhs.Perm rhs → e.model = "inelastic") ∧
      e.print db = some (pyEqText mass lhs rhs) := by
  have hli := pyItems_listed mass hl
  have hri := pyItems_listed mass hr
  have hr1 := read_items h hp
  generalize pyItems mass lhs = li at hli hr1
  generalize pyItems mass rhs = ri at hri hr1
  have dl := hl.perm hli.1
  have dr := hr.perm hri.1
  have pl' : ∀ i ∈ li, 1 ≤ i.2 := fun i hi => pl i (hli.1.mem_iff.1 hi)
  have pr' : ∀ i ∈ ri, 1 ≤ i.2 := fun i hi => pr i (hri.1.mem_iff.1 hi)
  have posl : ∀ t ∈ li.map pyNode, 0 < t.mult := by
    intro t ht
    obtain ⟨i, hi, rfl⟩ := List.mem_map.1 ht
    have := pl' i hi
    rw [pyNode_mult this]; omega
  have posr : ∀ t ∈ ri.map pyNode, 0 < t.mult := by
    intro t ht
    obtain ⟨i, hi, rfl⟩ := List.mem_map.1 ht
    have := pr' i hi
    rw [pyNode_mult this]; omega
  have hexp := expandNames_dict pl'
  have hlen : (expandNames (li.map pyNode)).length = 2 := by
    have e1 := length_expandNames (l := li.map pyNode) fun t ht => (posl t ht).le
    have e2 : ((li.map pyNode).map TNode.mult).sum = (li.map Prod.snd).sum := by
      rw [List.map_map]
      exact congrArg _ (List.map_congr_left fun i hi => pyNode_mult (pl' i hi))
    have e3 := (hli.1.map Prod.snd).sum_eq
    rw [e2, e3, h2] at e1
    exact_mod_cast e1
  have hm' : m = none ∨ m = some "vss_elastic" := by
    cases h
    · exact .inl rfl
    · exact .inr rfl
  obtain ⟨e, he⟩ := (C12_binary_iff hnd (cs := cs) (ms := ms) (x := ⟨li.map pyNode, ri.map pyNode, c, m⟩)
    (fun t ht => ⟨posl t ht, by
      obtain ⟨i, hi, rfl⟩ := List.mem_map.1 ht
      obtain ⟨p, hp1, hp2, _⟩ := kl i (hli.1.mem_iff.1 hi)
      exact ⟨p, hp1, hp2⟩⟩)
    (fun t ht => ⟨(posr t ht).le, by
      obtain ⟨i, hi, rfl⟩ := List.mem_map.1 ht
      obtain ⟨p, hp1, hp2, _⟩ := kr i (hri.1.mem_iff.1 hi)
      exact ⟨p, hp1, hp2⟩⟩) hc
    (by
      intro w hw
      apply hms
      rcases hm' with rfl | rfl
      · simp only [Option.getD_none, List.mem_cons, List.not_mem_nil, or_false] at hw ⊢
        tauto
      · simp only [Option.getD_some, List.mem_cons, List.not_mem_nil, or_false] at hw ⊢
        tauto)).1.2 hlen
  have hperm : li.Perm ri ↔ lhs.Perm rhs :=
    ⟨fun w => hli.1.symm.trans (w.trans hri.1), fun w => hli.1.trans (w.trans hri.1.symm)⟩
  obtain ⟨m1, m2, m3, _, m5, _⟩ := C13_model_choice hnd he
  refine ⟨_, e, hr1, he, ?_, ⟨ri, hri, ?_⟩, m5, m1, ?_, ?_, ?_⟩
  · obtain ⟨p, q, hp1, hq1, hpm, hb, hA, hB⟩ := C12_reactants hnd posl he
    refine ⟨p, q, hp1, hq1, hb, ?_, hA, hB⟩
    simp only at hpm
    rw [hexp] at hpm
    exact (List.Perm.flatMap_right _ hli.1.symm).trans hpm
  · obtain ⟨ins, outs, nOut, -, a2, -, a4, -⟩ := loadEq_ok he
    have hprod : _ = e.products := Except.ok.inj ((outputTerms_loaded hnd a2).symm.trans a4)
    have hlist := listing_items hnd hr pr kr hri (listing_of_side hnd a2)
    obtain ⟨-, -, h3, -⟩ := C10_side_contents hnd _ _ _ a2
    rw [← hprod]
    conv_rhs => rw [← hlist]
    rw [List.map_map, List.map_map]
    refine List.map_congr_left fun d hd => ?_
    obtain ⟨-, b1, b2, b3, -⟩ := h3 d hd
    simp only at b1 b2 b3
    have hmem : (d.1.name, d.2.n) ∈ ri := by
      rw [← hlist, List.map_map, b1]
      exact List.mem_map.2 ⟨d, hd, rfl⟩
    obtain ⟨c1, c2, c3⟩ := infoOf_dict dr pr' hmem
    have hpos := pr' _ hmem
    simp only at hpos
    simp only [Function.comp_apply, Term.many, c1, b2, b3, c2, c3, Term.mk.injEq, true_and, and_true]
    omega
  · intro w1 w2; exact m2 w1 ((sameSides_dict dl dr pl' pr').2 (hperm.2 w2))
  · intro w1 w2; exact m3 w1 (mt (fun w => hperm.1 ((sameSides_dict dl dr pl' pr').1 w)) w2)
  · obtain ⟨rs, ps, h5, h6, h7⟩ := C87_print hnd he posl posr
    rw [h7]
    have l1 := listing_items hnd hl pl kl hli h5
    have l2 := listing_items hnd hr pr kr hri h6
    have g1 : DictText mass lhs rhs (arrowStr (sideStr (li.map fun i => termStr i.1 i.2 []))
        (sideStr (ri.map fun i => termStr i.1 i.2 []))) := ⟨li, ri, hli, hri, rfl⟩
    rw [← g1.unique (dictText_py mass hl hr pl pr) (List.Perm.refl _) (List.Perm.refl _)]
    simp only
    refine congrArg some (congrArg₂ _ (congrArg sideStr ?_) (congrArg sideStr ?_))
    · conv_rhs => rw [← l1]
      rw [List.map_map]; rfl
    · conv_rhs => rw [← l2]
      rw [List.map_map]
      refine List.map_congr_left fun p hpp => ?_
      have hmem := List.mem_map_of_mem (f := fun p : Props K => (p.name, totalMult (ri.map pyNode) p.name)) hpp
      rw [l2] at hmem
      rw [(infoOf_dict dr pr' hmem).2.1, termStr_none (by simp)]
      rfl

/-! ### Looking up by text -/

/-- A dictionary with unambiguous names and positive numbers. -/
def PlainDict (d : List (String × ℤ)) : Prop := Dict d ∧ ∀ i ∈ d, PlainName i.1 ∧ 1 ≤ i.2

section
variable [LinearOrder K]

theorem plainSide_items {mass : String → K} {d : List (String × ℤ)} (h : PlainDict d) :
    PlainSide ((pyItems mass d).map pyNode) := by
  intro t ht
  obtain ⟨i, hi, rfl⟩ := List.mem_map.1 ht
  obtain ⟨a, b⟩ := h.2 i ((pyItems_listed mass h.1).1.mem_iff.1 hi)
  exact ⟨a, by rw [pyNode_mult b]; exact b⟩

theorem items_eq {l m : List (String × ℤ)} (hl : ∀ i ∈ l, 1 ≤ i.2) (hm : ∀ i ∈ m, 1 ≤ i.2)
    (h : List.Forall₂ SameTerm (l.map pyNode) (m.map pyNode)) : l = m := by
  induction l generalizing m with
  | nil =>
    cases m with
    | nil => rfl
    | cons b m => cases h
  | cons a l ih =>
    cases m with
    | nil => cases h
    | cons b m =>
      simp only [List.map_cons] at h
      cases h with
      | cons h1 h2 =>
        have e1 := h1.1
        have e2 := h1.2.1
        rw [pyNode_mult (hl a (by simp)), pyNode_mult (hm b (by simp))] at e2
        rw [ih (fun i hi => hl i (by simp [hi])) (fun i hi => hm i (by simp [hi])) h2,
          Prod.ext (show a.1 = b.1 from e1) e2]

theorem items_perm {mass : String → K} {d e : List (String × ℤ)} (hd : PlainDict d) (he : PlainDict e)
    (h : List.Forall₂ SameTerm ((pyItems mass d).map pyNode) ((pyItems mass e).map pyNode)) : d.Perm e := by
  have a := (pyItems_listed mass hd.1).1
  have b := (pyItems_listed mass he.1).1
  have := items_eq (fun i hi => (hd.2 i (a.mem_iff.1 hi)).2) (fun i hi => (he.2 i (b.mem_iff.1 hi)).2) h
  exact a.symm.trans (this ▸ b)

/-- **C87**  For unambiguous names, two equations have the same text exactly if they have the same
dictionaries. -/
theorem C87_text_identifies {mass : String → K} {l r l' r' : List (String × ℤ)} (hl : PlainDict l)
    (hr : PlainDict r) (hl' : PlainDict l') (hr' : PlainDict r') :
    pyEqText mass l r = pyEqText mass l' r' ↔ l.Perm l' ∧ r.Perm r' := by
  constructor
  · intro h
    have e : ∀ l r : List (String × ℤ), pyEqText mass l r =
        eqText ⟨(pyItems mass l).map pyNode, (pyItems mass r).map pyNode, "", "", true, "", none⟩ := by
      intro l r
      rw [pyEqText, formatPartial_sideText, formatPartial_sideText]
      rfl
    rw [e, e, C25_text_identifies _ _ ⟨plainSide_items hl, plainSide_items hr⟩
      ⟨plainSide_items hl', plainSide_items hr'⟩] at h
    exact ⟨items_perm hl hl' h.1, items_perm hr hr' h.2⟩
  · rintro ⟨h1, h2⟩
    exact (dictText_py mass hl.1 hr.1 (fun i hi => (hl.2 i hi).2) (fun i hi => (hr.2 i hi).2)).unique
      (dictText_py mass hl'.1 hr'.1 (fun i hi => (hl'.2 i hi).2) (fun i hi => (hr'.2 i hi).2)) h1 h2

/-- `y` was written for an equation other than `lhs` and `rhs`. -/
def WrittenForOther (mass : String → K) (lhs rhs : List (String × ℤ)) (y : Xml) : Prop :=
  ∃ l r c m, PyWritten mass l r c m y ∧ PlainDict l ∧ PlainDict r ∧ ¬ (lhs.Perm l ∧ rhs.Perm r)

/-- **C87**  In a document of written interactions, looking up the text of an equation finds the
interaction that was written for it, if there is just one, whatever the order of the dictionaries. -/
theorem C87_found {mass : String → K} {lhs rhs lhs' rhs' : List (String × ℤ)} (hl : PlainDict lhs)
    (hr : PlainDict rhs) (hl' : lhs'.Perm lhs) (hr' : rhs'.Perm rhs) {c : String} {m : Option String}
    {x : Xml} (h : PyWritten mass lhs rhs c m x) {a b : List Xml}
    (hab : ∀ y ∈ a ++ b, WrittenForOther mass lhs rhs y) :
    findByText (a ++ x :: b) (pyEqText mass lhs' rhs') = some x := by
  have pl' : PlainDict lhs' := ⟨hl.1.perm hl', fun i hi => hl.2 i (hl'.mem_iff.1 hi)⟩
  have pr' : PlainDict rhs' := ⟨hr.1.perm hr', fun i hi => hr.2 i (hr'.mem_iff.1 hi)⟩
  have hx : eqString x = pyEqText mass lhs' rhs' := by
    rw [eqString_written h, C87_text_identifies hl hr pl' pr']
    exact ⟨hl'.symm, hr'.symm⟩
  have hy : ∀ l : List Xml, (∀ y ∈ l, y ∈ a ++ b) →
      l.filter (fun x => eqString x == pyEqText mass lhs' rhs') = [] := by
    intro l hl2
    rw [List.filter_eq_nil_iff]
    intro y hy hc
    obtain ⟨l, r, c, m, hw, p1, p2, hne⟩ := hab y (hl2 y hy)
    rw [beq_iff_eq, eqString_written hw, C87_text_identifies p1 p2 pl' pr'] at hc
    exact hne ⟨(hc.1.trans hl').symm, (hc.2.trans hr').symm⟩
  unfold findByText
  rw [List.filter_append, List.filter_cons_of_pos (by simp [hx]), hy a (by simp +contextual),
    hy b (by simp +contextual)]
  rfl

/-- **C87**  If no interaction was written for the equation, the search fails. -/
theorem C87_missing {mass : String → K} {lhs rhs : List (String × ℤ)} (hl : PlainDict lhs)
    (hr : PlainDict rhs) {doc : List Xml} (hd : ∀ y ∈ doc, WrittenForOther mass lhs rhs y) :
    findByText doc (pyEqText mass lhs rhs) = none := by
  have : doc.filter (fun x => eqString x == pyEqText mass lhs rhs) = [] := by
    rw [List.filter_eq_nil_iff]
    intro y hy hc
    obtain ⟨l, r, c, m, hw, p1, p2, hne⟩ := hd y hy
    rw [beq_iff_eq, eqString_written hw, C87_text_identifies p1 p2 hl hr] at hc
    exact hne ⟨hc.1.symm, hc.2.symm⟩
  unfold findByText
  rw [this]

/-- **C87**  If two interactions were written for the equation, the search fails too. -/
theorem C87_ambiguous {mass : String → K} {lhs rhs : List (String × ℤ)} {c c' : String}
    {m m' : Option String} {x y : Xml} (hx : PyWritten mass lhs rhs c m x)
    (hy : PyWritten mass lhs rhs c' m' y) (a b d : List Xml) :
    findByText (a ++ x :: b ++ y :: d) (pyEqText mass lhs rhs) = none := by
  have e : ((a ++ x :: b ++ y :: d).filter fun x => eqString x == pyEqText mass lhs rhs) =
      a.filter (fun x => eqString x == pyEqText mass lhs rhs) ++
        x :: b.filter (fun x => eqString x == pyEqText mass lhs rhs) ++
        y :: d.filter (fun x => eqString x == pyEqText mass lhs rhs) := by
    rw [List.filter_append, List.filter_append, List.filter_cons_of_pos (by simp [eqString_written hx]),
      List.filter_cons_of_pos (by simp [eqString_written hy])]
  unfold findByText
  rw [e]
  split
  · rename_i z hz
    have := congrArg List.length hz
    simp only [List.length_append, List.length_cons, List.length_nil] at this
    omega
  · rfl

/-- **C87**  The filter for elastic interactions keeps a written interaction exactly if its two
dictionaries are the same. -/
theorem C87_elastic_filter {mass : String → K} {lhs rhs : List (String × ℤ)} (hl : PlainDict lhs)
    (hr : PlainDict rhs) {c : String} {m : Option String} {x : Xml} (h : PyWritten mass lhs rhs c m x) :
    elasticText x = true ↔ lhs.Perm rhs := by
  have e1 : ((pyEqXml mass lhs rhs).named "In") = [.elem "In" [] (xmlPartial mass lhs)] := by
    simp [pyEqXml, Xml.named, Xml.hasTag]
  have e2 : ((pyEqXml mass lhs rhs).named "Out") = [.elem "Out" [] (xmlPartial mass rhs)] := by
    simp [pyEqXml, Xml.named, Xml.hasTag]
  unfold elasticText
  rw [h.parts.1]
  simp only [List.any_cons, List.any_nil, Bool.or_false, e1, e2, List.take_succ_cons, List.take_zero,
    Xml.strs, Xml.str, List.append_nil, xmlPartial_str, beq_iff_eq]
  constructor
  · intro h
    rw [formatPartial_sideText, formatPartial_sideText] at h
    have h' := congrArg (fun s => s ++ [' ', ' '] ++ joinToks [] []) h
    simp only [sideText_toks] at h'
    have pl := plainSide_items (mass := mass) hl
    have pr := plainSide_items (mass := mass) hr
    have := joinToks_inj (sideToks_no_blank _ _ pl (by simp)) (sideToks_no_blank _ _ pr (by simp)) h'
    exact items_perm hl hr (sideToks_inj _ _ _ _ pl pr this).1
  · intro hp
    rw [formatPartial_sideText, formatPartial_sideText,
      (pyItems_listed mass hl.1).unique (pyItems_listed mass hr.1) hp]

/-- **C87** (finding)  A number below one is written as one: the entry `(s, k)` with `k ≤ 1` leaves the
same text and the same nodes as `(s, 1)`. -/
theorem C87_counts_below_one (s : String) {k : ℤ} (h : k ≤ 1) :
    pyTermText s k = pyTermText s 1 ∧ pyTerm s k = pyTerm s 1 := by
  unfold pyTermText pyTerm
  rw [if_neg (by omega), if_neg (by omega), if_neg (by omega), if_neg (by omega)]
  exact ⟨rfl, rfl⟩

end

/-! ### Example -/

/-- Masses for the example. -/
def exMass (s : String) : ℚ := if s = "e" then 1 else if s = "H" then 2000 else 80000

/-- "e + Ar --> 2 e + H", written from dictionaries in another order. -/
def exWritten : Xml :=
  pyInteraction exMass [("Ar", 1), ("e", 1)] [("H", 1), ("e", 2)] [pyVHS "1" "300" "0.5" none]

example : PyWritten exMass [("Ar", 1), ("e", 1)] [("H", 1), ("e", 2)] "vhs" none exWritten :=
  .plain _ (C87_data "" "" "1" "300" "0.5" [] none).2

example : eqString exWritten = "e + Ar  -->  2 e + H".toList := by decide +kernel

example : PlainDict [("H", 1), ("e", 2)] ∧ Known exDB exMass [("H", 1), ("e", 2)] := by
  refine ⟨⟨by unfold Dict; decide, ?_⟩, ?_⟩
  · intro i hi
    simp only [List.mem_cons, List.not_mem_nil, or_false] at hi
    rcases hi with rfl | rfl <;> exact ⟨⟨by decide, by decide, by decide⟩, by decide⟩
  · intro i hi
    simp only [List.mem_cons, List.not_mem_nil, or_false] at hi
    rcases hi with rfl | rfl
    · exact ⟨⟨"H", 2000, 0⟩, by decide +kernel, rfl, by decide +kernel⟩
    · exact ⟨⟨"e", 1, -1⟩, by decide +kernel, rfl, by decide +kernel⟩

/-- Decimal numbers, for the example. -/
def exParse (s : List Char) : Option ℤ := (String.ofList s).toNat?.map (fun n => (n : ℤ))

example : ReadsNumbers exParse := by
  intro n
  rw [exParse, String.ofList_toList, Nat.toNat?_repr]
  rfl

end Chimp
