import Verif.Model.Property
import Mathlib.Data.List.Nodup
import Mathlib.Data.List.Count
import Mathlib.Tactic.Ring

/-!
# C83, C84: sets of particle properties

C83: `Aggregate` gives the class of all properties of its arguments in order, whichever of them are sets themselves;
loading, printing, making and setting then treat each property once and in order.  C84: what is read from a `Particle`
element.

Specification: `PTy.props` lists the properties of a class from left to right; a class is `Flat` if it is a chain of
single properties.
-/

namespace Chimp

variable {P V N E : Type}

/-- The properties of a class, from left to right. -/
def PTy.props : PTy P → List P
  | .prop p => [p]
  | .last a => a.props
  | .list a b => a.props ++ b.props

/-- The properties of an object with their values. -/
def PObj.values : PObj P V → List (P × V)
  | .prop p v => [(p, v)]
  | .last a => a.values
  | .list a b => a.values ++ b.values

/-- A chain of single properties. -/
inductive PTy.Flat : PTy P → Prop
  | last (p : P) : Flat (.last (.prop p))
  | list (p : P) {t : PTy P} : Flat t → Flat (.list (.prop p) t)

/-- What can be an argument of `Aggregate`: a property or a set. -/
def PTy.Arg (t : PTy P) : Prop := (∃ p, t = .prop p) ∨ t.Flat

theorem PTy.Flat.concat {t u : PTy P} (ht : t.Arg) (hu : u.Flat) :
    (t.concat u).Flat ∧ (t.concat u).props = t.props ++ u.props := by
  rcases ht with ⟨p, rfl⟩ | ht
  · cases hu <;> exact ⟨.list p (by constructor; try assumption), rfl⟩
  · induction ht with
    | last p => cases hu <;> exact ⟨.list p (by constructor; try assumption), rfl⟩
    | list p h ih =>
      have e : ∀ t : PTy P, (PTy.list (.prop p) t).concat u = .list (.prop p) (t.concat u) := by
        intro t; cases hu <;> rfl
      rw [e]
      exact ⟨.list p ih.1, by simp [PTy.props, ih.2]⟩

/-! ## C83 -/

/-- **C83**  `Aggregate` of properties and sets of properties is a set with all their properties, in order. -/
theorem C83_order : ∀ (ts : List (PTy P)) (t : PTy P), t.Arg → (∀ u ∈ ts, u.Arg) →
    (aggregate t ts).Flat ∧ (aggregate t ts).props = t.props ++ ts.flatMap PTy.props
  | [], t, ht, _ => by
    rcases ht with ⟨p, rfl⟩ | ht
    · exact ⟨.last p, rfl⟩
    · cases ht with
      | last p => exact ⟨.last p, by simp [aggregate, PTy.concatNull]⟩
      | list p h => exact ⟨.list p h, by simp [aggregate, PTy.concatNull]⟩
  | u :: us, t, ht, hu => by
    obtain ⟨h1, h2⟩ := C83_order us u (hu u List.mem_cons_self) fun x hx => hu x (List.mem_cons_of_mem _ hx)
    obtain ⟨h3, h4⟩ := PTy.Flat.concat ht h1
    exact ⟨h3, by rw [aggregate, h4, h2, List.flatMap_cons]⟩

theorem PTy.Flat.props_ne_nil {t : PTy P} (h : t.Flat) : t.props ≠ [] := by cases h <;> simp [PTy.props]

theorem PTy.Flat.ext {t u : PTy P} (ht : t.Flat) (hu : u.Flat) (h : t.props = u.props) : t = u := by
  induction ht generalizing u with
  | last p =>
    cases hu with
    | last q => simp only [PTy.props, List.cons.injEq, and_true] at h; rw [h]
    | list q hq =>
      simp only [PTy.props, List.singleton_append, List.cons.injEq] at h
      exact absurd h.2.symm hq.props_ne_nil
  | list p hp ih =>
    cases hu with
    | last q =>
      simp only [PTy.props, List.singleton_append, List.cons.injEq] at h
      exact absurd h.2 hp.props_ne_nil
    | list q hq =>
      simp only [PTy.props, List.singleton_append, List.cons.injEq] at h
      rw [h.1, ih hq h.2]

/-- **C83**  How the properties are grouped in the arguments makes no difference. -/
theorem C83_grouping (t u : PTy P) (ts us : List (PTy P)) (ht : ∀ x ∈ t :: ts, x.Arg) (hu : ∀ x ∈ u :: us, x.Arg)
    (h : (t :: ts).flatMap PTy.props = (u :: us).flatMap PTy.props) : aggregate t ts = aggregate u us := by
  obtain ⟨h1, h2⟩ := C83_order ts t (ht t List.mem_cons_self) fun x hx => ht x (List.mem_cons_of_mem _ hx)
  obtain ⟨h3, h4⟩ := C83_order us u (hu u List.mem_cons_self) fun x hx => hu x (List.mem_cons_of_mem _ hx)
  exact h1.ext h3 (by rw [h2, h4]; simpa using h)

/-! ### Subobjects -/

theorem ty_mk' (d : P → V) : ∀ t : PTy P, (t.mk' d).ty = t
  | .prop _ => rfl
  | .last a => by simp [PTy.mk', PObj.ty, ty_mk' d a]
  | .list a b => by simp [PTy.mk', PObj.ty, ty_mk' d a, ty_mk' d b]

theorem values_mk' (d : P → V) : ∀ t : PTy P, (t.mk' d).values = t.props.map fun p => (p, d p)
  | .prop _ => rfl
  | .last a => by simp [PTy.mk', PObj.values, PTy.props, values_mk' d a]
  | .list a b => by simp [PTy.mk', PObj.values, PTy.props, values_mk' d a, values_mk' d b]

theorem values_fst : ∀ o : PObj P V, o.values.map Prod.fst = o.ty.props
  | .prop _ _ => rfl
  | .last a => by simp [PObj.values, PObj.ty, PTy.props, values_fst a]
  | .list a b => by simp [PObj.values, PObj.ty, PTy.props, values_fst a, values_fst b]

variable [DecidableEq P]

theorem put_self {o v : PObj P V} (h : o.ty = v.ty) : o.put v = v := by
  cases o <;> simp only [PObj.put] <;> rw [if_pos (by rw [← h]; rfl)]

theorem put_eq {v : PObj P V} : ∀ {o : PObj P V}, v.ty.bases o.ty = 0 → o.put v = o
  | .prop p w, h => by
    simp only [PObj.ty, PTy.bases] at h
    rw [PObj.put, if_neg (by intro e; rw [if_pos e] at h; omega)]
  | .last a, h => by
    simp only [PObj.ty, PTy.bases] at h
    rw [PObj.put, if_neg (by intro e; rw [if_pos e] at h; omega), put_eq (by omega)]
  | .list a b, h => by
    simp only [PObj.ty, PTy.bases] at h
    rw [PObj.put, if_neg (by intro e; rw [if_pos e] at h; omega), put_eq (o := a) (by omega),
      put_eq (o := b) (by omega)]

theorem ty_put {v : PObj P V} : ∀ {o : PObj P V}, (o.put v).ty = o.ty
  | .prop p w => by
    rw [PObj.put]; split
    · assumption
    · rfl
  | .last a => by
    rw [PObj.put]; split
    · assumption
    · simp [PObj.ty, ty_put (o := a)]
  | .list a b => by
    rw [PObj.put]; split
    · assumption
    · simp [PObj.ty, ty_put (o := a), ty_put (o := b)]

theorem bases_prop (p : P) : ∀ t : PTy P, (PTy.prop p).bases t = t.props.count p
  | .prop q => by
    by_cases h : p = q
    · simp [PTy.bases, PTy.props, h]
    · simp [PTy.bases, PTy.props, h, Ne.symm h]
  | .last a => by simp [PTy.bases, PTy.props, bases_prop p a]
  | .list a b => by simp [PTy.bases, PTy.props, bases_prop p a, bases_prop p b, List.count_append]

/-- A class is no base of a smaller one. -/
theorem bases_small : ∀ {t u : PTy P}, sizeOf u < sizeOf t → t.bases u = 0
  | t, .prop p, h => by
    rw [PTy.bases, if_neg]; rintro rfl; omega
  | t, .last a, h => by
    have : sizeOf a < sizeOf (PTy.last a) := by simp
    rw [PTy.bases, if_neg (by rintro rfl; omega), bases_small (by omega)]
  | t, .list a b, h => by
    have h1 : sizeOf a < sizeOf (PTy.list a b) := by simp; omega
    have h2 : sizeOf b < sizeOf (PTy.list a b) := by simp
    rw [PTy.bases, if_neg (by rintro rfl; omega), bases_small (u := a) (by omega), bases_small (u := b) (by omega)]

theorem PTy.Flat.bases_self {t : PTy P} (h : t.Flat) : t.bases t = 1 := by
  cases h with
  | last p => simp [PTy.bases]
  | list p h =>
    rw [PTy.bases, if_pos rfl, bases_small, bases_small]
    · simp
    · simp; omega

omit [DecidableEq P] in
theorem PTy.Flat.ne_prop {t : PTy P} (h : t.Flat) (p : P) : t ≠ .prop p := by cases h <;> simp

theorem PTy.Flat.bases_tail {t : PTy P} (h : t.Flat) (p : P) : t.bases (.list (.prop p) t) = 1 := by
  rw [PTy.bases, if_neg, h.bases_self, PTy.bases, if_neg (h.ne_prop p)]
  intro e
  have := congrArg sizeOf e
  simp at this

/-- **C83**  The compiler accepts loading exactly the sets in which no property occurs twice. -/
theorem C83_accepted {t : PTy P} (h : t.Flat) : t.loads = true ↔ t.props.Nodup := by
  induction h with
  | last p => simp [PTy.loads, PTy.bases, PTy.props]
  | list p h ih =>
    rename_i t
    have : (PTy.prop p).bases (.list (.prop p) t) = 1 ↔ p ∉ t.props := by
      rw [bases_prop, PTy.props, PTy.props, List.singleton_append, List.count_cons_self, ← List.count_eq_zero]
      omega
    simp only [PTy.loads, Bool.and_eq_true, beq_iff_eq, h.bases_tail, this, ih, PTy.props, List.singleton_append,
      List.nodup_cons]
    tauto

theorem load_list {d : P → V} {ld : P → N → Except E V} {t : PTy P} (h : t.Flat) {p : P} (hp : p ∉ t.props) (x : N)
    {v : V} {w : PObj P V} (h1 : ld p x = .ok v) (h2 : t.load d ld x = .ok w) (h3 : w.ty = t) :
    (PTy.list (.prop p) t).load d ld x = .ok (.list (.prop p v) w) := by
  simp only [PTy.load, h1, Except.map, h2, PTy.mk']
  have e1 : (PObj.list (.prop p (d p)) (t.mk' d)).put (.prop p v) = .list (.prop p v) (t.mk' d) := by
    rw [PObj.put, if_neg (by simp [PObj.ty]), put_self (by rfl), put_eq]
    rw [ty_mk', show (PObj.prop p v).ty = .prop p from rfl, bases_prop, List.count_eq_zero]
    exact hp
  have e2 : (PObj.list (.prop p v) (t.mk' d)).put w = .list (.prop p v) w := by
    rw [PObj.put, ty_mk', h3, if_neg, put_self (o := t.mk' d) (by rw [ty_mk', h3]), put_eq]
    · rw [h3, show (PObj.prop p v).ty = .prop p from rfl, PTy.bases, if_neg (h.ne_prop p)]
    · intro e
      have := congrArg sizeOf e
      simp at this
  rw [e1, e2]

/-- **C83**  Loading a set reads every property from the same element: if all can be read the object has the values
read, in order; otherwise loading throws what the first property that cannot be read throws. -/
theorem C83_load (d : P → V) (ld : P → N → Except E V) {t : PTy P} (h : t.Flat) (hn : t.props.Nodup) (x : N) :
    (∀ f : P → V, (∀ p ∈ t.props, ld p x = .ok (f p)) →
      ∃ o, t.load d ld x = .ok o ∧ o.ty = t ∧ o.values = t.props.map fun p => (p, f p)) ∧
    (∀ pre p post e, t.props = pre ++ p :: post → (∀ q ∈ pre, ∃ v, ld q x = .ok v) → ld p x = .error e →
      t.load d ld x = .error e) := by
  induction h with
  | last p =>
    constructor
    · intro f hf
      refine ⟨.last (.prop p (f p)), ?_, rfl, rfl⟩
      simp [PTy.load, hf p (by simp [PTy.props]), Except.map, PTy.mk', PObj.put, PObj.ty]
    · intro pre q post e he hpre hq
      obtain ⟨rfl, rfl⟩ : pre = [] ∧ q = p := by
        cases pre with
        | nil => simp [PTy.props] at he; exact ⟨rfl, he.1.symm⟩
        | cons a l => simp [PTy.props] at he
      simp [PTy.load, hq, Except.map]
  | list p h ih =>
    rename_i t
    rw [PTy.props, PTy.props, List.singleton_append, List.nodup_cons] at hn
    obtain ⟨i1, i2⟩ := ih hn.2
    constructor
    · intro f hf
      obtain ⟨w, w1, w2, w3⟩ := i1 f fun q hq => hf q (by simp [PTy.props, hq])
      exact ⟨_, load_list h hn.1 x (hf p (by simp [PTy.props])) w1 w2, by simp [PObj.ty, w2],
        by simp [PObj.values, PTy.props, w3]⟩
    · intro pre q post e he hpre hq
      cases pre with
      | nil =>
        simp only [PTy.props, List.nil_append, List.cons_append, List.cons.injEq] at he
        obtain ⟨rfl, -⟩ := he
        simp [PTy.load, hq, Except.map]
      | cons a l =>
        simp only [PTy.props, List.singleton_append, List.cons_append, List.cons.injEq] at he
        obtain ⟨rfl, he⟩ := he
        obtain ⟨v, hv⟩ := hpre p List.mem_cons_self
        have := i2 l q post e he (fun z hz => hpre z (List.mem_cons_of_mem _ hz)) hq
        simp [PTy.load, hv, Except.map, this]

omit [DecidableEq P] in
/-- **C83**  Printing prints every property with its value in order, each followed by the separator it adds. -/
theorem C83_print (pr : P → V → String → String) (sep : String) : ∀ o : PObj P V,
    o.print pr sep = (o.values.map fun q => pr q.1 q.2 sep).foldr (· ++ ·) ""
  | .prop p v => by simp [PObj.print, PObj.values]
  | .last a => C83_print pr sep a
  | .list a b => by
    have : ∀ l m : List String, (l ++ m).foldr (· ++ ·) "" = l.foldr (· ++ ·) "" ++ m.foldr (· ++ ·) "" := by
      intro l m
      induction l with
      | nil => simp
      | cons s l ih => simp only [List.cons_append, List.foldr_cons, ih, String.append_assoc]
    rw [PObj.print, C83_print pr sep a, C83_print pr sep b, PObj.values, List.map_append, this]

theorem values_put (p : P) (v : V) : ∀ o : PObj P V,
    (o.put (.prop p v)).values = o.values.map fun q => (q.1, if q.1 = p then v else q.2)
  | .prop q w => by
    rw [PObj.put]
    by_cases h : q = p
    · rw [if_pos (by rw [h]; rfl)]; simp [PObj.values, h]
    · rw [if_neg (by simp [PObj.ty, Ne.symm h])]; simp [PObj.values, h]
  | .last a => by
    rw [PObj.put, if_neg (by simp [PObj.ty]), PObj.values, PObj.values, values_put p v a]
  | .list a b => by
    rw [PObj.put, if_neg (by simp [PObj.ty]), PObj.values, PObj.values, values_put p v a, values_put p v b,
      List.map_append]

/-- The value that properties set one after the other give to `p`, which had `v`. -/
def SetValue (l : List (P × V)) (p : P) (v v' : V) : Prop :=
  (∃ pre post, l = pre ++ (p, v') :: post ∧ ∀ z ∈ post, z.1 ≠ p) ∨ (v' = v ∧ ∀ z ∈ l, z.1 ≠ p)

theorem set_spec : ∀ (l : List (P × V)) (o : PObj P V),
    (setProperties o (l.map fun q => .prop q.1 q.2)).ty = o.ty ∧
    List.Forall₂ (fun q q' => q'.1 = q.1 ∧ SetValue l q.1 q.2 q'.2) o.values
      (setProperties o (l.map fun q => .prop q.1 q.2)).values
  | [], o => by
    refine ⟨rfl, ?_⟩
    show List.Forall₂ _ o.values o.values
    exact List.forall₂_same.2 fun q _ => ⟨rfl, .inr ⟨rfl, by simp⟩⟩
  | (p, v) :: l, o => by
    obtain ⟨h1, h2⟩ := set_spec l (o.put (.prop p v))
    refine ⟨h1.trans ty_put, ?_⟩
    rw [values_put, List.forall₂_map_left_iff] at h2
    refine List.Forall₂.imp ?_ h2
    rintro q q' ⟨e, hs⟩
    refine ⟨e, ?_⟩
    rcases hs with ⟨pre, post, h3, h4⟩ | ⟨h3, h4⟩
    · exact .inl ⟨(p, v) :: pre, post, by rw [h3]; rfl, h4⟩
    · by_cases hq : q.1 = p
      · rw [if_pos hq] at h3
        exact .inl ⟨[], l, by simp [hq, h3], h4⟩
      · rw [if_neg hq] at h3
        refine .inr ⟨h3, fun z hz => ?_⟩
        rcases List.mem_cons.1 hz with rfl | hz
        · exact Ne.symm hq
        · exact h4 z hz

/-- **C83**  `set_properties` with properties of the set, in any order and also repeated: the compiler accepts it
exactly if each occurs once in the set; then each property has the last value given for it, or the one it had. -/
theorem C83_set (o : PObj P V) (l : List (P × V)) :
    (setsProperties o.ty (l.map fun q => .prop q.1) = true ↔ ∀ q ∈ l, o.ty.props.count q.1 = 1) ∧
    (setProperties o (l.map fun q => .prop q.1 q.2)).ty = o.ty ∧
    List.Forall₂ (fun q q' => q'.1 = q.1 ∧ SetValue l q.1 q.2 q'.2) o.values
      (setProperties o (l.map fun q => .prop q.1 q.2)).values := by
  refine ⟨?_, set_spec l o⟩
  simp [setsProperties, bases_prop]

/-- **C83**  `make_properties` of different properties has their values, in order; the compiler does not accept it if a
property is repeated. -/
theorem C83_make (d : P → V) (p : P) (v : V) (l : List (P × V)) :
    (makesProperties (.prop p) (l.map fun q => .prop q.1) = true ↔ (p :: l.map Prod.fst).Nodup) ∧
    ((p :: l.map Prod.fst).Nodup →
      (makeProperties d (.prop p v) (l.map fun q => .prop q.1 q.2)).ty = aggregate (.prop p) (l.map fun q => .prop q.1) ∧
      (makeProperties d (.prop p v) (l.map fun q => .prop q.1 q.2)).values = (p, v) :: l) := by
  have hp : (aggregate (.prop p) (l.map fun q => .prop q.1)).props = p :: l.map Prod.fst := by
    rw [(C83_order (l.map fun q => .prop q.1) (.prop p) (.inl ⟨p, rfl⟩) (by
      intro u hu
      obtain ⟨q, -, rfl⟩ := List.mem_map.1 hu
      exact .inl ⟨q.1, rfl⟩)).2]
    simp only [PTy.props, List.singleton_append, List.flatMap_map, List.cons.injEq, true_and]
    rw [← List.flatMap_singleton' (l.map Prod.fst), List.flatMap_map]
  have hty : (PObj.prop p v).ty = .prop p := rfl
  have hmap : (l.map fun q => PObj.prop q.1 q.2).map PObj.ty = l.map fun q => PTy.prop q.1 := by simp [PObj.ty]
  constructor
  · unfold makesProperties setsProperties
    rw [List.nodup_iff_count_le_one]
    constructor
    · intro h a
      by_cases ha : a ∈ p :: l.map Prod.fst
      · have : ∃ q, (PTy.prop q) ∈ (.prop p :: l.map fun q => .prop q.1 : List (PTy P)) ∧ q = a := by
          rcases List.mem_cons.1 ha with rfl | ha
          · exact ⟨a, List.mem_cons_self, rfl⟩
          · obtain ⟨q, hq, rfl⟩ := List.mem_map.1 ha
            exact ⟨q.1, List.mem_cons_of_mem _ (List.mem_map.2 ⟨q, hq, rfl⟩), rfl⟩
        obtain ⟨q, hq, rfl⟩ := this
        have := List.all_eq_true.1 h _ hq
        rw [beq_iff_eq, bases_prop, hp] at this
        exact this.le
      · rw [List.count_eq_zero.2 ha]; omega
    · intro h
      refine List.all_eq_true.2 fun u hu => ?_
      have : ∃ a ∈ p :: l.map Prod.fst, u = .prop a := by
        rcases List.mem_cons.1 hu with rfl | hu
        · exact ⟨p, List.mem_cons_self, rfl⟩
        · obtain ⟨q, hq, rfl⟩ := List.mem_map.1 hu
          exact ⟨q.1, List.mem_cons_of_mem _ (List.mem_map.2 ⟨q, hq, rfl⟩), rfl⟩
      obtain ⟨a, ha, rfl⟩ := this
      rw [beq_iff_eq, bases_prop, hp]
      exact le_antisymm (h a) (List.count_pos_iff.2 ha)
  · intro hn
    unfold makeProperties
    rw [hty, hmap]
    have e : (PObj.prop p v :: l.map fun q => .prop q.1 q.2 : List (PObj P V)) =
      ((p, v) :: l).map fun q => .prop q.1 q.2 := rfl
    rw [e]
    obtain ⟨h1, h2⟩ := set_spec ((p, v) :: l) ((aggregate (.prop p) (l.map fun q => .prop q.1)).mk' d)
    refine ⟨h1.trans (ty_mk' _ _), ?_⟩
    rw [values_mk', hp, List.forall₂_map_left_iff] at h2
    have hpairs : ∀ (m : List (P × V)) (r : List (P × V)), (m.map Prod.fst).Nodup → (∀ q ∈ m, q ∈ (p, v) :: l) →
        List.Forall₂ (fun a q' => q'.1 = a ∧ SetValue ((p, v) :: l) a (d a) q'.2) (m.map Prod.fst) r → r = m := by
      intro m
      induction m with
      | nil => intro r _ _ h; cases h; rfl
      | cons q m ih =>
        intro r hm hsub h
        rw [List.map_cons] at h hm
        obtain ⟨hq, ht⟩ := List.nodup_cons.1 hm
        cases h with
        | cons h1 h2 =>
          rename_i q' r'
          rw [ih r' ht (fun z hz => hsub z (List.mem_cons_of_mem _ hz)) h2]
          congr 1
          have hmem : (q'.1, q'.2) ∈ (p, v) :: l := by
            rcases h1.2 with ⟨pre, post, e, -⟩ | ⟨-, hno⟩
            · rw [e, h1.1]; simp
            · exact absurd rfl (hno q (hsub q List.mem_cons_self))
          exact (List.inj_on_of_nodup_map (f := Prod.fst) (l := (p, v) :: l) (by simpa using hn) hmem
            (hsub q List.mem_cons_self) h1.1)
    exact hpairs ((p, v) :: l) _ (by simpa using hn) (fun q hq => hq) h2

theorem bases_suffix {t u : PTy P} (hu : u.Flat) (ht : t.Flat) (h : t.bases u ≠ 0) : t.props <:+ u.props := by
  induction hu with
  | last p =>
    simp only [PTy.bases] at h
    rw [if_neg (ht.ne_prop p)] at h
    by_cases e : t = .last (.prop p)
    · rw [e]; exact List.suffix_refl _
    · rw [if_neg e] at h; exact absurd rfl h
  | list p hu ih =>
    rename_i u
    simp only [PTy.bases] at h
    rw [if_neg (ht.ne_prop p)] at h
    by_cases e : t = .list (.prop p) u
    · rw [e]; exact List.suffix_refl _
    · rw [if_neg e] at h
      exact (ih (by omega)).trans (List.suffix_append _ _)

/-- **C83**  `make_properties` with a set of properties as an argument before the last is not accepted, although
`Aggregate` takes sets in every position. -/
theorem C83_list_argument (t : PTy P) (ts pre post : List (PTy P)) (u : PTy P) (h : t :: ts = pre ++ u :: post)
    (hp : post ≠ []) (harg : ∀ x ∈ t :: ts, x.Arg) (hu : u.Flat) (hn : ((t :: ts).flatMap PTy.props).Nodup) :
    makesProperties t ts = false := by
  obtain ⟨h1, h2⟩ := C83_order ts t (harg t List.mem_cons_self) fun x hx => harg x (List.mem_cons_of_mem _ hx)
  rw [← List.flatMap_cons] at h2
  have hb : u.bases (aggregate t ts) = 0 := by
    by_contra hne
    have hs := bases_suffix h1 hu hne
    rw [h2] at hs
    obtain ⟨q, hq⟩ := List.exists_mem_of_ne_nil _ hu.props_ne_nil
    obtain ⟨x, hx⟩ := List.exists_mem_of_ne_nil _ hp
    have hxa : x.Arg := harg x (by rw [h]; simp [hx])
    obtain ⟨y, hy⟩ : ∃ y, y ∈ x.props := by
      rcases hxa with ⟨y, rfl⟩ | hx
      · exact ⟨y, by simp [PTy.props]⟩
      · exact List.exists_mem_of_ne_nil _ hx.props_ne_nil
    rw [h, List.flatMap_append, List.flatMap_cons, ← List.append_assoc] at hn hs
    -- the last property of the whole is one of `post`, and one of `u` if `u` is a base
    have hpost : post.flatMap PTy.props ≠ [] := List.ne_nil_of_mem (List.mem_flatMap.2 ⟨x, hx, hy⟩)
    obtain ⟨w, hw⟩ := hs
    have hl : (post.flatMap PTy.props).getLast hpost ∈ u.props := by
      have e := congrArg List.getLast? hw
      rw [List.getLast?_append_of_ne_nil _ hu.props_ne_nil, List.getLast?_append_of_ne_nil _ hpost,
        List.getLast?_eq_getLast_of_ne_nil hpost] at e
      exact List.mem_of_getLast? e
    have hd := (List.nodup_append.1 hn).2.2
    exact hd _ (List.mem_append_right _ hl) _ (List.getLast_mem hpost) rfl
  unfold makesProperties setsProperties
  rw [List.all_eq_false]
  exact ⟨u, by rw [h]; simp, by rw [hb]; simp⟩

omit [DecidableEq P] in
/-- The class does not depend on the nesting; here of five properties. -/
example (a b c d e : P) : aggregate (aggregate (.prop a) [.prop b]) [.prop c, aggregate (.prop d) [.prop e]] =
    aggregate (.prop a) [.prop b, .prop c, .prop d, .prop e] := by
  have h : ∀ x y : P, (aggregate (.prop x) [.prop y]).Arg := fun x y => .inr (.list x (.last y))
  refine C83_grouping _ _ _ _ ?_ ?_ rfl
  · simp only [List.mem_cons, List.not_mem_nil, or_false, forall_eq_or_imp, forall_eq]
    exact ⟨h a b, .inl ⟨c, rfl⟩, h d e⟩
  · simp only [List.mem_cons, List.not_mem_nil, or_false, forall_eq_or_imp, forall_eq]
    exact ⟨.inl ⟨a, rfl⟩, .inl ⟨b, rfl⟩, .inl ⟨c, rfl⟩, .inl ⟨d, rfl⟩, .inl ⟨e, rfl⟩⟩

/-- A set given before a property cannot be used to make the set of all three. -/
example : makesProperties (P := ℕ) (aggregate (.prop 1) [.prop 2]) [.prop 3] = false :=
  C83_list_argument _ _ [] [.prop 3] _ rfl (by simp)
    (by
      simp only [List.mem_cons, List.not_mem_nil, or_false, forall_eq_or_imp, forall_eq]
      exact ⟨.inr (.list 1 (.last 2)), .inl ⟨3, rfl⟩⟩) (.list 1 (.last 2)) (by decide)

/-- Setting out of order and twice. -/
example : (setProperties (makeProperties (fun _ => 0) (.prop 1 10) [.prop 2 20, .prop 3 30])
    [.prop 3 31, .prop 1 11, .prop 3 32] : PObj ℕ ℕ).values = [(1, 11), (2, 20), (3, 32)] := by decide +kernel

/-! ## C84 -/

/-- What a `Particle` element says about a quantity: nothing is written and it is zero, or it is written with the right
dimension. -/
def Says {D : Type} (x : ParticleNode D) (xpath : String) (dim : D) (v : ℝ) : Prop :=
  (x.query xpath = none ∧ v = 0) ∨ ∃ w, x.query xpath = some w ∧ w.quantity = some (v, dim)

/-- What it says about the species. -/
structure Describes {D : Type} (dims : Dims D) (x : ParticleNode D) (n : String) (m c a : ℝ) : Prop where
  name : ∃ w, x.query "@name" = some w ∧ w.text = n
  mass : Says x "mass" dims.mass m
  charge : Says x "charge" dims.charge c
  polarizability : Says x "polarizability" dims.polarizability a

variable {D : Type} [DecidableEq D]

theorem says_iff {dims : Dims D} {x : ParticleNode D} {p : DProp} {dim : D}
    (hp : p = .mass ∧ dim = dims.mass ∨ p = .charge ∧ dim = dims.charge ∨
      p = .polarizability ∧ dim = dims.polarizability) {v : ℝ} :
    p.load dims x = .ok (.num v) ↔ Says x p.xpath dim v := by
  unfold DProp.load Says
  cases hq : x.query p.xpath with
  | none =>
    rcases hp with ⟨rfl, -⟩ | ⟨rfl, -⟩ | ⟨rfl, -⟩ <;> simp [DProp.dflt, eq_comm]
  | some w =>
    rcases hp with ⟨rfl, rfl⟩ | ⟨rfl, rfl⟩ | ⟨rfl, rfl⟩ <;>
    · simp only [DProp.parse, reduceCtorEq, false_and, Option.some.injEq, exists_eq_left', false_or]
      cases hw : w.quantity with
      | none => simp
      | some q =>
        obtain ⟨y, e⟩ := q
        simp only [Option.some.injEq, Prod.mk.injEq]
        split
        · rename_i he; simp [he]
        · rename_i he; simp [he]

theorem loads_num {dims : Dims D} {x : ParticleNode D} {p : DProp} (hp : p ≠ .name) {z : DVal}
    (h : p.load dims x = .ok z) : ∃ v, z = .num v := by
  unfold DProp.load at h
  split at h
  · cases p with
    | name => exact absurd rfl hp
    | mass | charge | polarizability =>
      simp only [DProp.parse] at h
      split at h
      · cases h
      · split at h
        · cases h; exact ⟨_, rfl⟩
        · cases h
  · rw [if_neg hp] at h
    cases p with
    | name => exact absurd rfl hp
    | mass | charge | polarizability => cases h; exact ⟨_, rfl⟩

theorem defaultSet_flat : defaultSet.Flat ∧ defaultSet.props = [.name, .mass, .charge, .polarizability] ∧
    defaultSet.props.Nodup := by
  refine ⟨?_, rfl, by decide⟩
  exact .list _ (.list _ (.list _ (.last _)))

/-- **C84**  Loading the default set from a `Particle` gives the name, mass, charge and polarizability it says.
In particular what is not written is zero. -/
theorem C84_loads (dims : Dims D) (x : ParticleNode D) (n : String) (m c a : ℝ) :
    (∃ o, defaultSet.load DProp.dflt (DProp.load dims) x = .ok o ∧
      o.values = [(.name, .text n), (.mass, .num m), (.charge, .num c), (.polarizability, .num a)]) ↔
    Describes dims x n m c a := by
  obtain ⟨h1, h2, h3⟩ := defaultSet_flat
  obtain ⟨l1, l2⟩ := C83_load DProp.dflt (DProp.load dims) h1 h3 x
  constructor
  · rintro ⟨o, ho, hv⟩
    have hall : ∀ p ∈ defaultSet.props, ∃ v, p.load dims x = .ok v := by
      by_contra hno
      push Not at hno
      obtain ⟨p, hp, hne⟩ := hno
      -- the first property that cannot be read
      have hfirst : ∀ (pre l : List DProp), defaultSet.props = pre ++ l → (∀ q ∈ pre, ∃ v, q.load dims x = .ok v) →
          p ∈ l → False := by
        intro pre l
        induction l generalizing pre with
        | nil => intro _ _ h; cases h
        | cons q l ih =>
          intro he hpre hmem
          cases hq : q.load dims x with
          | error e =>
            have := l2 pre q l e he hpre hq
            rw [ho] at this
            cases this
          | ok v =>
            rcases List.mem_cons.1 hmem with rfl | hmem
            · exact hne v hq
            · refine ih (pre ++ [q]) (by rw [he]; simp) (fun z hz => ?_) hmem
              rcases List.mem_append.1 hz with hz | hz
              · exact hpre z hz
              · rw [List.mem_singleton.1 hz]; exact ⟨v, hq⟩
      exact hfirst [] _ rfl (by simp) hp
    haveI : Nonempty DVal := ⟨.num 0⟩
    choose! f hf using hall
    obtain ⟨o', ho', -, hv'⟩ := l1 f hf
    rw [ho] at ho'
    cases ho'
    rw [hv, h2] at hv'
    simp only [List.map_cons, List.map_nil, List.cons.injEq, Prod.mk.injEq, true_and, and_true] at hv'
    obtain ⟨e1, e2, e3, e4⟩ := hv'
    have g : ∀ p, p ∈ defaultSet.props := by intro p; rw [h2]; cases p <;> simp
    refine ⟨?_, (says_iff (.inl ⟨rfl, rfl⟩)).1 (by rw [e2]; exact hf _ (g _)),
      (says_iff (.inr (.inl ⟨rfl, rfl⟩))).1 (by rw [e3]; exact hf _ (g _)),
      (says_iff (.inr (.inr ⟨rfl, rfl⟩))).1 (by rw [e4]; exact hf _ (g _))⟩
    have hn := hf .name (g _)
    rw [← e1] at hn
    unfold DProp.load at hn
    rw [show DProp.name.xpath = "@name" from rfl] at hn
    cases hq : x.query "@name" with
    | none => rw [hq] at hn; cases hn
    | some w =>
      rw [hq] at hn
      simp only [DProp.parse, Except.ok.injEq, DVal.text.injEq] at hn
      exact ⟨w, rfl, hn⟩
  · intro h
    obtain ⟨w, hw, hn⟩ := h.name
    have g1 : DProp.name.load dims x = .ok (.text n) := by
      unfold DProp.load
      rw [show DProp.name.xpath = "@name" from rfl, hw]
      simp [DProp.parse, hn]
    have g2 : DProp.mass.load dims x = .ok (.num m) := (says_iff (.inl ⟨rfl, rfl⟩)).2 h.mass
    have g3 : DProp.charge.load dims x = .ok (.num c) := (says_iff (.inr (.inl ⟨rfl, rfl⟩))).2 h.charge
    have g4 : DProp.polarizability.load dims x = .ok (.num a) :=
      (says_iff (.inr (.inr ⟨rfl, rfl⟩))).2 h.polarizability
    obtain ⟨o, ho, -, hv⟩ := l1 (fun
      | .name => .text n
      | .mass => .num m
      | .charge => .num c
      | .polarizability => .num a) (by intro p _; cases p <;> assumption)
    exact ⟨o, ho, by rw [hv, h2]; rfl⟩

/-- **C84**  Loading throws exactly if there is no name, or a mass, charge or polarizability is written that is not a
quantity of this dimension. -/
theorem C84_throws (dims : Dims D) (x : ParticleNode D) :
    (∃ e, defaultSet.load DProp.dflt (DProp.load dims) x = .error e) ↔
    x.query "@name" = none ∨ ∃ xpath dim, ((xpath, dim) = ("mass", dims.mass) ∨ (xpath, dim) = ("charge", dims.charge) ∨
      (xpath, dim) = ("polarizability", dims.polarizability)) ∧
      ∃ w, x.query xpath = some w ∧ ∀ v, w.quantity ≠ some (v, dim) := by
  have key : (∀ e, defaultSet.load DProp.dflt (DProp.load dims) x ≠ .error e) ↔
      ∃ n m c a, Describes dims x n m c a := by
    constructor
    · intro h
      obtain ⟨o, ho⟩ : ∃ o, defaultSet.load DProp.dflt (DProp.load dims) x = .ok o := by
        cases hl : defaultSet.load DProp.dflt (DProp.load dims) x with
        | error e => exact absurd hl (h e)
        | ok o => exact ⟨o, rfl⟩
      obtain ⟨h1, h2, h3⟩ := defaultSet_flat
      obtain ⟨l1, l2⟩ := C83_load DProp.dflt (DProp.load dims) h1 h3 x
      cases hn : DProp.name.load dims x with
      | error e => exact absurd (l2 [] _ _ e h2 (by simp) hn) (h e)
      | ok zn =>
      cases hm : DProp.mass.load dims x with
      | error e => exact absurd (l2 [.name] _ _ e h2 (by simp [hn]) hm) (h e)
      | ok zm =>
      cases hc : DProp.charge.load dims x with
      | error e => exact absurd (l2 [.name, .mass] _ _ e h2 (by simp [hn, hm]) hc) (h e)
      | ok zc =>
      cases ha : DProp.polarizability.load dims x with
      | error e => exact absurd (l2 [.name, .mass, .charge] _ _ e h2 (by simp [hn, hm, hc]) ha) (h e)
      | ok za =>
      obtain ⟨m, rfl⟩ := loads_num (by simp) hm
      obtain ⟨c, rfl⟩ := loads_num (by simp) hc
      obtain ⟨a, rfl⟩ := loads_num (by simp) ha
      obtain ⟨w, hw⟩ : ∃ w, x.query "@name" = some w := by
        cases hq : x.query "@name" with
        | none =>
          unfold DProp.load at hn
          rw [show DProp.name.xpath = "@name" from rfl, hq] at hn
          cases hn
        | some w => exact ⟨w, rfl⟩
      exact ⟨w.text, m, c, a, ⟨w, hw, rfl⟩, (says_iff (.inl ⟨rfl, rfl⟩)).1 hm,
        (says_iff (.inr (.inl ⟨rfl, rfl⟩))).1 hc, (says_iff (.inr (.inr ⟨rfl, rfl⟩))).1 ha⟩
    · rintro ⟨n, m, c, a, h⟩ e he
      obtain ⟨o, ho, -⟩ := (C84_loads dims x n m c a).2 h
      rw [ho] at he
      cases he
  have hsays : ∀ xpath dim, (∃ v, Says x xpath dim v) ↔
      ¬ ∃ w, x.query xpath = some w ∧ ∀ v, w.quantity ≠ some (v, dim) := by
    intro xpath dim
    unfold Says
    cases hq : x.query xpath with
    | none => simp
    | some w => simp
  rw [← not_iff_not]
  push Not
  rw [key]
  constructor
  · rintro ⟨n, m, c, a, h⟩
    refine ⟨by obtain ⟨w, hw, -⟩ := h.name; simp [hw], ?_⟩
    intro xpath dim hx w hw
    have hs : ∃ v, Says x xpath dim v := by
      rcases hx with e | e | e <;> cases e
      · exact ⟨m, h.mass⟩
      · exact ⟨c, h.charge⟩
      · exact ⟨a, h.polarizability⟩
    by_contra hno
    push Not at hno
    exact (hsays xpath dim).1 hs ⟨w, hw, hno⟩
  · rintro ⟨hn, hx⟩
    obtain ⟨w, hw⟩ := Option.ne_none_iff_exists'.1 hn
    have hs : ∀ xpath dim, ((xpath, dim) = ("mass", dims.mass) ∨ (xpath, dim) = ("charge", dims.charge) ∨
        (xpath, dim) = ("polarizability", dims.polarizability)) → ∃ v, Says x xpath dim v := by
      intro xpath dim h
      rw [hsays]
      rintro ⟨w, hw, hno⟩
      obtain ⟨v, hv⟩ := hx xpath dim h w hw
      exact hno v hv
    obtain ⟨m, hm⟩ := hs _ _ (.inl rfl)
    obtain ⟨c, hc⟩ := hs _ _ (.inr (.inl rfl))
    obtain ⟨a, ha⟩ := hs _ _ (.inr (.inr rfl))
    exact ⟨w.text, m, c, a, ⟨w, hw, rfl⟩, hm, hc, ha⟩

/-- **C84**, a finding: a species without a `mass` is loaded with mass zero. -/
theorem C84_missing_mass (dims : Dims D) (x : ParticleNode D) (w : Written D) (hn : x.query "@name" = some w)
    (hm : x.query "mass" = none) (hc : x.query "charge" = none) (ha : x.query "polarizability" = none) :
    ∃ o, defaultSet.load DProp.dflt (DProp.load dims) x = .ok o ∧ (.mass, .num 0) ∈ o.values := by
  obtain ⟨o, ho, hv⟩ := (C84_loads dims x w.text 0 0 0).2
    ⟨⟨w, hn, rfl⟩, .inl ⟨hm, rfl⟩, .inl ⟨hc, rfl⟩, .inl ⟨ha, rfl⟩⟩
  exact ⟨o, ho, by rw [hv]; simp⟩

/-- A `Particle` with name, mass and charge, and one whose mass is written as a length. -/
example : let dims : Dims ℕ := ⟨0, 1, 2⟩
    let x : ParticleNode ℕ := ⟨fun q => if q = "@name" then some ⟨"e-", none⟩ else if q = "mass" then some ⟨"m_e", some (9, 0)⟩
      else if q = "charge" then some ⟨"-e", some (-16, 1)⟩ else none⟩
    let y : ParticleNode ℕ := ⟨fun q => if q = "@name" then some ⟨"e-", none⟩ else if q = "mass" then some ⟨"1*m", some (1, 7)⟩
      else none⟩
    Describes dims x "e-" 9 (-16) 0 ∧ ∃ e, defaultSet.load DProp.dflt (DProp.load dims) y = .error e := by
  refine ⟨⟨⟨_, rfl, rfl⟩, .inr ⟨_, rfl, rfl⟩, .inr ⟨_, rfl, rfl⟩, .inl ⟨rfl, rfl⟩⟩, ?_⟩
  exact (C84_throws _ _).2 (.inr ⟨"mass", 0, .inl rfl, _, rfl, by simp⟩)

end Chimp
