import Verif.Model.Options
import Verif.Props.CrossData
import Verif.Props.Session
import Verif.Props.SessionCalls

/-!
# Property C89: options of the database

The specification: `lastOf` is the last value given for an option in a chain of settings, `SameOption` says that two
settings are of the same option.
-/

namespace Chimp

variable {τ α W S : Type}

/-! ## Specification -/

/-- The last value that a chain gives for the option that `f` picks, or the value before. -/
def lastOf (f : Setting τ → Option α) (l : List (Setting τ)) (before : α) : α := ((l.filterMap f).getLast?).getD before

def Setting.asParticle : Setting τ → Option τ | .particle t => some t | _ => none
def Setting.asProperties : Setting τ → Option τ | .properties t => some t | _ => none
def Setting.asInplace : Setting τ → Option Bool | .inplace b => some b | _ => none
def Setting.asAuto : Setting τ → Option Bool | .auto b => some b | _ => none
def Setting.asRNG : Setting τ → Option τ | .rng t => some t | _ => none
def Setting.asExtrapolation : Setting τ → Option Bool | .extrapolation b => some b | _ => none

/-- The two set the same option. -/
def SameOption (a b : Setting τ) : Prop :=
  (a.asParticle.isSome ∧ b.asParticle.isSome) ∨ (a.asProperties.isSome ∧ b.asProperties.isSome) ∨
  (a.asInplace.isSome ∧ b.asInplace.isSome) ∨ (a.asAuto.isSome ∧ b.asAuto.isSome) ∨
  (a.asRNG.isSome ∧ b.asRNG.isSome) ∨ (a.asExtrapolation.isSome ∧ b.asExtrapolation.isSome)

/-- The environment variable forbids extrapolation, or it is not set and the option forbids it. -/
def Forbidden (env : Option String) (option : Bool) : Prop := env = some "no" ∨ (env = none ∧ option = false)

/-! ## Lemmas -/

theorem lastOf_cons (f : Setting τ → Option α) (a : Setting τ) (l : List (Setting τ)) (x : α) :
    lastOf f (a :: l) x = lastOf f l ((f a).getD x) := by
  unfold lastOf
  rw [List.filterMap_cons]
  cases hf : f a with
  | none => rfl
  | some y =>
    simp only [Option.getD_some]
    cases hl : l.filterMap f with
    | nil => rfl
    | cons z t => rw [List.getLast?_cons_cons]; simp [List.getLast?_eq_getLast_of_ne_nil]

theorem extrapolates_false {o : Options τ} {env : Option String} :
    o.extrapolates env = false ↔ Forbidden env o.extrapolation := by
  unfold Options.extrapolates Forbidden
  cases env <;> simp

/-! ## C89: chains of settings -/

/-- **C89**  After any chain of settings each option has the last value the chain gives for it, and the value it had
before if the chain gives none. -/
theorem C89_last (o : Options τ) (l : List (Setting τ)) :
    (o.chain l).particle = lastOf Setting.asParticle l o.particle ∧
    (o.chain l).properties = lastOf Setting.asProperties l o.properties ∧
    (o.chain l).inplace = lastOf Setting.asInplace l o.inplace ∧
    (o.chain l).auto = lastOf Setting.asAuto l o.auto ∧
    (o.chain l).rng = lastOf Setting.asRNG l o.rng ∧
    (o.chain l).extrapolation = lastOf Setting.asExtrapolation l o.extrapolation := by
  induction l generalizing o with
  | nil => exact ⟨rfl, rfl, rfl, rfl, rfl, rfl⟩
  | cons a l ih =>
    have h := ih (o.set a)
    simp only [lastOf_cons]
    cases a <;> exact h

/-- **C89**  What a program that sets nothing gets: types as documented, particles changed in place, no cross sections
created by itself, extrapolation allowed.  Each setting of a chain replaces its own default only. -/
theorem C89_defaults (testParticle defaultSet kiss : τ) (l : List (Setting τ)) :
    ((defaultOptions testParticle defaultSet kiss).chain l).particle = lastOf Setting.asParticle l testParticle ∧
    ((defaultOptions testParticle defaultSet kiss).chain l).properties = lastOf Setting.asProperties l defaultSet ∧
    ((defaultOptions testParticle defaultSet kiss).chain l).inplace = lastOf Setting.asInplace l true ∧
    ((defaultOptions testParticle defaultSet kiss).chain l).auto = lastOf Setting.asAuto l false ∧
    ((defaultOptions testParticle defaultSet kiss).chain l).rng = lastOf Setting.asRNG l kiss ∧
    ((defaultOptions testParticle defaultSet kiss).chain l).extrapolation = lastOf Setting.asExtrapolation l true :=
  C89_last _ l

/-- **C89**  The order of settings of different options does not matter. -/
theorem C89_order (o : Options τ) {l l' : List (Setting τ)} (h : l.Perm l')
    (hd : l.Pairwise fun a b => ¬ SameOption a b) : o.chain l = o.chain l' := by
  unfold Options.chain
  refine h.foldl_eq' (fun a ha b hb o => ?_) o
  by_cases hab : a = b
  · rw [hab]
  have hsym : Std.Symm fun a b : Setting τ => ¬ SameOption a b := ⟨fun a b h h' => h (by
    unfold SameOption at h' ⊢
    tauto)⟩
  have hne : ¬ SameOption a b := List.Pairwise.forall hd ha hb hab
  unfold SameOption at hne
  cases a <;> cases b <;> first
    | rfl
    | exact absurd (by simp [Setting.asParticle, Setting.asProperties, Setting.asInplace, Setting.asAuto, Setting.asRNG,
        Setting.asExtrapolation]) hne

/-! ## C89: effects -/

/-- **C89**  Beyond the end of a table that ends falling and not at zero, evaluating a cross section throws if the
environment variable is `no`, or if it is not set and the last setting (or the default, if there is none) forbids
extrapolation; otherwise the value is positive and falls.  A variable that is set to anything else allows extrapolation
whatever the options say. -/
theorem C89_extrapolation (T : Tools W) (o : Options τ) (l : List (Setting τ)) (env : Option String) {mu : ℝ}
    {rows : List RowDoc} {t : XTable} {d0 d1 d2 : ℝ × ℝ} {x : XSec} (htab : loadTable mu rows = t ++ [d0, d1, d2])
    (h : (CSDoc.data rows).load ((o.chain l).tools env T).solve ((o.chain l).tools env T).extrapolate mu = .ok x)
    (hinc : Increasing (loadTable mu rows)) (h0 : 0 ≤ d0.1) (hd1 : 0 < d1.2) (hd2 : d2.2 ≠ 0)
    (hF : endSlope d0 d1 d2 < 0) {v : ℝ} (hv : d2.1 < v) :
    (Forbidden env (lastOf Setting.asExtrapolation l o.extrapolation) → x.sigma v = .error .outOfRange) ∧
    (¬ Forbidden env (lastOf Setting.asExtrapolation l o.extrapolation) →
      ∃ s, x.sigma v = .ok s ∧ 0 < s ∧ ∀ w, v < w → ∃ s', x.sigma w = .ok s' ∧ 0 < s' ∧ s' < s) := by
  have h' : mkData ((o.chain l).extrapolates env) mu (t ++ [d0, d1, d2]) = .ok x := by rw [← htab]; exact h
  rw [htab] at hinc
  rw [← (C89_last o l).2.2.2.2.2, ← extrapolates_false]
  constructor
  · intro hf
    rw [hf] at h'
    have e : t ++ [d0, d1, d2] = (t ++ [d0, d1]) ++ [d2] := by simp
    rw [e] at h' hinc
    exact C59_unavailable hinc h' hd2 (.inl rfl) hv
  · intro hf
    rw [Bool.not_eq_false] at hf
    rw [hf] at h'
    exact C59_extrapolates hinc h0 h' hd1 hd2 hF hv

/-- A history of calls on a database with options. -/
noncomputable def Options.runAll (o : Options τ) (env : Option String) (T : Tools W) (cs : List Call) (s : Session W) :
    Session W := cs.foldl (fun s c => (o.run env T c s).1) s

/-- **C89**  If the last setting of `auto_create_missing_elastic` is true, then after an initialisation that returns no
pair lacks an elastic equation that could be made.  If it is false, or if it is not set and was false, an
initialisation that returns adds only equations loaded from the document. -/
theorem C89_auto (T : Tools W) (o : Options τ) (l : List (Setting τ)) (env : Option String) {D0 : SDoc} {cs : List Call}
    (h : SpeciesFirst cs) (h' : SpeciesFirst (cs ++ [.init])) {s s' : Session W}
    (hs : (o.chain l).runAll env T cs (Session.new D0) = s) {n : ℕ}
    (hr : (o.chain l).run env T .init s = (s', .ok n)) :
    (lastOf Setting.asAuto l o.auto = true → ∀ a b, a < b → b < s'.props.length → HasElastic s' a a → HasElastic s' b b →
      (0 < s.dflt.vmax ∨ (EasyAt s' a ∧ EasyAt s' b)) → HasElastic s' a b) ∧
    (lastOf Setting.asAuto l o.auto = false → CleanNames s.doc.doc s.props → ∀ A B a b, A ≤ B →
      s'.props[A]? = some a → s'.props[B]? = some b → ∃ (ks : List ℕ) (es : List (WEq W)),
        s'.eqs A B = s.eqs A B ++ es ∧
        (∀ k, k ∈ ks ↔ s.filter.Keeps s.doc.doc (Wanted s.doc.doc s'.props a.name b.name) k) ∧
        List.Forall₂ (fun k w => loadNode ((o.chain l).tools env T) s.doc s'.props k = .ok w) ks es) := by
  rw [← (C89_last o l).2.2.2.1]
  have hs' : runCalls ((o.chain l).tools env T) (o.chain l).auto cs (Session.new D0) = s := hs
  constructor
  · intro ha a b hab hb h1 h2 h3
    exact C80_none_lacking h hs' (vmax := 0) (dv := 0) (.inr ⟨ha, rfl, h', hr⟩) hab hb h1 h2 (.inr h3)
  · intro ha hc A B a b hAB hA hB
    obtain ⟨-, ks, es, new, h1, -, h3, h4, h5, -⟩ := C79_init_returns h' hs' hr hc hAB hA hB
    rw [h5 ha, List.append_nil] at h1
    refine ⟨ks, es, by unfold Session.eqs at *; rw [h1], h3, h4.imp fun k w hk => ?_⟩
    obtain ⟨-, x, hx, hl, hcm⟩ := hk
    unfold loadNode
    rw [hx]
    dsimp only
    rw [show x.node = ⟨x.ins, x.outs, x.csModel, x.modelAttr⟩ from rfl, hl]
    dsimp only
    rw [hcm]

/-- **C89**  If the last setting of `inplace_interactions` is false, a run of the driver changes no particle of the cell. -/
theorem C89_inplace {c : CellConst S W} {T : Tools W} {n : ℕ} {eqs : ℕ → ℕ → List (WEq W)} (o : Options τ)
    (l : List (Setting τ)) (hc : c.inplace = (o.chain l).inplace) (hl : lastOf Setting.asInplace l o.inplace = false)
    (hv : c.rng.Valid) {fi fs : ℕ} {st0 st : DState (Part W) S ℝ} (hrun : driver (wholeEnv T n eqs c) fi fs st0 = .ok st) :
    st.mem = st0.mem ∧ st.range = st0.range ∧ st.erased = st0.erased :=
  C42_out_of_place (wholeEnv T n eqs c) (hc.trans ((C89_last o l).2.2.1.trans hl)) hv fi fs st0 st hrun

/-! ## Examples -/

namespace OptionsExample

/-- The defaults. -/
example : (defaultOptions 0 1 2).extrapolates none = true ∧ (defaultOptions 0 1 2).auto = false ∧
    (defaultOptions 0 1 2).inplace = true := ⟨rfl, rfl, rfl⟩

/-- A chain that sets an option twice. -/
def chain : List (Setting ℕ) := [.auto true, .extrapolation true, .particle 7, .extrapolation false]

example : ((defaultOptions 0 1 2).chain chain).particle = 7 ∧ ((defaultOptions 0 1 2).chain chain).properties = 1 ∧
    ((defaultOptions 0 1 2).chain chain).auto = true ∧ ((defaultOptions 0 1 2).chain chain).inplace = true ∧
    ((defaultOptions 0 1 2).chain chain).rng = 2 ∧ ((defaultOptions 0 1 2).chain chain).extrapolation = false := by
  obtain ⟨h1, h2, h3, h4, h5, h6⟩ := C89_last (defaultOptions 0 1 2) chain
  exact ⟨h1, h2, h4, h3, h5, h6⟩

/-- The first three set different options. -/
example : ([.auto true, .extrapolation true, .particle 7] : List (Setting ℕ)).Pairwise fun a b => ¬ SameOption a b := by
  simp [SameOption, Setting.asParticle, Setting.asProperties, Setting.asInplace, Setting.asAuto, Setting.asRNG,
    Setting.asExtrapolation]

/-- A table of speeds that falls at its end. -/
def rows : List RowDoc := [(.speed 1, 4), (.speed 2, 3), (.speed 3, 1)]

theorem table : loadTable 2 rows = [] ++ [(1, 4), (2, 3), (3, 1)] := by
  norm_num [loadTable, rows, XTable.insert]

theorem loads (T : Tools W) (o : Options τ) (env : Option String) :
    ∃ x, (CSDoc.data rows).load (o.tools env T).solve (o.tools env T).extrapolate 2 = .ok x := by
  show ∃ x, mkData (o.extrapolates env) 2 (loadTable 2 rows) = .ok x
  rw [table]
  unfold mkData
  rw [List.nil_append, show ([(1, 4), (2, 3), (3, 1)] : XTable) = [] ++ (1, 4) :: [(2, 3), (3, 1)] from rfl,
    checkThreshold_eq [] (by simp) (1, 4) (by norm_num) [(2, 3), (3, 1)]]
  exact ⟨_, rfl⟩

/-- The chain forbids extrapolation, unless the environment variable is set to something else than `no`. -/
example (T : Tools W) : ∃ x y, (CSDoc.data rows).load (((defaultOptions 0 1 2).chain chain).tools none T).solve
      (((defaultOptions 0 1 2).chain chain).tools none T).extrapolate 2 = .ok x ∧ x.sigma 5 = .error .outOfRange ∧
    (CSDoc.data rows).load (((defaultOptions 0 1 2).chain chain).tools (some "") T).solve
      (((defaultOptions 0 1 2).chain chain).tools (some "") T).extrapolate 2 = .ok y ∧ ∃ s, y.sigma 5 = .ok s ∧ 0 < s := by
  obtain ⟨x, hx⟩ := loads T ((defaultOptions 0 1 2).chain chain) none
  obtain ⟨y, hy⟩ := loads T ((defaultOptions 0 1 2).chain chain) (some "")
  have hinc : Increasing (loadTable 2 rows) := by
    rw [table]
    norm_num [Increasing]
  have key := fun env x hx => C89_extrapolation T (defaultOptions 0 1 2) chain env (x := x) table hx hinc (by norm_num)
    (by norm_num) (by norm_num) (by norm_num [endSlope]) (v := 5) (by norm_num)
  obtain ⟨s, hs, hp, -⟩ := (key _ _ hy).2 (by rintro (h | ⟨h, -⟩) <;> simp at h)
  exact ⟨x, y, hx, (key _ _ hx).1 (.inr ⟨rfl, rfl⟩), hy, s, hs, hp⟩

open SessionExample in
/-- With the chain, initialising creates the equation for the two species of the example. -/
example (T : Tools W) : ∃ s', ((defaultOptions 0 1 2).chain chain).run none T .init
    (((defaultOptions 0 1 2).chain chain).runAll none T [.addNames ["y", "x"]] (Session.new doc)) = (s', .ok 1) ∧
    HasElastic s' 0 1 := by
  generalize hT' : ((defaultOptions 0 1 2).chain OptionsExample.chain).tools none T = T'
  have hi : Call.init.run T' true (runCalls T' true [.addNames ["y", "x"]] (Session.new doc)) =
      (Call.create (-1) (-1) 0 0).run T' false (runCalls T' false [.addNames ["y", "x"], .init] (Session.new doc)) := by
    rw [inited T', show runCalls T' true [.addNames ["y", "x"]] (Session.new doc) =
      runCalls T' false [.addNames ["y", "x"]] (Session.new doc) from rfl, added]
    show Session.init T' true _ = Session.create T' _ _ _ _ _
    unfold Session.init
    dsimp only
    rw [sorted, show ([x, y] : Registry ℝ).length = 2 from rfl, filled]
    rfl
  rw [created T'] at hi
  subst hT'
  refine ⟨_, hi, ?_⟩
  have h1 : SpeciesFirst [.addNames ["y", "x"]] := ⟨[.addNames ["y", "x"]], [], rfl, by simp [Call.IsInit], by simp⟩
  have h2 : SpeciesFirst ([.addNames ["y", "x"]] ++ [.init]) :=
    ⟨[.addNames ["y", "x"]], [.init], rfl, by simp [Call.IsInit], by simp [Call.AddsSpecies]⟩
  refine (C89_auto T (defaultOptions 0 1 2) OptionsExample.chain none h1 h2 rfl hi).1 rfl 0 1 (by omega)
    (by show 1 < 2; omega) ⟨wx, by show wx ∈ [wx]; simp, rfl⟩ ⟨wy, by show wy ∈ [wy]; simp, rfl⟩
    (.inr ⟨⟨wx, ⟨[], [], rfl, rfl, by simp⟩, .inr (.inr (.inl rfl))⟩,
      ⟨wy, ⟨[], [], rfl, rfl, by simp⟩, .inr (.inr (.inl rfl))⟩⟩)

end OptionsExample

end Chimp
