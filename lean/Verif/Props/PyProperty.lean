import Verif.Model.PyProperty
import Verif.Props.TreeDB

/-!
# C117  The masses that the Python module uses
-/

namespace Chimp

variable {W : Type}

/-! ### Specification -/

/-- Python's `eval` of a text with dots gives the number that the calculator of the library gives for the text. -/
def SameCalculator (R : Reader) (pyEval : List Char → Option ℝ) : Prop :=
  ∀ t q, R.eval t = some q → pyEval (dotted t) = some q.coeff

/-- A `Particle` element of this name, at any depth. -/
def Xml.ParticleAt (root : Xml) (n : String) (a : List ℕ) (x : Xml) : Prop :=
  root.get a = some x ∧ x.hasTag "Particle" = true ∧ x.attr "name" = some n

/-- The mass of every species of this name is written, as plain text. -/
def Xml.PlainMass (root : Xml) (n : String) : Prop :=
  ∀ a x, root.ParticleAt n a x → ∃ c t, x.named "mass" = [c] ∧ c.kids = [.text t]

/-- The masses that the Python module sorts by (zero for an exception). -/
noncomputable def pyMass (pyEval : List Char → Option ℝ) (root : Xml) (n : String) : ℝ :=
  (pyGet pyEval root "mass" n).getD 0

/-! ### Proofs -/

private theorem mem_particlesAt {root : Xml} {n : String} {a : List ℕ} :
    a ∈ root.particles n ↔ ∃ x, root.ParticleAt n a x := by
  unfold Xml.particles Xml.ParticleAt
  rw [List.mem_filter, mem_everywhere]
  cases root.get a <;> simp

private theorem particles_one {root : Xml} {n : String} {a : List ℕ}
    (h : ∀ b, (∃ y, root.ParticleAt n b y) ↔ b = a) : root.particles n = [a] := by
  have hnd : (root.particles n).Nodup := (everywhere_nodup root "Particle").filter _
  have hm : ∀ b, b ∈ root.particles n ↔ b = a := fun b => mem_particlesAt.trans (h b)
  exact List.perm_singleton.1 ((List.perm_ext_iff_of_nodup hnd (List.nodup_singleton a)).2 fun b => by
    rw [hm, List.mem_singleton])

private theorem str_plain {c : Xml} {t : String} (h : c.kids = [.text t]) : c.str = t.toList := by
  cases c with
  | text s => simp [Xml.kids] at h
  | elem n as ks =>
    simp only [Xml.kids] at h
    subst h
    simp [Xml.str, Xml.strs]

private theorem pyGet_one {E : List Char → Option ℝ} {root : Xml} {n prop : String} {a : List ℕ} {x : Xml}
    (hp : root.particles n = [a]) (hx : root.get a = some x) :
    (x.named prop = [] → pyGet E root prop n = none) ∧
    ∀ c t, x.named prop = [c] → c.kids = [.text t] → pyGet E root prop n = E (dotted t.toList) := by
  unfold pyGet
  rw [hp]
  simp only [List.flatMap_cons, List.flatMap_nil, List.append_nil, hx]
  refine ⟨fun h => by simp [h], fun c t hc ht => ?_⟩
  simp [hc, ht]

/-- **C117**  The translation of a text: the two colons between parts without a colon become a dot. -/
theorem C117_translation : ∀ parts : List (List Char), (∀ p ∈ parts, ':' ∉ p) →
    dotted (List.intercalate [':', ':'] parts) = List.intercalate ['.'] parts := by
  have hone : ∀ (p r : List Char), ':' ∉ p → dotted (p ++ r) = p ++ dotted r := by
    intro p r
    induction p with
    | nil => intro _; rfl
    | cons c p ih =>
      intro h
      simp only [List.mem_cons, not_or] at h
      rw [List.cons_append, dotted, ih h.2, List.cons_append]
      rintro s rfl
      exact absurd rfl h.1
  intro parts
  induction parts with
  | nil => intro _; rfl
  | cons p ps ih =>
    intro h
    have hp := h p (by simp)
    have ih' := ih fun q hq => h q (List.mem_cons_of_mem _ hq)
    cases ps with
    | nil =>
      have := hone p [] hp
      simp only [dotted, List.append_nil] at this
      simpa [List.intercalate] using this
    | cons q qs =>
      have e : ∀ c : List Char, List.intercalate c (p :: q :: qs) = p ++ (c ++ List.intercalate c (q :: qs)) := by
        intro c
        simp [List.intercalate, List.intersperse]
      rw [e, e, hone p _ hp, ← ih']
      rfl

/-- **C117**  For a species that the library adds by name, the functions of the Python module return the number that the
library has, if the property is written as plain text.  If it is not written, the library has zero and the Python module
throws. -/
theorem C117_agrees {R : Reader} {pyEval : List Char → Option ℝ} (hE : SameCalculator R pyEval) {s s' : TreeDB W}
    {n : String} (h : s.addName R n = .ok s') :
    ∃ a x p, s.root.ParticleAt n a x ∧ R.Says x p ∧ p.name = n ∧ s'.props = addParticleType s.props p ∧
      ∀ prop v, (prop = "mass" ∧ v = p.mass ∨ prop = "charge" ∧ v = p.charge) →
        (x.named prop = [] ∧ v = 0 ∧ pyGet pyEval s.root prop n = none) ∨
        ∃ c, x.named prop = [c] ∧ ((∃ t, c.kids = [.text t]) → pyGet pyEval s.root prop n = some v) := by
  obtain ⟨a, x, p, hb, hx, hsay, hpn, rfl⟩ := (C115_add_name R s s' n).1 h
  obtain ⟨y, hy, ht, hat⟩ := (hb a).2 rfl
  rw [hx] at hy
  cases hy
  have hone : s.root.particles n = [a] := particles_one hb
  refine ⟨a, x, p, ⟨hx, ht, hat⟩, hsay, hpn, rfl, ?_⟩
  obtain ⟨-, hm, hc, -⟩ := hsay
  have key : ∀ (prop : String) (v : ℝ) (dim : SIDim),
      ((x.named prop = [] ∧ v = 0) ∨ ∃ c, x.named prop = [c] ∧ R.eval c.str = some ⟨v, dim⟩) →
      (x.named prop = [] ∧ v = 0 ∧ pyGet pyEval s.root prop n = none) ∨
        ∃ c, x.named prop = [c] ∧ ((∃ t, c.kids = [.text t]) → pyGet pyEval s.root prop n = some v) := by
    intro prop v dim hh
    obtain ⟨g1, g2⟩ := pyGet_one (E := pyEval) (prop := prop) hone hx
    rcases hh with ⟨h0, hv⟩ | ⟨c, hc, hev⟩
    · exact .inl ⟨h0, hv, g1 h0⟩
    · refine .inr ⟨c, hc, ?_⟩
      rintro ⟨t, ht⟩
      rw [g2 c t hc ht]
      rw [str_plain ht] at hev
      exact hE _ _ hev
  rintro prop v (⟨rfl, rfl⟩ | ⟨rfl, rfl⟩)
  · exact key "mass" _ _ hm
  · exact key "charge" _ _ hc

private theorem addNames_one {R : Reader} : ∀ (ns : List String) (s s' : TreeDB W), s.addNames R ns = (s', none) →
    ∀ n ∈ ns, ∃ c, s.root.particles n = [c]
  | [], _, _, _, n, hn => by simp at hn
  | k :: ns, s, s', h, n, hn => by
    unfold TreeDB.addNames at h
    split at h
    · cases h
    rename_i s1 h1
    obtain ⟨a, x, p, hb, -, -, -, rfl⟩ := (C115_add_name R s s1 k).1 h1
    rcases List.mem_cons.1 hn with rfl | hn
    · exact ⟨a, particles_one hb⟩
    · exact addNames_one ns _ s' h n hn

/-- **C117** (finding)  The library does not add a species that has two `Particle` elements. -/
theorem C117_twice (R : Reader) (s s' : TreeDB W) (n : String) {a b : List ℕ} {x y : Xml} (ha : s.root.ParticleAt n a x)
    (hb : s.root.ParticleAt n b y) (hab : a ≠ b) : s.addName R n ≠ .ok s' := by
  intro h
  obtain ⟨c, -, -, hc, -⟩ := (C115_add_name R s s' n).1 h
  exact hab (((hc a).1 ⟨x, ha⟩).trans ((hc b).1 ⟨y, hb⟩).symm)

/-- Two `Particle` elements of the same name. -/
def twoX : Xml := .elem "ParticleDB" []
  [.elem "Particle" [("name", "X")] [.elem "mass" [] [.text "1"]],
   .elem "Particle" [("name", "X")] [.elem "mass" [] [.text "2"]]]

/-- A mass with an element inside. -/
def mixedMass : Xml := .elem "mass" [] [.text "2", .elem "note" [] [], .text "*3"]

def mixedX : Xml := .elem "ParticleDB" [] [.elem "Particle" [("name", "X")] [mixedMass]]

/-- **C117** (finding)  Of two `Particle` elements the Python module takes the first.  Of a mass with an element inside it
takes what is before this element, the library all text. -/
theorem C117_differs :
    (∃ root a b x y, a ≠ b ∧ root.ParticleAt "X" a x ∧ root.ParticleAt "X" b y ∧
      ∀ pyEval, pyGet pyEval root "mass" "X" = pyEval ['1']) ∧
    ∃ root a x c, root.ParticleAt "X" a x ∧ x.named "mass" = [c] ∧ c.str = ['2', '*', '3'] ∧
      ∀ pyEval, pyGet pyEval root "mass" "X" = pyEval ['2'] := by
  refine ⟨⟨twoX, [0], [1], .elem "Particle" [("name", "X")] [.elem "mass" [] [.text "1"]],
    .elem "Particle" [("name", "X")] [.elem "mass" [] [.text "2"]], by simp, ⟨rfl, rfl, rfl⟩, ⟨rfl, rfl, rfl⟩,
    fun pyEval => ?_⟩, ⟨mixedX, [0], .elem "Particle" [("name", "X")] [mixedMass], mixedMass, ⟨rfl, rfl, rfl⟩, rfl, rfl,
    fun pyEval => ?_⟩⟩
  · unfold pyGet
    rw [show twoX.particles "X" = [[0], [1]] by decide +kernel]
    rfl
  · unfold pyGet
    rw [show mixedX.particles "X" = [[0]] by decide +kernel]
    rfl

/-- **C117**  Interactions written by the Python module for species of a document load in a database with the same
document: no more is needed of the masses than that they are written as plain text and positive.  The equation is elastic,
for the two particles that were named, with Bird's cross section. -/
theorem C117_written {R : Reader} {T : Tools W} {parse : List Char → Option ℤ} {pyEval : List Char → Option ℝ}
    (hp : ReadsNumbers parse) (hE : SameCalculator R pyEval) {root : Xml} {ns : List String} {s : TreeDB W}
    (h : TreeDB.addNames R ns { root } = (s, none)) (hplain : ∀ n ∈ ns, root.PlainMass n)
    (hpos : ∀ p ∈ s.props, 0 < p.mass) {lhs rhs : List (String × ℤ)} (hl : Dict lhs) (hr : Dict rhs)
    (hln : ∀ i ∈ lhs, 1 ≤ i.2 ∧ i.1 ∈ ns) (h2 : (lhs.map Prod.snd).sum = 2) (hs : lhs.Perm rhs) (v t u : String)
    (ref : Option (String × Option String)) {a Tr ω : ℝ} (ha : R.eval v.toList = some ⟨a, .area⟩)
    (ht : R.eval t.toList = some ⟨Tr, .temperature⟩) (hu : R.eval u.toList = some ⟨ω, .unity⟩) :
    ∃ w : WEq W, loadXml R T parse (sortProps s.props) (pyInteraction (pyMass pyEval root) lhs rhs
        [pyVHS v t u (ref.map fun r => pyReference r.1 r.2)]) = .ok w ∧
      IsVHSFor (sortProps s.props) (pyMass pyEval root) lhs rhs R.KB R.tiny a Tr ω w ∧ w.model = .elastic := by
  obtain ⟨g1, g2, -, -, g5, -, g7⟩ := C115_names R ns _ s h (by unfold NodupNames; simp)
  have hperm := sortProps_perm s.props
  have hone : ∀ n ∈ ns, ∃ c, root.particles n = [c] := addNames_one ns { root } s h
  have hmass : ∀ p ∈ s.props, p.mass = pyMass pyEval root p.name := by
    intro p hp
    rcases g7 p hp with hno | ⟨hpn, b, y, hy, hty, hsay⟩
    · simp at hno
    obtain ⟨c, hc⟩ := hone p.name hpn
    have hat : root.ParticleAt p.name b y := ⟨hy, hty, hsay.1⟩
    obtain rfl : b = c := by
      have := mem_particlesAt.2 ⟨y, hat⟩
      rw [hc] at this
      simpa using this
    obtain ⟨m, txt, hm, htxt⟩ := hplain p.name hpn b y hat
    obtain ⟨-, h0 | ⟨m', hm', hev⟩, -⟩ := hsay
    · rw [hm] at h0
      simp at h0
    · rw [hm] at hm'
      cases hm'
      unfold pyMass
      rw [(pyGet_one (E := pyEval) hc hy).2 m txt hm htxt]
      rw [str_plain htxt] at hev
      rw [hE _ _ hev]
      rfl
  have hk : ∀ d : List (String × ℤ), (∀ i ∈ d, i.1 ∈ ns) → Known (sortProps s.props) (pyMass pyEval root) d := by
    intro d hd i hi
    obtain ⟨p, hp, hpn⟩ := g5 i.1 (hd i hi)
    exact ⟨p, hperm.mem_iff.2 hp, hpn, by rw [hmass p hp, hpn]⟩
  have hrn : ∀ i ∈ rhs, 1 ≤ i.2 ∧ i.1 ∈ ns := fun i hi => hln i (hs.mem_iff.2 hi)
  exact (C112_python_elastic R T hp ((nodupNames_of_perm hperm).2 g1) (fun p hp => hpos p (hperm.mem_iff.1 hp))
    ⟨hl, hr, fun i hi => (hln i hi).1, fun i hi => (hrn i hi).1, hk lhs fun i hi => (hln i hi).2,
      hk rhs fun i hi => (hrn i hi).2, h2⟩ hs v t u ref).1 a Tr ω ha ht hu

/-! ### A document -/

namespace PyPropertyExample

open TreeDBExample (tree desk added)

/-- Python on the texts of the document. -/
noncomputable def pyDesk (t : List Char) : Option ℝ := (desk.eval t).map Qty.coeff

theorem same : SameCalculator desk pyDesk := by
  intro t q h
  have hd : dotted t = t := by
    unfold TreeDBExample.desk at h
    simp only at h
    split_ifs at h <;> subst_vars <;> first | rfl | cases h
  rw [hd, pyDesk, h]
  rfl

theorem plain (n : String) (a : List ℕ) (x : Xml) (h : tree.ParticleAt n a x) :
    ∃ c t, x.named "mass" = [c] ∧ c.kids = [.text t] := by
  have ha := mem_everywhere.2 ⟨x, h.1, h.2.1⟩
  rw [show tree.everywhere "Particle" = [[0, 0], [0, 1]] by decide +kernel] at ha
  simp only [List.mem_cons, List.not_mem_nil, or_false] at ha
  obtain ⟨hx, -, -⟩ := h
  rcases ha with rfl | rfl <;> cases hx <;> exact ⟨_, _, rfl, rfl⟩

/-- Python's masses of the document, and an interaction written with them: elastic scattering of electrons by hydrogen. -/
example (T : Tools Unit) : pyGet pyDesk tree "mass" "H" = some 2000 ∧ pyGet pyDesk tree "charge" "H" = none ∧
    ∃ w : WEq Unit, loadXml desk T TreeDBExample.parse (sortProps [⟨"H", 2000, 0⟩, ⟨"e", 1, -1⟩])
      (pyInteraction (pyMass pyDesk tree) [("H", 1), ("e", 1)] [("e", 1), ("H", 1)] [pyVHS "a" "t" "n" none]) = .ok w ∧
      w.model = .elastic := by
  refine ⟨?_, ?_, ?_⟩
  · unfold pyGet
    rw [show tree.particles "H" = [[0, 0]] by decide +kernel]
    simp [TreeDBExample.tree, Xml.get, Xml.named, Xml.hasTag, Xml.kids, dotted, pyDesk, TreeDBExample.desk]
  · unfold pyGet
    rw [show tree.particles "H" = [[0, 0]] by decide +kernel]
    rfl
  · obtain ⟨w, hw, -, hm⟩ := C117_written (T := T) TreeDBExample.reads same added (fun n _ => plain n)
      (by intro p hp; simp only [List.mem_cons, List.not_mem_nil, or_false] at hp; rcases hp with rfl | rfl <;> norm_num)
      (lhs := [("H", 1), ("e", 1)]) (rhs := [("e", 1), ("H", 1)]) (by unfold Dict; decide) (by unfold Dict; decide)
      (by simp) (by simp) (List.Perm.swap ..) "a" "t" "n" none (a := 3) (Tr := 273) (ω := 1)
      (by simp [desk]) (by simp [desk]) (by simp [desk])
    exact ⟨w, hw, hm⟩

end PyPropertyExample

end Chimp
