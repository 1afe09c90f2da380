import Verif.Model.LoadXml
import Verif.Props.Reading
import Verif.Props.Writer
import Verif.Props.CrossSection
import Verif.Props.Whole
import Verif.Lemmas.EquationLoad
import Mathlib.Tactic.Positivity

/-!
# C112: equations loaded from XML text

From what is written in an `Interaction` element to the equation the driver uses, for any calculator: the Python
module's elements give Bird's cross section for the two species that were named, and everything not understood is
ignored.
-/

namespace Chimp

variable {W : Type}

/-! ### Lemmas -/

theorem loadXml_iff {R : Reader} {T : Tools W} {parse : List Char → Option ℤ} {db : Registry ℝ} {x : Xml}
    {w : WEq W} : loadXml R T parse db x = .ok w ↔ ∃ n c e cs d, readInteraction parse x = some n ∧
      x.named "cross_section" = [c] ∧ loadEq db csNames modelNames n = .ok e ∧ R.crossSection c = .ok cs ∧
      R.inter e.model cs x = .ok d ∧ completeEq T db e d = .ok w := by
  unfold loadXml
  constructor
  · intro h
    split at h
    swap
    · cases h
    rename_i n c hn hc
    split at h
    · cases h
    rename_i e he
    split at h
    · cases h
    rename_i cs hcs
    split at h
    · cases h
    rename_i d hd
    split at h
    · cases h
    rename_i w' hw
    cases h
    exact ⟨n, c, e, cs, d, hn, hc, he, hcs, hd, hw⟩
  · rintro ⟨n, c, e, cs, d, hn, hc, he, hcs, hd, hw⟩
    simp only [hn, hc, he, hcs, hd, hw]

private theorem inter_cs {R : Reader} {m : String} {cs : CSDoc} {x : Xml} {d : InterDoc} (h : R.inter m cs x = .ok d) :
    d.cs = cs := by
  unfold Reader.inter at h
  repeat' split at h
  all_goals first | cases h; rfl | cases h

/-! ### Everything that is loaded was written -/

/-- **C112**  If an `Interaction` element is loaded, then it has exactly one `cross_section`, which describes a cross
section in the sense of C110; the equation has it for the reduced mass of its two reactants.  The parameter of the
model for soft spheres, and the energy an inelastic model declares, are written in the element as a number and an energy; an
inelastic equation declares nothing only if the element has no such child, or several. -/
theorem C112_written {R : Reader} {T : Tools W} {parse : List Char → Option ℤ} {db : Registry ℝ} {x : Xml} {w : WEq W}
    (h : loadXml R T parse db x = .ok w) :
    (∃ c cs, x.named "cross_section" = [c] ∧ R.Describes c cs ∧ c.attr "model" = some w.eq.csModel ∧
      ∃ a b, db[w.eq.A.species.toNat]? = some a ∧ db[w.eq.B.species.toNat]? = some b ∧
        w.mu.value = a.mass * b.mass / (a.mass + b.mass) ∧
        cs.load T.solve T.extrapolate w.mu.value = .ok w.cs) ∧
    (∀ m, x.attr "model" = some m → w.eq.model = m) ∧
    (w.eq.model = "elastic" → w.model = .elastic ∧ w.declared = none) ∧
    (w.eq.model = "vss_elastic" → ∃ k, w.model = .vss k ∧ R.Finds x "vss_param_inv" k .unity) ∧
    (w.eq.model = "inelastic" →
      (∃ e, w.declared = some e ∧ R.Finds x "KineticEnergyChange" e .energy) ∨
      (w.declared = none ∧ (x.named "KineticEnergyChange").length ≠ 1)) := by
  obtain ⟨n, c, e, cs, d, hn, hc, he, hcs, hd, hw⟩ := loadXml_iff.1 h
  obtain ⟨a, b, hA, hB, rfl, hmu, hl, hm, hdec, hlab⟩ := completeEq_ok hw
  rw [inter_cs hd] at hl
  obtain ⟨ins, outs, nOut, -, -, -, -, -, hc1, -, hmo⟩ := loadEq_ok he
  have hnode : c.attr "model" = some n.csModel ∧ n.modelAttr = x.attr "model" := by
    unfold readInteraction at hn
    rw [hc] at hn
    split at hn
    · rename_i hcc
      cases hcc
      split at hn
      · rename_i hm'
        cases hn
        exact ⟨hm', rfl⟩
      · cases hn
    · cases hn
  refine ⟨⟨c, cs, hc, (C110_read R c cs).1 hcs, by rw [hnode.1, hc1], a, b, hA, hB, by rw [hmu]; rfl, ?_⟩,
    ?_, ?_, ?_, ?_⟩
  · rw [hmu]
    exact hl
  · intro m hxm
    rw [hmo, chooseModel, hnode.2, hxm]
    rfl
  · intro hel
    unfold Reader.inter at hd
    rw [if_neg (by rw [hel]; decide), if_neg (by rw [hel]; decide)] at hd
    cases hd
    refine ⟨?_, hdec⟩
    unfold loadModel at hm
    rw [if_pos hel] at hm
    exact (Except.ok.inj hm).symm
  · intro hv
    unfold Reader.inter at hd
    rw [if_pos hv] at hd
    split at hd
    · cases hd
    rename_i k hk
    cases hd
    refine ⟨k, ?_, (C110_vss R x k).1 hk⟩
    unfold loadModel at hm
    rw [if_neg (by rw [hv]; decide), if_pos hv] at hm
    exact (Except.ok.inj hm).symm
  · intro hi
    unfold Reader.inter at hd
    rw [if_neg (by rw [hi]; decide), if_pos hi] at hd
    split at hd
    · cases hd
    rename_i k hk
    cases hd
    dsimp only at hdec
    obtain ⟨h1, h2⟩ := C110_declared R x
    cases k with
    | none => exact .inr ⟨hdec, h2.1 hk⟩
    | some e => exact .inl ⟨e, hdec, (h1 e).1 hk⟩

/-! ### What is not understood is ignored -/

/-- **C112**  Comments, white space, references and other elements between the parts of an `Interaction`, and the order of
the parts, do not matter: two elements with the same attributes and, under each of four names, the same children in
the same order, load alike. -/
theorem C112_content (R : Reader) (T : Tools W) (parse : List Char → Option ℤ) (db : Registry ℝ) (tag tag' : String)
    (as : List (String × String)) {ks ks' : List Xml}
    (h : ∀ t ∈ ["Eq", "cross_section", "KineticEnergyChange", "vss_param_inv"],
      ks.filter (Xml.hasTag t) = ks'.filter (Xml.hasTag t)) :
    loadXml R T parse db (.elem tag as ks) = loadXml R T parse db (.elem tag' as ks') := by
  have h1 : (Xml.elem tag as ks).named "Eq" = (Xml.elem tag' as ks').named "Eq" := h "Eq" (by simp)
  have h2 : (Xml.elem tag as ks).named "cross_section" = (Xml.elem tag' as ks').named "cross_section" :=
    h "cross_section" (by simp)
  have h3 : (Xml.elem tag as ks).named "KineticEnergyChange" = (Xml.elem tag' as ks').named "KineticEnergyChange" :=
    h "KineticEnergyChange" (by simp)
  have h4 : (Xml.elem tag as ks).named "vss_param_inv" = (Xml.elem tag' as ks').named "vss_param_inv" :=
    h "vss_param_inv" (by simp)
  have ha : (Xml.elem tag as ks).attr "model" = (Xml.elem tag' as ks').attr "model" := rfl
  have hr : readInteraction parse (.elem tag as ks) = readInteraction parse (.elem tag' as ks') := by
    unfold readInteraction readSide
    rw [h1, h2, ha]
  have hi : ∀ m cs, R.inter m cs (.elem tag as ks) = R.inter m cs (.elem tag' as ks') := by
    intro m cs
    unfold Reader.inter Reader.vssParamInv Reader.declared Reader.value Reader.query
    rw [h3, h4]
  unfold loadXml
  rw [hr, h2]
  simp only [hi]

/-- **C112**  The same inside a `cross_section` of one of the four models given by formulas. -/
theorem C112_cross_section_content (R : Reader) (tag tag' : String) (as : List (String × String)) {ks ks' : List Xml}
    (hm : as.lookup "model" ≠ some "data" ∧ as.lookup "model" ≠ some "lotz")
    (h : ∀ t ∈ ["value", "T_ref", "visc_T_law", "value_vref", "A", "B", "threshold"],
      ks.filter (Xml.hasTag t) = ks'.filter (Xml.hasTag t)) :
    R.crossSection (.elem tag as ks) = R.crossSection (.elem tag' as ks') := by
  have hn : ∀ t ∈ ["value", "T_ref", "visc_T_law", "value_vref", "A", "B", "threshold"],
      (Xml.elem tag as ks).named t = (Xml.elem tag' as ks').named t := h
  have hv : ∀ t ∈ ["value", "T_ref", "visc_T_law", "value_vref", "A", "B", "threshold"], ∀ d,
      R.value (.elem tag as ks) t d = R.value (.elem tag' as ks') t d := by
    intro t ht d
    unfold Reader.value Reader.query
    rw [hn t ht]
  have ht : R.threshold (.elem tag as ks) = R.threshold (.elem tag' as ks') := by
    unfold Reader.threshold Reader.query
    rw [hn "threshold" (by simp)]
  have ha : ∀ (t : String) (l : List Xml), (Xml.elem t as l).attr "model" = as.lookup "model" := fun _ _ => rfl
  unfold Reader.crossSection
  rw [ha, ha]
  split
  · rw [hv "value" (by simp), ht]
  · rw [hv "value" (by simp), hv "T_ref" (by simp), hv "visc_T_law" (by simp), ht]
  · rw [hv "value_vref" (by simp), ht]
  · rw [hv "A" (by simp), hv "B" (by simp), ht]
  · rename_i e
    exact absurd e hm.1
  · rename_i e
    exact absurd e hm.2
  · rfl

/-! ### Elements written by the Python module -/

/-- Two particles are written on the left side: their species are in the database with the masses that were used. -/
structure TwoKnown (db : Registry ℝ) (mass : String → ℝ) (lhs rhs : List (String × ℤ)) : Prop where
  left : Dict lhs
  right : Dict rhs
  posL : ∀ i ∈ lhs, 1 ≤ i.2
  posR : ∀ i ∈ rhs, 1 ≤ i.2
  knownL : Known db mass lhs
  knownR : Known db mass rhs
  two : (lhs.map Prod.snd).sum = 2

/-- Bird's cross section for variable hard spheres, with the small number the library adds to the denominator. -/
noncomputable def birdVHS (KB tiny area Tref omega mu g : ℝ) : ℝ :=
  area * (2 * KB * Tref / (mu * g ^ 2 + tiny)) ^ (omega - 1 / 2) / Real.Gamma (5 / 2 - omega)

/-- The equation is for the two particles on the left, the lighter one first, with Bird's cross section for their
reduced mass; it prints as Python prints it. -/
def IsVHSFor (db : Registry ℝ) (mass : String → ℝ) (lhs rhs : List (String × ℤ)) (KB tiny area Tref omega : ℝ)
    (w : WEq W) : Prop :=
  ∃ p q, p ∈ db ∧ q ∈ db ∧ (p = q ∨ MassNameBefore p q) ∧
    (lhs.flatMap fun i => List.replicate i.2.toNat i.1).Perm [p.name, q.name] ∧
    db[w.eq.A.species.toNat]? = some p ∧ db[w.eq.B.species.toNat]? = some q ∧
    w.mu.value = p.mass * q.mass / (p.mass + q.mass) ∧
    (∀ g, 0 ≤ g → w.cs.sigma g = .ok (birdVHS KB tiny area Tref omega (p.mass * q.mass / (p.mass + q.mass)) g)) ∧
    w.cs.thrE = 0 ∧ w.eq.print db = some (pyEqText mass lhs rhs)

private theorem py_core {R : Reader} {T : Tools W} {parse : List Char → Option ℤ} (hp : ReadsNumbers parse)
    {db : Registry ℝ} (hnd : NodupNames db) (hmass : ∀ p ∈ db, 0 < p.mass) {mass : String → ℝ}
    {lhs rhs : List (String × ℤ)} (hk : TwoKnown db mass lhs rhs) {v t u : String}
    {ref : Option (String × Option String)} {m : Option String} {x : Xml} (hx : PyWritten mass lhs rhs "vhs" m x)
    (hcx : x.named "cross_section" = [pyVHS v t u (ref.map fun r => pyReference r.1 r.2)])
    (hel : m = none → lhs.Perm rhs) (hvm : ∀ s, m = some s → s = "vss_elastic") :
    (∀ a Tr ω k, R.eval v.toList = some ⟨a, .area⟩ → R.eval t.toList = some ⟨Tr, .temperature⟩ →
      R.eval u.toList = some ⟨ω, .unity⟩ → (m ≠ none → R.vssParamInv x = .ok k) →
      ∃ w, loadXml R T parse db x = .ok w ∧ IsVHSFor db mass lhs rhs R.KB R.tiny a Tr ω w ∧
        w.model = if m = none then .elastic else .vss k) ∧
    ∀ w, loadXml R T parse db x = .ok w → (∃ a Tr ω, R.eval v.toList = some ⟨a, .area⟩ ∧
      R.eval t.toList = some ⟨Tr, .temperature⟩ ∧ R.eval u.toList = some ⟨ω, .unity⟩) ∧
      (m ≠ none → ∃ k, R.vssParamInv x = .ok k) := by
  obtain ⟨n, e, hn, he, ⟨p, q, hpd, hqd, hord, hperm, hA, hB⟩, -, hcs, hm1, hm2, -, hpr⟩ :=
    C87_loads hnd hk.left hk.right hk.posL hk.posR hk.knownL hk.knownR hk.two (cs := csNames) (ms := modelNames)
      (c := "vhs") (by simp [csNames]) (by simp [modelNames]) hp hx
  have hmod : e.model = if m = none then "elastic" else "vss_elastic" := by
    cases m with
    | none => simpa using hm2 rfl (hel rfl)
    | some s => simpa [hvm s rfl] using hm1 s rfl
  constructor
  · intro a Tr ω k h1 h2 h3 h4
    obtain ⟨i, hi, ei⟩ := idx_of_mem hnd hpd
    obtain ⟨j, hj, ej⟩ := idx_of_mem hnd hqd
    have gA : db[e.A.species.toNat]? = some p := by
      rw [hA, ei]
      simpa [Term.single] using hi
    have gB : db[e.B.species.toNat]? = some q := by
      rw [hB, ej]
      simpa [Term.single] using hj
    have hmu : 0 < p.mass * q.mass / (p.mass + q.mass) := by
      have := hmass p hpd
      have := hmass q hqd
      positivity
    obtain ⟨xs, hxs, hrule⟩ := (C54_vhs hmu (vhsInfo R.KB R.tiny a Tr ω) 0).2 le_rfl
    have hsig : ∀ g, 0 ≤ g → xs.sigma g = .ok (birdVHS R.KB R.tiny a Tr ω (p.mass * q.mass / (p.mass + q.mass)) g) := by
      intro g hg
      rw [(hrule.2 g hg).2 (by positivity)]
      simp only [vhsInfo, birdVHS]
      rw [mul_one_div]
    have hcr : R.crossSection (pyVHS v t u (ref.map fun r => pyReference r.1 r.2)) =
        .ok (.vhs (vhsInfo R.KB R.tiny a Tr ω) none) :=
      (C110_python_vhs R v t u ref _).2 ⟨a, Tr, ω, h1, h2, h3, rfl⟩
    obtain ⟨d, hd, hdm⟩ : ∃ d : InterDoc, R.inter e.model (.vhs (vhsInfo R.KB R.tiny a Tr ω) none) x = .ok d ∧
        ∀ cs, loadModel T db e d cs = .ok (if m = none then .elastic else .vss k) := by
      unfold Reader.inter loadModel
      by_cases hm : m = none
      · rw [if_pos hm] at hmod
        rw [hmod, if_neg (by decide), if_neg (by decide)]
        exact ⟨_, rfl, fun cs => by rw [if_pos rfl, if_pos hm]⟩
      · rw [if_neg hm] at hmod
        rw [hmod, if_pos rfl, h4 hm]
        exact ⟨_, rfl, fun cs => by rw [if_neg (by decide), if_pos rfl, if_neg hm]⟩
    have hdcs := inter_cs hd
    have hw : completeEq T db e d = .ok ⟨e, ReducedMass.mk' p.mass q.mass, xs, if m = none then .elastic else .vss k,
        d.declared⟩ := by
      unfold completeEq
      rw [gA, gB]
      dsimp only
      rw [hdcs, if_pos (by rw [hcs]; rfl)]
      have : CSDoc.load T.solve T.extrapolate (ReducedMass.mk' p.mass q.mass).value
          (.vhs (vhsInfo R.KB R.tiny a Tr ω) none) = .ok xs := hxs
      rw [this]
      dsimp only
      rw [hdm]
    refine ⟨_, loadXml_iff.2 ⟨n, _, e, _, d, hn, hcx, he, hcr, hd, hw⟩, ⟨p, q, hpd, hqd, hord, hperm, gA, gB, rfl, hsig,
      hrule.1, hpr⟩, rfl⟩
  · intro w hw
    obtain ⟨n', c, e', cs, d, hn', hc, he', hcr, hd, hw⟩ := loadXml_iff.1 hw
    obtain rfl : _ = c := by simpa [hcx] using hc
    obtain rfl : n = n' := by simpa [hn] using hn'
    obtain rfl : e = e' := by simpa [he] using he'
    obtain ⟨a, Tr, ω, h1, h2, h3, -⟩ := (C110_python_vhs R v t u ref _).1 hcr
    refine ⟨⟨a, Tr, ω, h1, h2, h3⟩, fun hm => ?_⟩
    unfold Reader.inter at hd
    rw [if_pos (by rw [hmod, if_neg hm])] at hd
    split at hd
    · cases hd
    · exact ⟨_, by assumption⟩

/-- **C112**  An interaction written by the Python class `Interaction` with the same particles on both sides and a VHS
cross section loads exactly if the three texts are an area, a temperature and a number.  It is then elastic, for the
two particles that were named, with Bird's cross section for these values and their reduced mass at every relative
speed. -/
theorem C112_python_elastic (R : Reader) (T : Tools W) {parse : List Char → Option ℤ} (hp : ReadsNumbers parse)
    {db : Registry ℝ} (hnd : NodupNames db) (hmass : ∀ p ∈ db, 0 < p.mass) {mass : String → ℝ}
    {lhs rhs : List (String × ℤ)} (hk : TwoKnown db mass lhs rhs) (hs : lhs.Perm rhs) (v t u : String)
    (ref : Option (String × Option String)) :
    let x := pyInteraction mass lhs rhs [pyVHS v t u (ref.map fun r => pyReference r.1 r.2)]
    (∀ a Tr ω, R.eval v.toList = some ⟨a, .area⟩ → R.eval t.toList = some ⟨Tr, .temperature⟩ →
      R.eval u.toList = some ⟨ω, .unity⟩ →
      ∃ w, loadXml R T parse db x = .ok w ∧ IsVHSFor db mass lhs rhs R.KB R.tiny a Tr ω w ∧ w.model = .elastic) ∧
    ∀ w, loadXml R T parse db x = .ok w → ∃ a Tr ω, R.eval v.toList = some ⟨a, .area⟩ ∧
      R.eval t.toList = some ⟨Tr, .temperature⟩ ∧ R.eval u.toList = some ⟨ω, .unity⟩ := by
  intro x
  have hx : PyWritten mass lhs rhs "vhs" none x := .plain _ (C87_data "" "" v t u [] _).2
  have hcx : x.named "cross_section" = [pyVHS v t u (ref.map fun r => pyReference r.1 r.2)] := by
    simp [x, pyInteraction, Xml.named, Xml.hasTag, pyEqXml, pyVHS]
  obtain ⟨h1, h2⟩ := py_core (R := R) (T := T) hp hnd hmass hk hx hcx (fun _ => hs) (fun s h => by simp at h)
  refine ⟨fun a Tr ω e1 e2 e3 => ?_, fun w hw => (h2 w hw).1⟩
  obtain ⟨w, e4, e5, e6⟩ := h1 a Tr ω 0 e1 e2 e3 (fun h => absurd rfl h)
  exact ⟨w, e4, e5, by simpa using e6⟩

/-- **C112**  The same for the class `VSSInteraction`: the text of its parameter has to be a number too, and the model is
that of variable soft spheres with this number. -/
theorem C112_python_vss (R : Reader) (T : Tools W) {parse : List Char → Option ℤ} (hp : ReadsNumbers parse)
    {db : Registry ℝ} (hnd : NodupNames db) (hmass : ∀ p ∈ db, 0 < p.mass) {mass : String → ℝ}
    {lhs rhs : List (String × ℤ)} (hk : TwoKnown db mass lhs rhs) (v t u s : String)
    (ref ref' : Option (String × Option String)) :
    let x := pyVSSInteraction mass lhs rhs [pyVHS v t u (ref.map fun r => pyReference r.1 r.2)] s
      (ref'.map fun r => pyReference r.1 r.2)
    (∀ a Tr ω k, R.eval v.toList = some ⟨a, .area⟩ → R.eval t.toList = some ⟨Tr, .temperature⟩ →
      R.eval u.toList = some ⟨ω, .unity⟩ → R.eval s.toList = some ⟨k, .unity⟩ →
      ∃ w, loadXml R T parse db x = .ok w ∧ IsVHSFor db mass lhs rhs R.KB R.tiny a Tr ω w ∧ w.model = .vss k) ∧
    ∀ w, loadXml R T parse db x = .ok w → ∃ a Tr ω k, R.eval v.toList = some ⟨a, .area⟩ ∧
      R.eval t.toList = some ⟨Tr, .temperature⟩ ∧ R.eval u.toList = some ⟨ω, .unity⟩ ∧
      R.eval s.toList = some ⟨k, .unity⟩ := by
  intro x
  have hx : PyWritten mass lhs rhs "vhs" (some "vss_elastic") x := .vss _ (C87_data "" "" v t u [] _).2 s ref'
  have hcx : x.named "cross_section" = [pyVHS v t u (ref.map fun r => pyReference r.1 r.2)] := by
    cases ref' <;> simp [x, pyVSSInteraction, Xml.named, Xml.hasTag, pyEqXml, pyVHS, pyReference]
  have hpx : x.named "vss_param_inv" = [.elem "vss_param_inv" [] [.text s]] := by
    cases ref' <;> simp [x, pyVSSInteraction, Xml.named, Xml.hasTag, pyEqXml, pyVHS, pyReference]
  have hk' : ∀ k, R.vssParamInv x = .ok k ↔ R.eval s.toList = some ⟨k, .unity⟩ := by
    intro k
    rw [C110_vss, Reader.Finds, hpx]
    simp [Xml.str, Xml.strs]
  obtain ⟨h1, h2⟩ := py_core (R := R) (T := T) hp hnd hmass hk hx hcx (fun h => by simp at h) (fun s h => by simpa using h.symm)
  refine ⟨fun a Tr ω k e1 e2 e3 e4 => ?_, fun w hw => ?_⟩
  · obtain ⟨w, f1, f2, f3⟩ := h1 a Tr ω k e1 e2 e3 (fun _ => (hk' k).2 e4)
    exact ⟨w, f1, f2, by simpa using f3⟩
  · obtain ⟨⟨a, Tr, ω, e1, e2, e3⟩, e4⟩ := h2 w hw
    obtain ⟨k, e4⟩ := e4 (by simp)
    exact ⟨a, Tr, ω, k, e1, e2, e3, (hk' k).1 e4⟩

/-- **C112** (finding)  An interaction written by the class `Interaction` with nothing but a VHS cross section takes no
kinetic energy, whatever its products are: no such class writes a threshold or a `KineticEnergyChange`. -/
theorem C112_python_no_energy {R : Reader} {T : Tools W} {parse : List Char → Option ℤ} {db : Registry ℝ}
    (hmass : ∀ p ∈ db, 0 < p.mass) {mass : String → ℝ} {lhs rhs : List (String × ℤ)} {v t u : String}
    {ref : Option (String × Option String)} {w : WEq W}
    (h : loadXml R T parse db (pyInteraction mass lhs rhs [pyVHS v t u (ref.map fun r => pyReference r.1 r.2)]) = .ok w) :
    w.energyChange = 0 ∧ w.cs.thrE = 0 := by
  set x := pyInteraction mass lhs rhs [pyVHS v t u (ref.map fun r => pyReference r.1 r.2)] with hx
  have hk : x.named "KineticEnergyChange" = [] := by
    simp [hx, pyInteraction, Xml.named, Xml.hasTag, pyEqXml, pyVHS]
  have hcx : x.named "cross_section" = [pyVHS v t u (ref.map fun r => pyReference r.1 r.2)] := by
    simp [hx, pyInteraction, Xml.named, Xml.hasTag, pyEqXml, pyVHS]
  obtain ⟨n, c, e, cs, d, -, hc, -, hcr, -, hcomp⟩ := loadXml_iff.1 h
  obtain ⟨⟨c', cs', hc', hdesc, -, a, b, hA, hB, hmu, hl⟩, -, -, -, hin⟩ := C112_written h
  obtain rfl : _ = c' := by simpa [hcx] using hc'
  obtain ⟨aa, Tr, ω, -, -, -, rfl⟩ := (C110_python_vhs R v t u ref _).1 ((C110_read R _ _).2 hdesc)
  have hm : 0 < w.mu.value := by
    have := hmass a (List.mem_of_getElem? hA)
    have := hmass b (List.mem_of_getElem? hB)
    rw [hmu]
    positivity
  have hthr : w.cs.thrE = 0 := by
    obtain ⟨xs, hxs, hrule⟩ := (C54_vhs hm (vhsInfo R.KB R.tiny aa Tr ω) 0).2 le_rfl
    have : mkVHS (vhsInfo R.KB R.tiny aa Tr ω) w.mu.value 0 = .ok w.cs := hl
    rw [hxs] at this
    rw [← Except.ok.inj this]
    exact hrule.1
  refine ⟨?_, hthr⟩
  unfold WEq.energyChange
  split
  swap
  · rfl
  · rename_i m hmod
    have hmodel : w.eq.model = "inelastic" := by
      obtain ⟨_, _, -, -, rfl, -, -, hm', -⟩ := completeEq_ok hcomp
      rcases loadModel_ok hm' with ⟨-, e1⟩ | ⟨-, e1⟩ | ⟨e1, -⟩
      · rw [hmod] at e1; cases e1
      · rw [hmod] at e1; cases e1
      · exact e1
    rcases hin hmodel with ⟨e, -, c, hc, -⟩ | ⟨hd, -⟩
    · simp [hk] at hc
    · rw [hd, hthr]
      simp

/-! ### Examples -/

namespace LoadXmlExample

/-- Masses. -/
noncomputable def mass (s : String) : ℝ := if s = "e" then 1 else 2000

/-- Decimal numbers. -/
def parse (s : List Char) : Option ℤ := (String.ofList s).toNat?.map (fun n => (n : ℤ))

theorem reads : ReadsNumbers parse := by
  intro n
  rw [parse, String.ofList_toList, Nat.toNat?_repr]
  rfl

/-- Electrons and hydrogen. -/
noncomputable def db : Registry ℝ := [⟨"e", 1, -1⟩, ⟨"H", 2000, 0⟩]

theorem known : TwoKnown db mass [("H", 1), ("e", 1)] [("e", 1), ("H", 1)] := by
  have h : ∀ d : List (String × ℤ), (∀ i ∈ d, i.1 = "e" ∨ i.1 = "H") → Known db mass d := by
    intro d hd i hi
    rcases hd i hi with h | h
    · exact ⟨⟨"e", 1, -1⟩, by simp [db], h.symm, by simp [mass, h]⟩
    · exact ⟨⟨"H", 2000, 0⟩, by simp [db], h.symm, by simp [mass, h]⟩
  refine ⟨?_, ?_, ?_, ?_, h _ ?_, h _ ?_, ?_⟩
  · unfold Dict; decide
  · unfold Dict; decide
  all_goals simp

theorem nodup : NodupNames db := by
  unfold NodupNames db
  simp

theorem masses : ∀ p ∈ db, 0 < p.mass := by
  intro p hp
  simp only [db, List.mem_cons, List.not_mem_nil, or_false] at hp
  rcases hp with rfl | rfl <;> norm_num

/-- A calculator that knows three texts. -/
noncomputable def texts : Reader where
  eval s := if s = ['a'] then some ⟨3, .area⟩ else if s = ['t'] then some ⟨273, .temperature⟩
    else if s = ['n'] then some ⟨1, .unity⟩ else none
  pairs _ := .error .notAQuantity
  takes _ := true
  KB := 1
  tiny := 1
  me := 1

/-- Non-trivial case: elastic scattering of electrons by hydrogen, written by Python, loads. -/
example (T : Tools Unit) : ∃ w, loadXml texts T parse db (pyInteraction mass [("H", 1), ("e", 1)] [("e", 1), ("H", 1)]
      [pyVHS "a" "t" "n" (some (pyReference "Bird" none))]) = .ok w ∧
    IsVHSFor db mass [("H", 1), ("e", 1)] [("e", 1), ("H", 1)] 1 1 3 273 1 w ∧ w.model = .elastic :=
  (C112_python_elastic texts T reads nodup masses known (List.Perm.swap ..) "a" "t" "n" (some ("Bird", none))).1
    3 273 1 (by simp [texts]) (by simp [texts]) (by simp [texts])

/-- It does not load with a temperature where the area belongs. -/
example (T : Tools Unit) (w : WEq Unit) : loadXml texts T parse db (pyInteraction mass [("H", 1), ("e", 1)]
    [("e", 1), ("H", 1)] [pyVHS "t" "t" "n" none]) ≠ .ok w := by
  intro h
  obtain ⟨a, _, _, h1, -⟩ := (C112_python_elastic texts T reads nodup masses known (List.Perm.swap ..) "t" "t" "n"
    none).2 w h
  simp [texts, SIDim.area, SIDim.temperature] at h1

/-- Soft spheres. -/
example (T : Tools Unit) : ∃ w, loadXml texts T parse db (pyVSSInteraction mass [("H", 1), ("e", 1)]
      [("e", 1), ("H", 1)] [pyVHS "a" "t" "n" none] "n" none) = .ok w ∧
    IsVHSFor db mass [("H", 1), ("e", 1)] [("e", 1), ("H", 1)] 1 1 3 273 1 w ∧ w.model = .vss 1 :=
  (C112_python_vss texts T reads nodup masses known "a" "t" "n" "n" none none).1
    3 273 1 1 (by simp [texts]) (by simp [texts]) (by simp [texts]) (by simp [texts])

/-- White space and a reference in other places. -/
example (T : Tools Unit) (q c : Xml) (hq : q.hasTag "Eq") (hc : c.hasTag "cross_section") (as : List (String × String)) :
    loadXml texts T parse db (.elem "Interaction" as [q, c]) =
      loadXml texts T parse db (.elem "Interaction" as [.text " ", c, pyReference "Bird" none, .text " ", q]) := by
  refine C112_content texts T parse db _ _ as ?_
  cases q with
  | text => simp [Xml.hasTag] at hq
  | elem tq _ _ =>
    cases c with
    | text => simp [Xml.hasTag] at hc
    | elem tc _ _ =>
      obtain rfl : tq = "Eq" := by simpa [Xml.hasTag] using hq
      obtain rfl : tc = "cross_section" := by simpa [Xml.hasTag] using hc
      intro t ht
      simp only [List.mem_cons, List.not_mem_nil, or_false] at ht
      rcases ht with rfl | rfl | rfl | rfl <;> simp [Xml.hasTag, pyReference]

/-- The same with excited hydrogen. -/
noncomputable def db' : Registry ℝ := [⟨"e", 1, -1⟩, ⟨"H", 2000, 0⟩, ⟨"H*", 2000, 0⟩]

private theorem completeEq_of' (T : Tools Unit) {db : Registry ℝ} {e : LEq} {p q : Props ℝ} {P : VHSParam} {xs : XSec}
    {m : InElastic Unit} (gA : db[e.A.species.toNat]? = some p) (gB : db[e.B.species.toNat]? = some q)
    (hcs : e.csModel = "vhs") (hxs : mkVHS P (p.mass * q.mass / (p.mass + q.mass)) 0 = .ok xs) (ht : xs.thrE = 0)
    (hmod : e.model = "inelastic") (hnl : newLoad db T.oc e none 0 = .ok (.two m)) :
    completeEq T db e { cs := .vhs P none } =
      .ok ⟨e, ReducedMass.mk' p.mass q.mass, xs, .inelastic (.two m), none⟩ := by
  unfold completeEq
  rw [gA, gB]
  dsimp only
  rw [if_pos (by rw [hcs]; rfl)]
  have h1 : CSDoc.load T.solve T.extrapolate (ReducedMass.mk' p.mass q.mass).value (.vhs P none) = .ok xs := hxs
  rw [h1]
  have h2 : loadModel T db e { cs := .vhs P none } xs = .ok (.inelastic (.two m)) := by
    unfold loadModel
    rw [hmod, if_neg (by decide), if_neg (by decide), if_pos rfl, ht, hnl]
  dsimp only
  rw [h2]

/-- Non-trivial case of the finding: the excitation of hydrogen by electrons, written by Python with a VHS cross section,
loads as an inelastic equation with two products; it takes no energy. -/
example (T : Tools Unit) : ∃ w m, loadXml texts T parse db' (pyInteraction mass [("H", 1), ("e", 1)] [("e", 1), ("H*", 1)]
      [pyVHS "a" "t" "n" none]) = .ok w ∧ w.model = .inelastic (.two m) ∧ w.energyChange = 0 := by
  set x := pyInteraction mass [("H", 1), ("e", 1)] [("e", 1), ("H*", 1)] [pyVHS "a" "t" "n" none] with hxd
  have hx : PyWritten mass [("H", 1), ("e", 1)] [("e", 1), ("H*", 1)] "vhs" none x :=
    .plain _ (C87_data "" "" "a" "t" "n" [] _).2
  have hcx : x.named "cross_section" = [pyVHS "a" "t" "n" (Option.map (fun r : String × Option String =>
      pyReference r.1 r.2) none)] := by
    simp [hxd, pyInteraction, Xml.named, Xml.hasTag, pyEqXml, pyVHS]
  have hnd : NodupNames db' := by unfold NodupNames db'; simp
  have hpos : ∀ p ∈ db', 0 < p.mass := by
    intro p hp
    simp only [db', List.mem_cons, List.not_mem_nil, or_false] at hp
    rcases hp with rfl | rfl | rfl <;> norm_num
  have hkn : ∀ d : List (String × ℤ), (∀ i ∈ d, i.1 = "e" ∨ i.1 = "H" ∨ i.1 = "H*") → Known db' mass d := by
    intro d hd i hi
    rcases hd i hi with h | h | h
    · exact ⟨⟨"e", 1, -1⟩, by simp [db'], h.symm, by simp [mass, h]⟩
    · exact ⟨⟨"H", 2000, 0⟩, by simp [db'], h.symm, by simp [mass, h]⟩
    · exact ⟨⟨"H*", 2000, 0⟩, by simp [db'], h.symm, by simp [mass, h]⟩
  obtain ⟨n, e, hn, he, ⟨p, q, hpd, hqd, hord, hperm, hA, hB⟩, ⟨ri, hri, hprod⟩, hcs, -, -, hm, -⟩ :=
    C87_loads hnd (mass := mass) (lhs := [("H", 1), ("e", 1)]) (rhs := [("e", 1), ("H*", 1)])
      (by unfold Dict; decide) (by unfold Dict; decide) (by simp) (by simp) (hkn _ (by simp)) (hkn _ (by simp)) (by simp)
      (cs := csNames) (ms := modelNames) (c := "vhs") (by simp [csNames]) (by simp [modelNames]) reads hx
  have hmod : e.model = "inelastic" := hm rfl (by decide)
  have hri' : ri = [("e", 1), ("H*", 1)] := by
    refine hri.unique (d' := [("e", 1), ("H*", 1)]) ⟨List.Perm.refl _, ?_⟩ (List.Perm.refl _)
    simp [mass]
  rw [hri'] at hprod
  have i0 : findParticleIndx db' "e" = 0 := by simp [findParticleIndx, findParticle, db']
  have i2 : findParticleIndx db' "H*" = 2 := by simp [findParticleIndx, findParticle, db']
  obtain ⟨i, hi, ei⟩ := idx_of_mem hnd hpd
  obtain ⟨j, hj, ej⟩ := idx_of_mem hnd hqd
  have gA : db'[e.A.species.toNat]? = some p := by
    rw [hA, ei]
    simpa [Term.single] using hi
  have gB : db'[e.B.species.toNat]? = some q := by
    rw [hB, ej]
    simpa [Term.single] using hj
  have hch : p.charge + q.charge = -1 := by
    simp only [db', List.mem_cons, List.not_mem_nil, or_false] at hpd hqd
    rcases hpd with rfl | rfl | rfl <;> rcases hqd with rfl | rfl | rfl <;> first | exact absurd hperm (by decide) | norm_num
  have hins : ∀ t ∈ n.ins, 0 < t.mult := by
    obtain ⟨li, ro, hli, -, hn'⟩ := C87_read (by unfold Dict; decide) (by unfold Dict; decide) hx reads
    rw [hn] at hn'
    rw [Option.some.inj hn']
    intro t ht
    obtain ⟨k, hk, rfl⟩ := List.mem_map.1 ht
    have := hli.1.mem_iff.1 hk
    simp only [List.mem_cons, List.not_mem_nil, or_false] at this
    rcases this with rfl | rfl <;> decide
  obtain ⟨m, hnl⟩ := (C70_two_products T.oc (C70_loaded_wellFormed hnd hins he) none 0 hpos
    (by rw [hprod]; simp [Term.many]) gA gB (p1 := ⟨"e", 1, -1⟩) (p2 := ⟨"H*", 2000, 0⟩)
    (by rw [hprod]; simp [expandTerms, Term.many, i0, i2]; simp [db'])).2 (by rw [hch]; norm_num)
  have hmu : 0 < p.mass * q.mass / (p.mass + q.mass) := by
    have := hpos p hpd
    have := hpos q hqd
    positivity
  obtain ⟨xs, hxs, hrule⟩ := (C54_vhs hmu (vhsInfo 1 1 3 273 1) 0).2 le_rfl
  have hcr : texts.crossSection (pyVHS "a" "t" "n" (Option.map (fun r : String × Option String =>
      pyReference r.1 r.2) none)) = .ok (.vhs (vhsInfo 1 1 3 273 1) none) :=
    (C110_python_vhs texts "a" "t" "n" none _).2 ⟨3, 273, 1, by simp [texts], by simp [texts], by simp [texts], rfl⟩
  have hd : texts.inter e.model (.vhs (vhsInfo 1 1 3 273 1) none) x = .ok { cs := .vhs (vhsInfo 1 1 3 273 1) none } := by
    unfold Reader.inter
    rw [hmod, if_neg (by decide), if_pos rfl]
    have : texts.declared x = .ok none := by
      rw [(C110_declared texts x).2]
      simp [hxd, pyInteraction, Xml.named, Xml.hasTag, pyEqXml, pyVHS]
    rw [this]
  have hw := completeEq_of' T gA gB hcs hxs hrule.1 hmod hnl
  have hl := loadXml_iff.2 ⟨n, _, e, _, _, hn, hcx, he, hcr, hd, hw⟩
  exact ⟨_, m, hl, rfl, (C112_python_no_energy (ref := none) hpos hl).1⟩

end LoadXmlExample

end Chimp
