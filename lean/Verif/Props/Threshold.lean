import Verif.Props.CrossData
import Verif.Props.Lotz
import Verif.Props.OutPath
import Verif.Props.Kinematics

/-!
# C65: a selected channel has enough energy

Composes the cross sections, the selection of a channel and the inelastic models.
-/

namespace Chimp

variable {S W : Type}

/-- The cross sections that the library can build for a pair with reduced mass `mu`. -/
inductive Built (mu : ℝ) : XSec → Prop where
  | constant {value e x} : mkConstant value mu e = .ok x → Built mu x
  | vhs {p e x} : mkVHS p mu e = .ok x → Built mu x
  | inverse {k e x} : mkInverse k mu e = .ok x → Built mu x
  | log {A B e x} : mkLog A B mu e = .ok x → Built mu x
  | data {allowed t x} : Increasing t → (∀ d ∈ t, 0 ≤ d.1) → mkData allowed mu t = .ok x → Built mu x
  | lotz {solve ps x} : RootFinder.Exact solve → (∀ p ∈ ps, p.Proper) → mkLotz solve ps mu = .ok x → Built mu x
  | avgEasy {c0 c1} : Built mu c0 → Built mu c1 → Built mu (mkAvgEasy c0 c1)

/-- **C65**: every cross section is zero at speeds whose kinetic energy is below its threshold energy. -/
theorem C65_threshold {mu : ℝ} (hmu : 0 < mu) {x : XSec} (hx : Built mu x) {v : ℝ} (hv : 0 ≤ v)
    (hlt : 1 / 2 * mu * v ^ 2 < x.thrE) : x.sigma v = .ok 0 := by
  induction hx with
  | @constant value e x h =>
    rcases lt_or_ge e 0 with he | he
    · rw [(C54_constant hmu value e).1 he] at h; cases h
    · obtain ⟨y, hy, r⟩ := (C54_constant hmu value e).2 he
      rw [hy] at h; cases h
      exact (r.2 v hv).1 (by rw [← r.1]; exact hlt)
  | @vhs p e x h =>
    rcases lt_or_ge e 0 with he | he
    · rw [(C54_vhs hmu p e).1 he] at h; cases h
    · obtain ⟨y, hy, r⟩ := (C54_vhs hmu p e).2 he
      rw [hy] at h; cases h
      exact (r.2 v hv).1 (by rw [← r.1]; exact hlt)
  | @inverse k e x h =>
    rcases lt_or_ge e 0 with he | he
    · rw [(C54_inverse hmu k e).1 he] at h; cases h
    · obtain ⟨y, hy, r⟩ := (C54_inverse hmu k e).2 he
      rw [hy] at h; cases h
      exact (r.2 v hv).1 (by rw [← r.1]; exact hlt)
  | @log A B e x h =>
    rcases lt_or_ge e 0 with he | he
    · rw [(C54_log hmu A B e).1 he] at h; cases h
    · obtain ⟨y, hy, r⟩ := (C54_log hmu A B e).2 he
      rw [hy] at h; cases h
      exact (r.2 v hv).1 (by rw [← r.1]; exact hlt)
  | @data allowed t x hinc hsp h =>
    obtain ⟨zs, d, l, t', rfl, hz, hd, -⟩ := mkData_ok h
    obtain ⟨y, hy, -, -, hlow⟩ := C60_trimmed allowed mu zs hz d hd l
    rw [hy] at h; cases h
    exact hlow v hv hinc hmu hsp hlt
  | @lotz solve ps x hs hps h =>
    obtain ⟨vmin, vtop, thr, z, hr, hthr, -, h1, h2, -⟩ := mkLotz_ok h
    obtain ⟨p1, p2⟩ := lotzRange_pos hps hr
    have hthr0 : 0 < thr := by
      split at hthr
      · rw [hthr]; exact p2
      · exact p1.trans_le (hs _ _ _ _ hthr).2
    rw [h1] at hlt
    have : v < thr := by
      by_contra hc
      have : thr ^ 2 ≤ v ^ 2 := by
        have := not_lt.1 hc
        gcongr
      nlinarith
    rw [h2, lotzSigma_eq, if_pos this]
  | @avgEasy c0 c1 _ _ ih0 ih1 =>
    exact (C61_threshold ih0 ih1).2.2.2 hlt

/-- The numerically averaged cross section is one of them. -/
theorem built_averaged {mu : ℝ} {c0 c1 : XSec} {f0 f1 : ℝ → ℝ} {vmax dv : ℝ} (hv : 0 < vmax) (hdv : 0 < dv)
    (h0 : ∀ v, 0 < v → c0.sigma v = .ok (f0 v) ∧ 0 ≤ f0 v)
    (h1 : ∀ v, 0 < v → c1.sigma v = .ok (f1 v) ∧ 0 ≤ f1 v) (allowed : Bool) :
    ∃ n, ∀ fuel, n < fuel → ∀ x, mkAveraged allowed c0 c1 vmax dv mu fuel = some (.ok x) → Built mu x := by
  obtain ⟨n, t, -, -, hrun, hinc, hmem, -⟩ := C63_samples hv hdv h0 h1
  refine ⟨n, fun fuel hf x hx => ?_⟩
  rw [hrun fuel hf] at hx
  refine .data hinc (fun d hd => ?_) (Option.some.inj hx)
  obtain ⟨k, -, hpos, -⟩ := (hmem d).1 hd
  exact hpos.le

/-- **C65**: whenever `calculateOutPath` selects an equation, the kinetic energy of the pair is at least the threshold
energy of that equation's cross section. -/
theorem C65_selected_energy {mu : ℝ} (hmu : 0 < mu) {xs : List XSec} {cs : List ℝ} {v : ℝ} (hv : 0 ≤ v)
    (hb : ∀ x ∈ xs, Built mu x) (hcs : List.Forall₂ (fun x c => x.sigma v = .ok c) xs cs)
    (hnn : ∀ c ∈ cs, 0 ≤ c) {maxSV u w : ℝ} (hw : 0 ≤ w) {j : ℕ}
    (hsel : (calculateOutPath cs maxSV v u w).first = j) :
    ∃ x, xs[j]? = some x ∧ x.thrE ≤ 1 / 2 * mu * v ^ 2 := by
  rcases C30_valid_open_channel cs hnn maxSV v u w hw with ⟨h, -⟩ | ⟨j', c, hc, hj, -, hpos⟩
  · rw [h] at hsel; omega
  · rw [hj] at hsel
    obtain rfl : j' = j := by exact_mod_cast hsel
    have hlt : j' < cs.length := (List.getElem?_eq_some_iff.1 hc).1
    have hlt' : j' < xs.length := by rw [hcs.length_eq]; exact hlt
    refine ⟨xs[j'], List.getElem?_eq_getElem hlt', ?_⟩
    have hval := (List.forall₂_iff_get.1 hcs).2 j' hlt' hlt
    have hce : cs.get ⟨j', hlt⟩ = c := (List.getElem?_eq_some_iff.1 hc).2
    rw [hce] at hval
    by_contra hlow
    have hz := C65_threshold hmu (hb _ (List.getElem_mem hlt')) hv (not_le.1 hlow)
    rw [List.get_eq_getElem] at hval
    rw [hz] at hval
    cases hval
    exact lt_irrefl _ hpos

/-- **C65**: so an inelastic equation that takes its energy change from the threshold of its cross section always
gives real positions and velocities when it is selected.  The one proviso concerns charges: a product placed at
the centre of charge needs reactants with a nonzero total charge. -/
theorem C65_interaction_defined {db : Registry ℝ} (hpos : ∀ x ∈ db, 0 < x.mass) {e : LEq} {a b : Props ℝ}
    (hA : db[e.A.species.toNat]? = some a) (hB : db[e.B.species.toNat]? = some b)
    (hn : ∀ t ∈ e.products, 0 ≤ t.n) {xs : List XSec} {cs : List ℝ} (p q : Part W)
    (hb : ∀ x ∈ xs, Built (a.mass * b.mass / (a.mass + b.mass)) x)
    (hcs : List.Forall₂ (fun x c => x.sigma (p.vel - q.vel).abs = .ok c) xs cs) (hnn : ∀ c ∈ cs, 0 ≤ c)
    {maxSV u w : ℝ} (hw : 0 ≤ w) {j : ℕ}
    (hsel : (calculateOutPath cs maxSV (p.vel - q.vel).abs u w).first = j) :
    ∃ x, xs[j]? = some x ∧
      ∀ (oc : OpsCompiler W) (m : InElastic W), (UsesCQ m → a.charge + b.charge ≠ 0) →
      ∀ (rng : RNG S ℝ) (s : S),
        (newLoad db oc e none x.thrE = .ok (.two m) → ∃ out s', m.interact2 rng p q s = some (out, s')) ∧
        (newLoad db oc e none x.thrE = .ok (.three m) → ∃ out s', m.interact3 rng p q s = some (out, s')) := by
  have ha := hpos a (List.mem_of_getElem? hA)
  have hb' := hpos b (List.mem_of_getElem? hB)
  have hmu : 0 < a.mass * b.mass / (a.mass + b.mass) := by positivity
  obtain ⟨x, hx, hE⟩ := C65_selected_energy hmu (Real.sqrt_nonneg _) hb hcs hnn hw hsel
  have hsq : Real.sqrt (p.vel - q.vel).normSq ^ 2 = (p.vel - q.vel).normSq :=
    Real.sq_sqrt (by unfold Vec.normSq; positivity)
  rw [hsq] at hE
  refine ⟨x, hx, fun oc m hcq rng s => ⟨fun h => ?_, fun h => ?_⟩⟩
  · refine (C47_defined_iff hn h hpos rng p q s hA hB).2 ⟨?_, hcq⟩
    simp only [Option.getD_none]
    linarith
  · refine (C48_defined_iff hn h hpos rng p q s hA hB).2 ⟨?_, hcq⟩
    simp only [Option.getD_none]
    linarith

/-- Non-vacuity: an elastic channel and an excitation with threshold 10; the electron of speed 5 selects the
excitation, and then the products exist. -/
example (oc : OpsCompiler W) (w : W) (rng : RNG S ℝ) (s : S) : ∃ (el ex : XSec) (m : InElastic W),
    Built (1 * 2000 / (1 + 2000)) el ∧ Built (1 * 2000 / (1 + 2000)) ex ∧
    (calculateOutPath [1, 3] 40 (Vec.abs ⟨5, 0, 0⟩) (1 / 4) (1 / 2)).first = 1 ∧
    newLoad exReal oc exExcite none ex.thrE = .ok (.two m) ∧
    ∃ out s', m.interact2 rng ⟨⟨0, 0, 0⟩, ⟨5, 0, 0⟩, 0, w⟩ ⟨⟨0, 0, 0⟩, ⟨0, 0, 0⟩, 1, w⟩ s = some (out, s') := by
  have hmu : (0 : ℝ) < 1 * 2000 / (1 + 2000) := by norm_num
  obtain ⟨el, hel, e1, e2⟩ := (C54_constant hmu 1 0).2 le_rfl
  obtain ⟨ex, hex, x1, x2⟩ := (C54_constant hmu 3 10).2 (by norm_num)
  obtain ⟨m, out, s', hm, -, hrun⟩ := exExcite_runs (S := S) oc w rng s
  have habs : Vec.abs ⟨5, 0, 0⟩ = 5 := by
    unfold Vec.abs Vec.normSq
    rw [show ((5 : ℝ) ^ 2 + 0 ^ 2 + 0 ^ 2) = 5 ^ 2 by norm_num]
    exact Real.sqrt_sq (by norm_num)
  have hsel : (calculateOutPath [1, 3] 40 (5 : ℝ) (1 / 4) (1 / 2)).first = 1 := by
    norm_num [calculateOutPath, csTotal, pickLoop]
  have hdiff : ((⟨5, 0, 0⟩ : Vec) - ⟨0, 0, 0⟩) = ⟨5, 0, 0⟩ := by
    show (⟨5 - 0, 0 - 0, 0 - 0⟩ : Vec) = _
    simp
  refine ⟨el, ex, m, .constant hel, .constant hex, by rw [habs]; exact hsel, by rw [x1]; exact hm, ?_⟩
  have key := C65_interaction_defined (S := S) exReal_pos (e := exExcite) (a := ⟨"e", 1, -1⟩) (b := ⟨"H", 2000, 0⟩) rfl rfl
    exExcite_wf.count (xs := [el, ex]) (cs := [1, 3]) (⟨⟨0, 0, 0⟩, ⟨5, 0, 0⟩, 0, w⟩ : Part W)
    ⟨⟨0, 0, 0⟩, ⟨0, 0, 0⟩, 1, w⟩
    (by
      intro x hx
      simp only [List.mem_cons, List.not_mem_nil, or_false] at hx
      rcases hx with rfl | rfl
      · exact .constant hel
      · exact .constant hex)
    (by
      dsimp only
      rw [hdiff, habs]
      exact .cons ((e2 5 (by norm_num)).2 (by norm_num)) (.cons ((x2 5 (by norm_num)).2 (by norm_num)) .nil))
    (by simp) (maxSV := 40) (u := 1 / 4) (w := 1 / 2) (by norm_num) (j := 1)
    (by dsimp only; rw [hdiff, habs]; exact hsel)
  obtain ⟨x, hx, hall⟩ := key
  cases hx
  exact (hall oc m (by norm_num) rng s).1 (by rw [x1]; exact hm)

end Chimp
