import Verif.Lemmas.Factories
import Mathlib.Algebra.Field.Rat
import Mathlib.Algebra.Order.Ring.Rat

/-!
# Properties C50 to C53: choice of source particles for products

The specification (`posOf`, `Allowed`, `LexLE`, `centreShift`, `assignScore`, `Placed`,
`ReadsPast` in `Verif.Lemmas.Factories`) speaks about assignments of sources to products: a source
is a reactant, the centre of mass (`ins.length`) or the centre of charge (`ins.length + 1`).
-/

namespace Chimp

variable {K : Type} [Field K] [LinearOrder K]

theorem forall₂_split {α β : Type} {R : α → β → Prop} :
    ∀ (L : List α) (pre : List β) (x : β) (post : List β), List.Forall₂ R L (pre ++ x :: post) →
      ∃ P a Q, L = P ++ a :: Q ∧ List.Forall₂ R P pre ∧ R a x ∧ List.Forall₂ R Q post := by
  intro L
  induction L with
  | nil => intro pre x post h; cases pre <;> cases h
  | cons a L ih =>
    intro pre x post h
    cases pre with
    | nil => cases h with | cons h1 h2 => exact ⟨[], a, L, rfl, .nil, h1, h2⟩
    | cons p pre =>
      cases h with
      | cons h1 h2 =>
        obtain ⟨P, a', Q, e, h3, h4, h5⟩ := ih pre x post h2
        exact ⟨a :: P, a', Q, by rw [e]; rfl, .cons h1 h3, h4, h5⟩

theorem forall₂_mem_left {α β : Type} {R : α → β → Prop} {L : List α} {M : List β}
    (h : List.Forall₂ R L M) : ∀ a ∈ L, ∃ b ∈ M, R a b := by
  induction h with
  | nil => intro a ha; cases ha
  | cons h1 _ ih =>
    intro a ha
    rcases List.mem_cons.1 ha with rfl | ha
    · exact ⟨_, List.mem_cons_self, h1⟩
    · obtain ⟨b, hb, hr⟩ := ih a ha
      exact ⟨b, List.mem_cons_of_mem _ hb, hr⟩

theorem forall₂_mem_right' {α β : Type} {R : α → β → Prop} {L : List α} {M : List β}
    (h : List.Forall₂ R L M) : ∀ b ∈ M, ∃ a ∈ L, R a b := by
  intro b hb
  exact forall₂_mem_left h.flip b hb

/-- A successful call had explicit sources in range only. -/
theorem extend_range (ins : List (MC K)) :
    ∀ (os : List (MC K)) (i : ℕ) (a : List ℕ) (c c' : Cand K), os.length = a.length →
      extend ins i os a c = .ok c' → ∀ s ∈ a, s < ins.length + 2 := by
  intro os
  induction os with
  | nil =>
    intro i a c c' hl _ s hs
    cases a with
    | nil => cases hs
    | cons => simp at hl
  | cons o os ih =>
    intro i a c c' hl h s hs
    cases a with
    | nil => cases hs
    | cons s0 a =>
      simp only [extend] at h
      split at h
      · cases h
      · rename_i c1 h1
        have h0 : s0 < ins.length + 2 := by
          by_contra hn
          have : (posList ins)[s0]? = none := by
            rw [List.getElem?_eq_none_iff, posList_length]; omega
          rw [stepWith, this] at h1
          cases h1
        rcases List.mem_cons.1 hs with rfl | hs
        · exact h0
        · exact ih (i + 1) a c1 c' (by simpa using hl) h s hs

omit [Field K] [LinearOrder K] in
theorem enumSrc_length (N : ℕ) (os : List (MC K)) : ∀ a ∈ enumSrc N os, os.length = a.length := by
  induction os with
  | nil => intro a ha; simp [enumSrc] at ha; simp [ha]
  | cons o os ih =>
    intro a ha
    simp only [enumSrc, List.mem_flatMap, List.mem_map] at ha
    obtain ⟨d, _, b, hb, rfl⟩ := ha
    simp [ih b hb]

omit [Field K] [LinearOrder K] in
theorem enumSrc_explicit (N : ℕ) (os : List (MC K)) :
    ∀ a ∈ enumSrc N os, ∀ (k : ℕ) (o : MC K), os[k]? = some o → 0 ≤ o.src →
      a[k]? = some o.src.toNat := by
  induction os with
  | nil => intro a _ k o h; simp at h
  | cons o os ih =>
    intro a ha k o' ho h0
    simp only [enumSrc, List.mem_flatMap, List.mem_map] at ha
    obtain ⟨d, _, b, hb, rfl⟩ := ha
    cases k with
    | zero =>
      simp only [List.getElem?_cons_zero, Option.some.injEq] at ho ⊢
      subst ho; simp [h0]
    | succ k =>
      simp only [List.getElem?_cons_succ] at ho ⊢
      exact ih b hb k o' ho h0

theorem sources_in_range (ins outs : List (MC K)) (res : XF K × List PFactory)
    (h : setParticleFactories ins outs = .ok res) :
    ∀ o ∈ outs, o.src < (ins.length : ℤ) + 2 := by
  intro o ho
  obtain ⟨xs, hx, b, ys, rfl, _⟩ := setParticleFactories_ok ins outs res h
  obtain ⟨a, ha, c, hc, _⟩ := forall₂_mem_right' hx b List.mem_cons_self
  by_cases h0 : 0 ≤ o.src
  · obtain ⟨k, hk⟩ := List.mem_iff_getElem?.1 ho
    have := extend_range ins outs 0 a _ c (enumSrc_length _ _ a ha) hc _
      (List.mem_of_getElem? (enumSrc_explicit _ _ a ha k o hk h0))
    omega
  · omega

/-- **C50.**  The factories returned implement an allowed assignment whose score is least among all
allowed assignments, and which comes first among those of least score; the score returned is its
score.  (The reactants have a total mass, and every product has a mass unless the reactants are
charged.) -/
theorem C50_least_score [IsStrictOrderedRing K] (ins outs : List (MC K)) (s : XF K)
    (fs : List PFactory)
    (hm : (ins.map MC.mass).sum ≠ 0)
    (hpos : (ins.map MC.charge).sum ≠ 0 ∨ ∀ o ∈ outs, 0 < o.mass)
    (h : setParticleFactories ins outs = .ok (s, fs)) :
    ∃ a : List ℕ, Allowed (ins.length + 2) outs a ∧
      fs.length = outs.length ∧
      (∀ (k : ℕ) (o : MC K) (t : ℕ) (f : PFactory), outs[k]? = some o → a[k]? = some t →
        fs[k]? = some f → Placed ins o t f) ∧
      s = ofTop (assignScore ins outs a) ∧
      ∀ b, Allowed (ins.length + 2) outs b →
        assignScore ins outs a ≤ assignScore ins outs b ∧
        (assignScore ins outs b = assignScore ins outs a → LexLE a b) := by
  have hr := sources_in_range ins outs _ h
  have hr' : ∀ o ∈ outs, o.src < ((ins.length + 2 : ℕ) : ℤ) := by
    intro o ho; have := hr o ho; push_cast; omega
  have hmem := mem_enumSrc (ins.length + 2) outs hr'
  obtain ⟨xs, hx, b, ys, hxs, hres⟩ := setParticleFactories_ok ins outs _ h
  -- scores along the enumeration
  have hscore : ∀ a x, a ∈ enumSrc (ins.length + 2) outs →
      (∃ c, extend ins 0 outs a ⟨[], .fin 0, .fin 0⟩ = .ok c ∧
        scoreOf ins outs c = .ok x ) → x = ofTop (assignScore ins outs a) := by
    rintro a x ha ⟨c, hc, hs⟩
    have hb := allowed_bound ((hmem a).1 ha)
    obtain ⟨_, hcm, hcq⟩ := extend_ok ins outs 0 a _ c hb hc
    exact scoreOf_eq ins outs a c hb.length_eq hm hpos hcm hcq x hs
  have hnan : ∀ x ∈ b :: ys, x.1 ≠ .nan := by
    intro x hxm
    rw [hxs] at hx
    obtain ⟨a, ha, c, hc, hs, _⟩ := forall₂_mem_right' hx x hxm
    rw [hscore a x.1 ha ⟨c, hc, hs⟩]
    cases assignScore ins outs a <;> simp [ofTop]
  obtain ⟨pre, post, e, h1, h2⟩ := foldl_keepLess ys b hnan
  rw [← hres] at e h1 h2
  rw [hxs, e] at hx
  obtain ⟨P, a, Q, eL, hP, ⟨c, hc, hs, hf⟩, hQ⟩ := forall₂_split _ _ _ _ hx
  have haL : a ∈ enumSrc (ins.length + 2) outs := by rw [eL]; simp
  have hsa := hscore a s haL ⟨c, hc, hs⟩
  obtain ⟨⟨fs', hfs, hlen, hpl⟩, _, _⟩ :=
    extend_ok ins outs 0 a _ c (allowed_bound ((hmem a).1 haL)) hc
  simp only [List.nil_append] at hfs
  have hff : fs = fs' := by rw [← hfs]; exact hf
  refine ⟨a, (hmem a).1 haL, hff ▸ hlen, by rw [hff]; exact hpl, hsa, ?_⟩
  intro d hd
  have hdL := (hmem d).2 hd
  by_cases hdP : d ∈ P
  · obtain ⟨x, hxp, c', hc', hs', _⟩ := forall₂_mem_left hP d hdP
    have := h1 x hxp
    rw [hscore d x.1 hdL ⟨c', hc', hs'⟩, hsa, ofTop_lt] at this
    exact ⟨this.le, fun he => absurd (he ▸ this) (lt_irrefl _)⟩
  · have hle : assignScore ins outs a ≤ assignScore ins outs d := by
      have : d = a ∨ d ∈ Q := by
        rw [eL, List.mem_append, List.mem_cons] at hdL
        rcases hdL with h | h
        · exact absurd h hdP
        · exact h
      rcases this with rfl | hdQ
      · exact le_rfl
      · obtain ⟨x, hxp, c', hc', hs', _⟩ := forall₂_mem_left hQ d hdQ
        have := h2 x hxp
        rw [hscore d x.1 hdL ⟨c', hc', hs'⟩, hsa] at this
        by_contra hlt
        rw [not_le, ← ofTop_lt] at hlt
        rw [hlt] at this; cases this
    refine ⟨hle, fun _ => ?_⟩
    by_contra hlex
    exact hdP (enumSrc_initial _ _ P a Q eL d hdL hlex)

omit [Field K] [LinearOrder K] in
theorem enumSrc_head (N : ℕ) (hN : 0 < N) (os : List (MC K)) :
    ∃ L, enumSrc N os = (os.map fun o => if 0 ≤ o.src then o.src.toNat else 0) :: L := by
  induction os with
  | nil => exact ⟨[], rfl⟩
  | cons o os ih =>
    obtain ⟨L, hL⟩ := ih
    obtain ⟨N, rfl⟩ : ∃ M, N = M + 1 := ⟨N - 1, by omega⟩
    rw [enumSrc, List.range_succ_eq_map, List.flatMap_cons, hL]
    exact ⟨_, rfl⟩

/-- **C50.**  With massless products allowed: an assignment that puts a massless product at a centre that
does not exist has no score.  If the very first assignment (every free product at the first
reactant) is of that kind, it is returned, with a score that is not a number.  Otherwise the result
is the first of least score among the assignments that have one. -/
theorem C50_massless_products [IsStrictOrderedRing K] (ins outs : List (MC K)) (s : XF K)
    (fs : List PFactory)
    (hm : (ins.map MC.mass).sum ≠ 0) (hpos : ∀ o ∈ outs, 0 ≤ o.mass)
    (h : setParticleFactories ins outs = .ok (s, fs)) :
    ∃ a : List ℕ, Allowed (ins.length + 2) outs a ∧
      (∀ (k : ℕ) (o : MC K) (t : ℕ) (f : PFactory), outs[k]? = some o → a[k]? = some t →
        fs[k]? = some f → Placed ins o t f) ∧
      ((Undef ins outs (outs.map fun o => if 0 ≤ o.src then o.src.toNat else 0) ∧ s = .nan ∧
          a = outs.map fun o => if 0 ≤ o.src then o.src.toNat else 0) ∨
       (¬ Undef ins outs (outs.map fun o => if 0 ≤ o.src then o.src.toNat else 0) ∧
        ¬ Undef ins outs a ∧ s = ofTop (assignScore ins outs a) ∧
        ∀ b, Allowed (ins.length + 2) outs b → ¬ Undef ins outs b →
          assignScore ins outs a ≤ assignScore ins outs b ∧
          (assignScore ins outs b = assignScore ins outs a → LexLE a b))) := by
  have hr := sources_in_range ins outs _ h
  have hr' : ∀ o ∈ outs, o.src < ((ins.length + 2 : ℕ) : ℤ) := by
    intro o ho; have := hr o ho; push_cast; omega
  have hmem := mem_enumSrc (ins.length + 2) outs hr'
  obtain ⟨xs, hx, b, ys, hxs, hres⟩ := setParticleFactories_ok ins outs _ h
  have hscore : ∀ a x, a ∈ enumSrc (ins.length + 2) outs →
      (∃ c, extend ins 0 outs a ⟨[], .fin 0, .fin 0⟩ = .ok c ∧
        scoreOf ins outs c = .ok x ) → (Undef ins outs a → x = .nan) ∧
          (¬ Undef ins outs a → x = ofTop (assignScore ins outs a)) := by
    rintro a x ha ⟨c, hc, hs⟩
    have hb := allowed_bound ((hmem a).1 ha)
    obtain ⟨_, hcm, hcq⟩ := extend_ok ins outs 0 a _ c hb hc
    exact scoreOf_eq' ins outs a c hb.length_eq hm hpos hcm hcq x hs
  have hplaced : ∀ a ∈ enumSrc (ins.length + 2) outs, ∀ c,
      extend ins 0 outs a ⟨[], .fin 0, .fin 0⟩ = .ok c → fs = c.facs →
      ∀ (k : ℕ) (o : MC K) (t : ℕ) (f : PFactory), outs[k]? = some o → a[k]? = some t →
        fs[k]? = some f → Placed ins o t f := by
    intro a ha c hc hf
    obtain ⟨⟨fs', hfs, _, hpl⟩, _, _⟩ := extend_ok ins outs 0 a _ c (allowed_bound ((hmem a).1 ha)) hc
    simp only [List.nil_append] at hfs
    rw [hf, hfs]; exact hpl
  have htop : ∀ t : WithTop K, ofTop t ≠ .nan := by intro t; cases t <;> simp [ofTop]
  obtain ⟨L, hL⟩ := enumSrc_head (ins.length + 2) (by omega) outs
  generalize ha0 : (outs.map fun o => if 0 ≤ o.src then o.src.toNat else 0) = a0 at hL ⊢
  have ha0L : a0 ∈ enumSrc (ins.length + 2) outs := by rw [hL]; exact List.mem_cons_self
  have hb0 : ∃ c, extend ins 0 outs a0 ⟨[], .fin 0, .fin 0⟩ = .ok c ∧
      scoreOf ins outs c = .ok b.1 ∧ b.2 = c.facs := by
    rw [hxs, hL] at hx
    cases hx with | cons h1 _ => exact h1
  obtain ⟨c0, hc0, hs0, hf0⟩ := hb0
  by_cases hU : Undef ins outs a0
  · have hbn := (hscore a0 b.1 ha0L ⟨c0, hc0, hs0⟩).1 hU
    rw [foldl_keepLess_nan ys b hbn] at hres
    refine ⟨a0, (hmem a0).1 ha0L, hplaced a0 ha0L c0 hc0 (by rw [← hf0, ← hres]), Or.inl ⟨hU, ?_, rfl⟩⟩
    rw [← hbn, ← hres]
  · have hb1 := (hscore a0 b.1 ha0L ⟨c0, hc0, hs0⟩).2 hU
    obtain ⟨hn, pre, post, e, h1, h2⟩ := foldl_keepLess' ys b (by rw [hb1]; exact htop _)
    rw [← hres] at hn e h1 h2
    rw [hxs, e] at hx
    obtain ⟨P, a, Q, eL, hP, ⟨c, hc, hs, hf⟩, hQ⟩ := forall₂_split _ _ _ _ hx
    have haL : a ∈ enumSrc (ins.length + 2) outs := by rw [eL]; simp
    have hUa : ¬ Undef ins outs a := fun hu => hn ((hscore a s haL ⟨c, hc, hs⟩).1 hu)
    have hsa := (hscore a s haL ⟨c, hc, hs⟩).2 hUa
    refine ⟨a, (hmem a).1 haL, hplaced a haL c hc hf, Or.inr ⟨hU, hUa, hsa, ?_⟩⟩
    intro d hd hUd
    have hdL := (hmem d).2 hd
    by_cases hdP : d ∈ P
    · obtain ⟨x, hxp, c', hc', hs', _⟩ := forall₂_mem_left hP d hdP
      have hxd := (hscore d x.1 hdL ⟨c', hc', hs'⟩).2 hUd
      rcases h1 x hxp with h | h
      · rw [hxd] at h; exact absurd h (htop _)
      · rw [hxd, hsa, ofTop_lt] at h
        exact ⟨h.le, fun he => absurd (he ▸ h) (lt_irrefl _)⟩
    · have hle : assignScore ins outs a ≤ assignScore ins outs d := by
        have : d = a ∨ d ∈ Q := by
          rw [eL, List.mem_append, List.mem_cons] at hdL
          rcases hdL with h | h
          · exact absurd h hdP
          · exact h
        rcases this with rfl | hdQ
        · exact le_rfl
        · obtain ⟨x, hxp, c', hc', hs', _⟩ := forall₂_mem_left hQ d hdQ
          have := h2 x hxp
          rw [(hscore d x.1 hdL ⟨c', hc', hs'⟩).2 hUd, hsa] at this
          by_contra hlt
          rw [not_le, ← ofTop_lt] at hlt
          rw [hlt] at this; cases this
      refine ⟨hle, fun _ => ?_⟩
      by_contra hlex
      exact hdP (enumSrc_initial _ _ P a Q eL d hdL hlex)

/-- **C51.**  The assignment has one entry per product, in order, with the product's species; an explicit
source (a reactant, the centre of mass, the centre of charge) is honoured; the entry copies from an
existing reactant, which is of the product's species if the product is put at a centre and there is
such a reactant. -/
theorem C51_complete (ins outs : List (MC K)) (s : XF K) (fs : List PFactory)
    (hne : ins ≠ []) (h : setParticleFactories ins outs = .ok (s, fs)) :
    fs.length = outs.length ∧
    ∀ (k : ℕ) (o : MC K), outs[k]? = some o → ∃ f, fs[k]? = some f ∧ f.species = o.species ∧
      f.srcIdx < ins.length ∧
      (0 ≤ o.src → o.src < ins.length → (f.srcIdx : ℤ) = o.src ∧ f.op = .noop) ∧
      (o.src = ins.length → f.op = .cm) ∧
      (o.src = ins.length + 1 → f.op = .cq) ∧
      o.src ≤ ins.length + 1 ∧
      (f.op ≠ .noop → (∃ x ∈ ins, x.species = o.species) →
        ∃ x, ins[f.srcIdx]? = some x ∧ x.species = o.species) := by
  have hr := sources_in_range ins outs _ h
  have hr' : ∀ o ∈ outs, o.src < ((ins.length + 2 : ℕ) : ℤ) := by
    intro o ho; have := hr o ho; push_cast; omega
  obtain ⟨xs, hx, b, ys, hxs, hres⟩ := setParticleFactories_ok ins outs _ h
  have hin : (s, fs) ∈ xs := by
    rw [hxs, hres]
    clear hx hxs hres
    induction ys generalizing b with
    | nil => simp
    | cons y ys ih =>
      rw [List.foldl_cons]
      by_cases hy : y.1.lt b.1 = true
      · have : keepLess b y = y := by simp [keepLess, hy]
        rw [this]; exact List.mem_cons_of_mem _ (ih y)
      · have : keepLess b y = b := by simp [keepLess, hy]
        rw [this]
        rcases List.mem_cons.1 (ih b) with h | h
        · rw [h]; exact List.mem_cons_self
        · exact List.mem_cons_of_mem _ (List.mem_cons_of_mem _ h)
  obtain ⟨a, ha, c, hc, hs, hf⟩ := forall₂_mem_right' hx _ hin
  have hall := (mem_enumSrc (ins.length + 2) outs hr' a).1 ha
  obtain ⟨⟨fs', hfs, hlen, hpl⟩, _, _⟩ := extend_ok ins outs 0 a _ c (allowed_bound hall) hc
  simp only [List.nil_append] at hfs
  have hff : fs = fs' := by rw [← hfs]; exact hf
  subst hff
  refine ⟨hlen, fun k o ho => ?_⟩
  have hk := (List.getElem?_eq_some_iff.1 ho).1
  have hka : k < a.length := by rw [← enumSrc_length _ _ a ha]; exact hk
  have hkf : k < fs.length := by omega
  obtain ⟨p1, p2, p3, p4, p5, p6, p7⟩ := hpl k o a[k] fs[k] ho (List.getElem?_eq_getElem hka)
    (List.getElem?_eq_getElem hkf)
  have hex : 0 ≤ o.src → (a[k] : ℤ) = o.src := by
    intro h0
    have := enumSrc_explicit _ _ a ha k o ho h0
    rw [List.getElem?_eq_getElem hka, Option.some.injEq] at this
    omega
  refine ⟨fs[k], List.getElem?_eq_getElem hkf, p1, p5 hne, ?_, ?_, ?_, ?_, ?_⟩
  · intro h0 h1
    have := hex h0
    obtain ⟨q1, q2⟩ := p2 (by omega)
    exact ⟨by rw [q1]; exact this, q2⟩
  · intro h0; have := hex (by omega); exact p3 (by omega)
  · intro h0; have := hex (by omega); exact p4 (by omega)
  · have := hr o (List.mem_of_getElem? ho); omega
  · intro hop
    by_cases hlt : a[k] < ins.length
    · exact absurd (p2 hlt).2 hop
    · exact p6 (by omega)

/-- **C52.**  With explicit sources in range and no out-of-range read (C53), the assignment fails exactly
when exactly one of the two totals of mass, or of charge, is zero, with the exception naming that
quantity and direction; mass is examined first. -/
theorem C52_totals (ins outs : List (MC K))
    (hex : ∀ o ∈ outs, o.src < (ins.length : ℤ) + 2)
    (hsafe : ∀ (k : ℕ) (o : MC K), outs[k]? = some o → ins.length ≤ k → ∀ x ∈ ins, x.mass ≠ o.mass) :
    let mi := (ins.map MC.mass).sum
    let mo := (outs.map MC.mass).sum
    let qi := (ins.map MC.charge).sum
    let qo := (outs.map MC.charge).sum
    let r := setParticleFactories ins outs
    (r = .error .massVanished ↔ mi ≠ 0 ∧ mo = 0) ∧
    (r = .error .massCreated ↔ mi = 0 ∧ mo ≠ 0) ∧
    (r = .error .chargeVanished ↔ (mi = 0 ↔ mo = 0) ∧ qi ≠ 0 ∧ qo = 0) ∧
    (r = .error .chargeCreated ↔ (mi = 0 ↔ mo = 0) ∧ qi = 0 ∧ qo ≠ 0) ∧
    ((∃ s fs, r = .ok (s, fs)) ↔ (mi = 0 ↔ mo = 0) ∧ (qi = 0 ↔ qo = 0)) := by
  intro mi mo qi qo r
  rcases setParticleFactories_cases ins outs hex with ⟨⟨k, o, h1, _, h3, x, hx, hxm⟩, _⟩ | ⟨_, h⟩
  · exact absurd hxm (hsafe k o h1 h3 x hx)
  · have hr : ∀ e, checkTotals ins outs = some e → r = .error e := by
      intro e hc
      rcases h with ⟨e', hc', he⟩ | ⟨hc', _⟩
      · rw [hc] at hc'; cases hc'; exact he
      · rw [hc] at hc'; cases hc'
    have hok : checkTotals ins outs = none → ∃ s fs, r = .ok (s, fs) := by
      intro hc
      rcases h with ⟨e, hc', _⟩ | ⟨_, p, hp⟩
      · rw [hc] at hc'; cases hc'
      · exact ⟨p.1, p.2, hp⟩
    have hchk : checkTotals ins outs =
        if mo = 0 ∧ mi ≠ 0 then some .massVanished
        else if mo ≠ 0 ∧ mi = 0 then some .massCreated
        else if qo = 0 ∧ qi ≠ 0 then some .chargeVanished
        else if qo ≠ 0 ∧ qi = 0 then some .chargeCreated
        else none := rfl
    clear_value mi mo qi qo r
    by_cases h1 : mi = 0 <;> by_cases h2 : mo = 0 <;> by_cases h3 : qi = 0 <;>
      by_cases h4 : qo = 0 <;> simp only [h1, h2, h3, h4, ne_eq, not_true, not_false_eq_true,
        and_true, and_false, true_and, if_true, if_false] at hchk ⊢ <;>
      first
        | (have e := hr _ hchk; subst e; simp; done)
        | (obtain ⟨s, fs, e⟩ := hok hchk; subst e; simp)

/-- **C53.**  With explicit sources in range, the read past the end of the reactant list happens exactly
when some product beyond the number of reactants, not tied to a reactant by an explicit source, has
the mass of a reactant. -/
theorem C53_reads_past (ins outs : List (MC K))
    (hex : ∀ o ∈ outs, o.src < (ins.length : ℤ) + 2) :
    setParticleFactories ins outs = .error .ub ↔
      ∃ (k : ℕ) (o : MC K), outs[k]? = some o ∧ ins.length ≤ k ∧
        (o.src < 0 ∨ (ins.length : ℤ) ≤ o.src) ∧ ∃ x ∈ ins, x.mass = o.mass := by
  rcases setParticleFactories_cases ins outs hex with ⟨⟨k, o, h1, h2, h3, h4⟩, he⟩ | ⟨hn, h⟩
  · exact ⟨fun _ => ⟨k, o, h1, h3, h2, h4⟩, fun _ => he⟩
  · constructor
    · intro he
      exfalso
      rcases h with ⟨e, hc, he'⟩ | ⟨_, r, hr⟩
      · rw [he] at he'
        cases he'
        unfold checkTotals at hc
        repeat' split at hc
        all_goals cases hc
      · rw [hr] at he; cases he
    · rintro ⟨k, o, h1, h2, h3, h4⟩
      exact absurd ⟨k, o, h1, h3, h2, h4⟩ hn

/-- **C53.**  With at most as many products as reactants (in particular for every two-product
interaction) nothing is read out of range. -/
theorem C53_two_products_safe (ins outs : List (MC K))
    (hex : ∀ o ∈ outs, o.src < (ins.length : ℤ) + 2) (hle : outs.length ≤ ins.length) :
    setParticleFactories ins outs ≠ .error .ub := by
  rw [Ne, C53_reads_past ins outs hex]
  rintro ⟨k, o, h1, h2, _⟩
  have := (List.getElem?_eq_some_iff.1 h1).1
  omega

/-! ### Non-vacuity -/

/-- Electron impact ionisation `e + Ar → e + e + Ar⁺` in electron masses: reactants. -/
def exIonIn : List (MC ℚ) := [⟨1, -1, 0, -1⟩, ⟨72800, 0, 1, -1⟩]

/-- Products of the ionisation. -/
def exIonOut : List (MC ℚ) := [⟨1, -1, 0, -1⟩, ⟨1, -1, 0, -1⟩, ⟨72799, 1, 2, -1⟩]

/-- The impact electron stays where it is; the new electron and the ion appear at the atom. -/
example : setParticleFactories exIonIn exIonOut =
    .ok (.fin 0, [⟨0, 0, .noop⟩, ⟨1, 0, .noop⟩, ⟨1, 2, .noop⟩]) := by decide +kernel

example : (exIonIn.map MC.mass).sum ≠ 0 ∧ (exIonIn.map MC.charge).sum ≠ 0 := by decide +kernel

/-- Neutral reactants: the centre of charge is at infinity and is not used; a product of intermediate
kind goes to the centre of mass. -/
example : setParticleFactories (K := ℚ) [⟨1, 0, 0, -1⟩, ⟨2, 0, 1, -1⟩] [⟨3, 0, 2, -1⟩] =
    .ok (.fin 0, [⟨0, 2, .cm⟩]) := by decide +kernel

/-- An explicit source is honoured although another one would score better. -/
example : setParticleFactories (K := ℚ) [⟨1, 0, 0, -1⟩, ⟨2, 0, 1, -1⟩]
    [⟨1, 0, 0, 1⟩, ⟨2, 0, 1, -1⟩] = .ok (.fin (2/9), [⟨1, 0, .noop⟩, ⟨1, 1, .cm⟩]) := by
  decide +kernel

/-- Charge out of nothing. -/
example : setParticleFactories (K := ℚ) [⟨1, 0, 0, -1⟩, ⟨2, 0, 1, -1⟩] [⟨1, 1, 0, -1⟩, ⟨2, 0, 1, -1⟩] =
    .error .chargeCreated := by decide +kernel

/-- `Hg + Hg → e + Hg⁺ + Hg`: the third product has the mass of a reactant, so the reactant list is
read out of range. -/
example : setParticleFactories (K := ℚ) [⟨1000, 0, 1, -1⟩, ⟨1000, 0, 1, -1⟩]
    [⟨1, -1, 0, -1⟩, ⟨999, 1, 2, -1⟩, ⟨1000, 0, 1, -1⟩] = .error .ub := by decide +kernel

/-- The charge compared is that of a reactant, not of the product: product 1 (mass 1, charge 1) at the
centre of mass copies from reactant 1 (charge 0) although reactant 0 has its mass and charge. -/
example : similar (K := ℚ) [⟨1, 1, 0, -1⟩, ⟨1, 0, 1, -1⟩] 1 ⟨1, 1, 2, -1⟩ = .ok 1 := by decide +kernel

/-- Neutral reactants and a photon: the photon is put at the first reactant. -/
example : setParticleFactories (K := ℚ) [⟨1, 0, 0, -1⟩, ⟨2, 0, 1, -1⟩]
    [⟨0, 0, 3, -1⟩, ⟨1, 0, 0, -1⟩, ⟨2, 0, 4, 1⟩] =
    .ok (.fin 0, [⟨0, 3, .noop⟩, ⟨0, 0, .noop⟩, ⟨1, 4, .noop⟩]) := by decide +kernel

/-- The proviso of C50 is needed: for neutral reactants and a massless product the score of the first
candidate may be not-a-number, and then the first candidate is returned although another scores 0.
Here the photon is explicitly put at the (non-existing) centre of charge. -/
example : setParticleFactories (K := ℚ) [⟨1, 0, 0, -1⟩, ⟨2, 0, 1, -1⟩]
    [⟨0, 0, 3, 3⟩, ⟨1, 0, 0, -1⟩, ⟨2, 0, 4, 0⟩] =
    .ok (.nan, [⟨0, 3, .cq⟩, ⟨0, 0, .noop⟩, ⟨0, 4, .noop⟩]) := by decide +kernel

end Chimp
