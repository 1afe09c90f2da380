import Verif.Props.Example
import Verif.Props.ExpectedRate

/-!
# C85: how often pairs collide in the example program

C76 for the cell of the example program: with independent uniform random numbers, how often two given particles perform
an interaction on average.
-/

namespace Chimp

open MeasureTheory
open scoped ENNReal

variable {S W : Type}

open Classical in
/-- What the monitor is told in a run of the program whose generator starts in state `g` (nothing if it does not
return). -/
noncomputable def mainLog (T : Tools W) (auto : Bool) (doc : SDoc) (d : Draws S) (nsort : List (Part W) → List (Part W))
    (rng : RNG S ℝ) (N : ℕ) (w : W) (sd g : S) : List (Event (Part W) ℝ) :=
  if h : ∃ r fi fs, exampleMain T auto doc d nsort rng N w sd g fi fs = .ok r then h.choose.2.log else []

/-- Every species with equations has a particle. -/
def Populated (s : Session W) (l : List (Part W)) : Prop :=
  ∀ A B : ℕ, A ≤ B → B < 5 → s.eqs A B ≠ [] → (∃ p ∈ l, p.species = A) ∧ ∃ p ∈ l, p.species = B

section main

variable [MeasurableSpace S] {μ : Measure S} [IsProbabilityMeasure μ]
variable {T : Tools W} {auto : Bool} {doc : SDoc} {d : Draws S} {nsort : List (Part W) → List (Part W)} {rng : RNG S ℝ}
  {N : ℕ} {w : W} {sd : S} {kT : ℝ} {s : Session W} {l : List (Part W)}

omit [MeasurableSpace S] in
/-- The run of the program is a run of the driver. -/
theorem main_driver (hs : callsUncaught T auto exampleCalls (Session.new doc) = .ok s)
    (hl : createRandomParticles d s.props.length w N sd = some l) (h5 : s.props.length = 5) (g : S) (fi fs : ℕ) :
    exampleMain T auto doc d nsort rng N w sd g fi fs =
      match driver (wholeEnv T 5 s.eqs (exampleConst (sortBySpecies nsort (fun p => p.species.toNat) 5 l) rng)) fi fs
        (exampleCell (sortBySpecies nsort (fun p => p.species.toNat) 5 l) w g) with
      | .error e => .error (.driver e)
      | .ok st => .ok (s, st) := by
  unfold exampleMain
  rw [hs]
  dsimp only
  rw [hl]
  dsimp only
  rw [h5]
  all_goals rfl

omit [MeasurableSpace S] in
theorem main_ok_iff (hs : callsUncaught T auto exampleCalls (Session.new doc) = .ok s)
    (hl : createRandomParticles d s.props.length w N sd = some l) (h5 : s.props.length = 5) (g : S) (fi fs : ℕ)
    (r : Session W × DState (Part W) S ℝ) :
    exampleMain T auto doc d nsort rng N w sd g fi fs = .ok r ↔ r.1 = s ∧
      driver (wholeEnv T 5 s.eqs (exampleConst (sortBySpecies nsort (fun p => p.species.toNat) 5 l) rng)) fi fs
        (exampleCell (sortBySpecies nsort (fun p => p.species.toNat) 5 l) w g) = .ok r.2 := by
  rw [main_driver hs hl h5]
  cases driver (wholeEnv T 5 s.eqs (exampleConst (sortBySpecies nsort (fun p => p.species.toNat) 5 l) rng)) fi fs
    (exampleCell (sortBySpecies nsort (fun p => p.species.toNat) 5 l) w g) with
  | error e => simp
  | ok st =>
    obtain ⟨r1, r2⟩ := r
    simp only [Except.ok.injEq, Prod.mk.injEq]
    exact and_congr_left fun _ => eq_comm

omit [MeasurableSpace S] in
theorem mainLog_eq (hs : callsUncaught T auto exampleCalls (Session.new doc) = .ok s)
    (hl : createRandomParticles d s.props.length w N sd = some l) (h5 : s.props.length = 5) (g : S) :
    mainLog T auto doc d nsort rng N w sd g =
      runLog (wholeEnv T 5 s.eqs (exampleConst (sortBySpecies nsort (fun p => p.species.toNat) 5 l) rng))
        (exampleCell (sortBySpecies nsort (fun p => p.species.toNat) 5 l) w sd) g := by
  unfold mainLog runLog
  have hcell : ({ exampleCell (sortBySpecies nsort (fun p : Part W => p.species.toNat) 5 l) w sd with gen := g } :
      DState (Part W) S ℝ) = exampleCell (sortBySpecies nsort (fun p => p.species.toNat) 5 l) w g := rfl
  by_cases h : ∃ r fi fs, exampleMain T auto doc d nsort rng N w sd g fi fs = .ok r
  · obtain ⟨r, fi, fs, hr⟩ := id h
    have h' : ∃ st' fi fs, driver (wholeEnv T 5 s.eqs (exampleConst (sortBySpecies nsort
        (fun p => p.species.toNat) 5 l) rng)) fi fs ({ exampleCell (sortBySpecies nsort (fun p : Part W => p.species.toNat) 5 l) w sd with gen := g } :
      DState (Part W) S ℝ) = .ok st' :=
      ⟨r.2, fi, fs, ((main_ok_iff hs hl h5 g fi fs r).1 hr).2⟩
    rw [dif_pos h, dif_pos h']
    obtain ⟨fi1, fs1, e1⟩ := h.choose_spec
    obtain ⟨fi2, fs2, e2⟩ := h'.choose_spec
    rw [C38_result_unique _ _ _ _ _ _ _ _ ((main_ok_iff hs hl h5 g fi1 fs1 _).1 e1).2 e2]
  · rw [dif_neg h, dif_neg]
    rintro ⟨st', fi, fs, hst⟩
    exact h ⟨(s, st'), fi, fs, (main_ok_iff hs hl h5 g fi fs _).2 ⟨rfl, hst⟩⟩

omit [MeasurableSpace S] in
/-- The cell of the program, with the facts the driver's theorems ask for. -/
theorem main_cell (hlib : ExampleLibs T auto doc d nsort kT)
    (hs : callsUncaught T auto exampleCalls (Session.new doc) = .ok s)
    (hl : createRandomParticles d s.props.length w N sd = some l) :
    let st := exampleCell (S := S) (sortBySpecies nsort (fun p => p.species.toNat) 5 l) w sd
    s.props.length = 5 ∧ WFRanges 5 st.range ∧
    (Populated s l → ∀ A B, A ≤ B → B < 5 → s.eqs A B ≠ [] →
      (st.range A).1 < (st.range A).2 ∧ (st.range B).1 < (st.range B).2) ∧
    (∀ i < 5, (st.range i).2 - (st.range i).1 = l.countP fun p => p.species = ((i : ℕ) : ℤ)) ∧
    ∀ i < 5, ∀ p a, (sortBySpecies nsort (fun p => p.species.toNat) 5 l).1[p]? = some a → a.species = ((i : ℕ) : ℤ) →
      st.mem p = a ∧ ((st.range i).1 ≤ p ∧ p < (st.range i).2) ∧
      a.vel ∈ rangeVels (sortBySpecies nsort (fun p : Part W => p.species.toNat) 5 l).1 (st.range i) := by
  intro st
  obtain ⟨h5, l', hl', -, hsp⟩ := main_cases (w := w) (N := N) (sd := sd) hlib hs
  rw [hl] at hl'
  cases hl'
  rw [h5] at hsp
  obtain ⟨c1, c2, c3, c4, c5⟩ := cell_spec (T := T) (w := w) (g := sd) (n := 5) hlib.sorts hsp s.eqs
    (exampleConst (S := S) (sortBySpecies nsort (fun p => p.species.toNat) 5 l) ⟨fun s => (0, s), fun s => (0, s)⟩)
  have hk : ∀ p ∈ l, p.species.toNat < 5 := by
    intro p hp
    obtain ⟨C, h1, h2⟩ := hsp p hp
    rw [h1]; simpa using h2
  obtain ⟨s1, -, -, s4, s5⟩ := C85_sorted hlib.sorts hk ⟨0, 0, 0, w⟩
  have hne : ∀ i < 5, (∃ p ∈ l, p.species = (i : ℕ)) → (st.range i).1 < (st.range i).2 := by
    intro i hi ⟨p, hp, he⟩
    by_contra hlt
    have : rsize (st.range i) = 0 := by unfold rsize; omega
    exact (c4 i hi).1 this p hp he
  refine ⟨h5, c1, ?_, ?_, ?_⟩
  · intro hpop A B hAB hB hne'
    obtain ⟨pA, pB⟩ := hpop A B hAB hB hne'
    exact ⟨hne A (by omega) pA, hne B hB pB⟩
  · intro i hi
    have hc : (st.range i).2 - (st.range i).1 = (liveM st.mem (st.range i)).card := by
      unfold liveM
      rw [Multiset.card_map]
      exact (Nat.card_Ico _ _).symm
    rw [hc, c3 i hi, Multiset.coe_card, ← List.countP_eq_length_filter]
  · intro i hi p a ha hai
    have hplt : p < l.length := by
      rw [← s1.length_eq]
      exact (List.getElem?_eq_some_iff.1 ha).1
    have hm : st.mem p = a := by
      show Option.getD _ _ = a
      rw [ha]; rfl
    obtain ⟨i', hi', hlo, hhi⟩ := (s5 p).1 hplt
    have hii : i' = i := by
      obtain ⟨a', -, ha', hkey⟩ := s4 i' hi' p hlo hhi
      rw [ha] at ha'
      cases ha'
      rw [hai] at hkey
      simpa using hkey.symm
    subst hii
    refine ⟨hm, ⟨hlo, hhi⟩, ?_⟩
    have := (c5 i' hi' p hlo hhi).2.2
    rwa [hm] at this

/-- **C85**  With independent uniform random numbers, if every species with equations got a particle, the program
returns almost surely. -/
theorem C85_almost_surely (hlib : ExampleLibs T auto doc d nsort kT) (hrng : rng.IID μ)
    (hs : callsUncaught T auto exampleCalls (Session.new doc) = .ok s)
    (hl : createRandomParticles d s.props.length w N sd = some l) (hpop : Populated s l) :
    ∀ᵐ g ∂μ, ∃ fi fs st, exampleMain T auto doc d nsort rng N w sd g fi fs = .ok (s, st) := by
  obtain ⟨h5, c1, c2, -⟩ := main_cell hlib hs hl
  filter_upwards [C76_finishes (wholeEnv T 5 s.eqs (exampleConst (sortBySpecies nsort
    (fun p => p.species.toNat) 5 l) rng)) rfl hrng (library_acts hrng)
    (exampleCell (sortBySpecies nsort (fun p => p.species.toNat) 5 l) w sd) c1
    (fun A B h1 h2 h3 => c2 hpop A B h1 h2 fun hc => h3 (by simp [wholeEnv, hc]))] with g hg
  obtain ⟨fi, fs, st, h⟩ := hg
  exact ⟨fi, fs, st, (main_ok_iff hs hl h5 g fi fs _).2 ⟨rfl, h⟩⟩

/-- **C85**  Two of the `k` particles of one species, at relative speed `v`, perform equation `j` of the species on
average `k/(k-1) σ_j(v) v / 1000` times (volume and weight are 1, the time step is 1/1000), if the cross sections
keep their announced bounds and the estimated number of tests is not an integer. -/
theorem C85_rate_one_species (hlib : ExampleLibs T auto doc d nsort kT) (hrng : rng.IID μ)
    (hs : callsUncaught T auto exampleCalls (Session.new doc) = .ok s)
    (hl : createRandomParticles d s.props.length w N sd = some l) (hpop : Populated s l)
    (A : ℕ) (hA : A < 5) {p q : ℕ} {a b : Part W} (hpq : p ≠ q)
    (hp : (sortBySpecies nsort (fun p => p.species.toNat) 5 l).1[p]? = some a) (ha : a.species = A)
    (hq : (sortBySpecies nsort (fun p => p.species.toNat) 5 l).1[q]? = some b) (hb : b.species = A)
    (v m : ℝ) (hv : v = (a.vel - b.vel).abs)
    (hm : m = (exampleConst (S := S) (sortBySpecies nsort (fun p => p.species.toNat) 5 l) rng).maxRelVel A A)
    (hev : ∀ x ∈ s.eqs A A, ∃ σ, x.cs.sigma v = .ok σ ∧ 0 ≤ σ) (hbd : ∀ x ∈ s.eqs A A, SigmaVBound x.cs m)
    (maxima : List ℝ) (hmax : List.Forall₂ (fun x M => ∃ vm, x.cs.maxSV m = .ok (M, vm)) (s.eqs A A) maxima)
    (k : ℕ) (hk : k = l.countP fun p => p.species = (A : ℤ)) (E : ℝ) (hE : E = k * k * (1 / 1000) * maxima.sum / 2)
    (hE0 : 0 ≤ E) (hi : E ≠ ⌊E⌋) (j : ℕ) (x : WEq W) (hx : (s.eqs A A)[j]? = some x) (σ : ℝ)
    (hσ : x.cs.sigma v = .ok σ) :
    ∫⁻ g, (timesPerformed A A p q j (mainLog T auto doc d nsort rng N w sd g) : ℝ≥0∞) ∂μ +
      ∫⁻ g, (timesPerformed A A q p j (mainLog T auto doc d nsort rng N w sd g) : ℝ≥0∞) ∂μ =
      ENNReal.ofReal (k / (k - 1) * (σ * v / 1000)) := by
  obtain ⟨h5, c1, c2, c3, c4⟩ := main_cell hlib hs hl
  obtain ⟨m1, r1, v1⟩ := c4 A hA p a hp ha
  obtain ⟨m2, r2, v2⟩ := c4 A hA q b hq hb
  simp only [mainLog_eq hs hl h5]
  subst hm
  rw [C76_library_one (c := exampleConst (sortBySpecies nsort (fun p => p.species.toNat) 5 l) rng) rfl hrng _ rfl c1
    (c2 hpop) (fun _ => one_pos) A hA p q r1 r2 hpq v (by rw [m1, m2]; exact hv)
    (by rw [hv]; exact C68_same_species _ v1 v2) hev hbd maxima hmax k (by rw [hk]; exact (c3 A hA).symm) E
    (by rw [hE, ntcEstimate]; simp [exampleConst]) hE0 hi j x hx σ hσ]
  congr 1
  simp only [exampleConst]
  ring

/-- **C85**  A pair of different species whose relative speed `v` is not above the announced one performs equation `j`
on average `σ_j(v) v / 1000` times, under the same conditions. -/
theorem C85_rate_two_species (hlib : ExampleLibs T auto doc d nsort kT) (hrng : rng.IID μ)
    (hs : callsUncaught T auto exampleCalls (Session.new doc) = .ok s)
    (hl : createRandomParticles d s.props.length w N sd = some l) (hpop : Populated s l)
    (A B : ℕ) (hAB : A < B) (hB : B < 5) {p q : ℕ} {a b : Part W}
    (hp : (sortBySpecies nsort (fun p => p.species.toNat) 5 l).1[p]? = some a) (ha : a.species = A)
    (hq : (sortBySpecies nsort (fun p => p.species.toNat) 5 l).1[q]? = some b) (hb : b.species = B)
    (v m : ℝ) (hv : v = (a.vel - b.vel).abs)
    (hm : m = (exampleConst (S := S) (sortBySpecies nsort (fun p => p.species.toNat) 5 l) rng).maxRelVel A B)
    (hvm : v ≤ m)
    (hev : ∀ x ∈ s.eqs A B, ∃ σ, x.cs.sigma v = .ok σ ∧ 0 ≤ σ) (hbd : ∀ x ∈ s.eqs A B, SigmaVBound x.cs m)
    (maxima : List ℝ) (hmax : List.Forall₂ (fun x M => ∃ vm, x.cs.maxSV m = .ok (M, vm)) (s.eqs A B) maxima)
    (kA kB : ℕ) (hkA : kA = l.countP fun p => p.species = (A : ℤ)) (hkB : kB = l.countP fun p => p.species = (B : ℤ))
    (E : ℝ) (hE : E = kA * kB * (1 / 1000) * maxima.sum)
    (hE0 : 0 ≤ E) (hi : E ≠ ⌊E⌋) (j : ℕ) (x : WEq W) (hx : (s.eqs A B)[j]? = some x) (σ : ℝ)
    (hσ : x.cs.sigma v = .ok σ) :
    ∫⁻ g, (timesPerformed A B p q j (mainLog T auto doc d nsort rng N w sd g) : ℝ≥0∞) ∂μ =
      ENNReal.ofReal (σ * v / 1000) := by
  obtain ⟨h5, c1, c2, c3, c4⟩ := main_cell hlib hs hl
  obtain ⟨m1, r1, v1⟩ := c4 A (by omega) p a hp ha
  obtain ⟨m2, r2, v2⟩ := c4 B hB q b hq hb
  simp only [mainLog_eq hs hl h5]
  subst hm
  rw [C76_library (c := exampleConst (sortBySpecies nsort (fun p => p.species.toNat) 5 l) rng) rfl hrng _ rfl c1
    (c2 hpop) (fun _ => one_pos) A B hAB hB p q r1 r2 v (by rw [m1, m2]; exact hv) hvm hev hbd maxima hmax E
    (by rw [hE, c3 A (by omega), c3 B hB, ← hkA, ← hkB, ntcEstimate]; simp [exampleConst]) hE0 hi j x hx σ hσ]
  congr 1
  simp only [exampleConst, max_self]
  ring

end main

/-! ## Example: two argon atoms, one moving with speed 1 -/

namespace MainExample

/-- Every particle is argon; components of velocities are read from a list, kept between -1 and 1. -/
noncomputable def argon : Draws (ℕ → ℝ) where
  species s := (1, s)
  position s := (0, s)
  velocity _ s := (max (-1) (min 1 (s 0)), fun i => s (i + 1))

def first : ℕ → ℝ := fun i => if i = 0 then 1 else 0

theorem argon_ok : argon.InRange db 5 where
  species s := by
    refine ⟨zero_le_one, ?_⟩
    show (1 : ℝ) ≤ 0.9999999 * (5 : ℕ)
    norm_num
  position s := by simp [argon]
  velocity C p hp s := by
    have h1 : |max (-1) (min 1 (s 0))| ≤ 1 := abs_le.2 ⟨le_max_left _ _, max_le (by norm_num) (min_le_left _ _)⟩
    have h2 : 1 ≤ Real.sqrt (5 / p.mass) := by
      have : p.mass = 1 ∨ p.mass = 2 ∨ p.mass = 3 ∨ p.mass = 4 ∨ p.mass = 5 := by
        have := List.mem_of_getElem? hp
        simp only [db, List.mem_cons, List.not_mem_nil, or_false] at this
        rcases this with rfl | rfl | rfl | rfl | rfl <;> simp [rb, ar, el, hg, hgp]
      rw [Real.one_le_sqrt]
      rcases this with h | h | h | h | h <;> rw [h] <;> norm_num
    show |max (-1) (min 1 (s 0))| ≤ _
    linarith

theorem argon_libs (T : Tools W) : ExampleLibs T false doc argon sort 5 where
  draws s hs := by
    obtain ⟨s', h1, h2, -⟩ := setup T
    rw [h1] at hs
    cases hs
    rw [h2]
    exact argon_ok
  sorts := sort_ok 5

def moving (w : W) : Part W := ⟨⟨0, 0, 0⟩, ⟨1, 0, 0⟩, 1, w⟩
def resting (w : W) : Part W := ⟨⟨0, 0, 0⟩, ⟨0, 0, 0⟩, 1, w⟩

theorem argon_made (w : W) : createRandomParticles argon 5 w 2 first = some [moving w, resting w] := by
  have hc : castInt 1 = 1 := by simp [castInt]
  simp [createRandomParticles, drawParticle, argon, hc, drawVec, first, moving, resting]

theorem argon_speed (w : W) (rng : RNG S ℝ) :
    (exampleConst (S := S) (sortBySpecies sort (fun p => p.species.toNat) 5 [moving w, resting w]) rng).maxRelVel 1 1 =
      1 := by
  have e : rangeVels (sortBySpecies sort (fun p : Part W => p.species.toNat) 5 [moving w, resting w]).1
      ((sortBySpecies sort (fun p : Part W => p.species.toNat) 5 [moving w, resting w]).2 1) =
      [⟨1, 0, 0⟩, ⟨0, 0, 0⟩] := rfl
  have hm : cellMeasure [⟨1, 0, 0⟩, ⟨0, 0, 0⟩] = (⟨0, 0, 0⟩, ⟨1, 0, 0⟩) := by
    simp [cellMeasure, show (0 : Vec).x = 0 from rfl, show (0 : Vec).y = 0 from rfl, show (0 : Vec).z = 0 from rfl]
  show maxRelativeVelocity _ _ = 1
  rw [e, maxRelativeVelocity, hm, max_self]
  show Real.sqrt ((1 - 0) ^ 2 + (0 - 0) ^ 2 + (0 - 0) ^ 2) = 1
  norm_num

/-- The two atoms collide 8/1000 times on average: the cross section is 4, their relative speed 1, and two is the
number of particles over one less than it. -/
example (T : Tools W) (w : W) :
    ∫⁻ g, (timesPerformed 1 1 0 1 0 (mainLog T false doc argon sort streamRNG 2 w first g) : ℝ≥0∞) ∂iidUnif +
      ∫⁻ g, (timesPerformed 1 1 1 0 0 (mainLog T false doc argon sort streamRNG 2 w first g) : ℝ≥0∞) ∂iidUnif =
      ENNReal.ofReal (8 / 1000) := by
  obtain ⟨s, h1, h2, h3, h4⟩ := setup T
  have hl : createRandomParticles argon s.props.length w 2 first = some [moving w, resting w] :=
    (congrArg (fun r : Registry ℝ => createRandomParticles argon r.length w 2 first) h2).trans (argon_made w)
  have hpop : Populated s [moving w, resting w] := by
    intro A B _ _ hne
    obtain ⟨rfl, rfl⟩ := h4 A B hne
    exact ⟨⟨moving w, by simp, rfl⟩, ⟨moving w, by simp, rfl⟩⟩
  have hsig : ∀ v : ℝ, 0 ≤ v → (SessionExample.xs 4).sigma v = .ok 4 := by
    intro v hv
    show Except.ok (if v ≥ Real.sqrt 0 then (4 : ℝ) else 0) = _
    rw [if_pos (by simpa using hv)]
  have hmax : (SessionExample.xs 4).maxSV 1 = .ok (4, 1) := by
    show Except.ok (if (1 : ℝ) ≥ Real.sqrt 0 then ((4 : ℝ) * 1, (1 : ℝ)) else (0, 0)) = _
    rw [if_pos (by simp), mul_one]
  have hsort : (sortBySpecies sort (fun p : Part W => p.species.toNat) 5 [moving w, resting w]).1 =
    [moving w, resting w] := rfl
  have hv : (1 : ℝ) = ((moving w).vel - (resting w).vel).abs := by
    show 1 = Real.sqrt ((1 - 0) ^ 2 + (0 - 0) ^ 2 + (0 - 0) ^ 2)
    norm_num
  have hev : ∀ x ∈ s.eqs 1 1, ∃ σ, x.cs.sigma 1 = .ok σ ∧ 0 ≤ σ := by
    intro x hx
    rw [h3, List.mem_singleton] at hx
    subst hx
    exact ⟨4, hsig 1 zero_le_one, by norm_num⟩
  have hbd : ∀ x ∈ s.eqs 1 1, SigmaVBound x.cs 1 := by
    intro x hx
    rw [h3, List.mem_singleton] at hx
    subst hx
    refine ⟨4, 1, hmax, fun v c h0 hv hc => ?_⟩
    have hc' : (SessionExample.xs 4).sigma v = .ok c := hc
    rw [hsig v h0] at hc'
    cases hc'
    linarith
  have hm : List.Forall₂ (fun (x : WEq W) M => ∃ vm, x.cs.maxSV 1 = .ok (M, vm)) (s.eqs 1 1) [4] := by
    rw [h3]
    exact .cons ⟨1, hmax⟩ .nil
  have hs0 : (sortBySpecies sort (fun p : Part W => p.species.toNat) 5 [moving w, resting w]).1[0]? = some (moving w) := by
    rw [hsort]; rfl
  have hs1 : (sortBySpecies sort (fun p : Part W => p.species.toNat) 5 [moving w, resting w]).1[1]? = some (resting w) := by
    rw [hsort]; rfl
  have hE : (8 / 1000 : ℝ) = (2 : ℕ) * (2 : ℕ) * (1 / 1000) * [(4 : ℝ)].sum / 2 := by norm_num
  have hk : 2 = [moving w, resting w].countP fun p => p.species = ((1 : ℕ) : ℤ) := rfl
  have hx : (s.eqs 1 1)[0]? = some wAr := by rw [h3]; rfl
  have hi : (8 / 1000 : ℝ) ≠ ⌊(8 / 1000 : ℝ)⌋ := by norm_num
  have key := C85_rate_one_species (argon_libs T) streamRNG_iid h1 hl hpop 1 (by norm_num) (p := 0) (q := 1)
    (a := moving w) (b := resting w) (by norm_num) hs0 rfl hs1 rfl 1 1 hv
    (argon_speed w streamRNG).symm hev hbd [4] hm 2 hk (8 / 1000) hE (by norm_num)
    hi 0 wAr hx 4 (hsig 1 zero_le_one)
  exact key.trans (congrArg ENNReal.ofReal (by norm_num))

example (T : Tools W) (w : W) : ∃ s : Session W, ∀ᵐ g ∂iidUnif, ∃ fi fs st,
    exampleMain T false doc argon sort streamRNG 2 w first g fi fs = .ok (s, st) := by
  obtain ⟨s, h1, h2, h3, h4⟩ := setup T
  have hl : createRandomParticles argon s.props.length w 2 first = some [moving w, resting w] :=
    (congrArg (fun r : Registry ℝ => createRandomParticles argon r.length w 2 first) h2).trans (argon_made w)
  refine ⟨s, C85_almost_surely (argon_libs T) streamRNG_iid h1 hl ?_⟩
  intro A B _ _ hne
  obtain ⟨rfl, rfl⟩ := h4 A B hne
  exact ⟨⟨moving w, by simp, rfl⟩, ⟨moving w, by simp, rfl⟩⟩

end MainExample

end Chimp
