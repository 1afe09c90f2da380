import Verif.Model.Monitor
import Verif.Lemmas.DriverCount

/-!
# Lemmas on the driver with its template parameters
-/

namespace Chimp

section

variable {P S K : Type} [Field K] [LinearOrder K]

/-- `env'` is `env` but for the maxima its equations announce, which add up to what `get` provides for the cell. -/
structure SameButBound (get : MaxSVPolicy P S K) (mem : ℕ → P) (range : ℕ → ℕ × ℕ) (env env' : DriverEnv P S K) :
    Prop where
  const : env' = { env with rhs := env'.rhs }
  eqs : ∀ A B, (env'.rhs A B).map (fun e => (e.sigma, e.act)) = (env.rhs A B).map (fun e => (e.sigma, e.act))
  bound : ∀ A B, env.rhs A B ≠ [] →
    ((env'.rhs A B).map fun e => e.maxSigmaV (env.maxRelVel A B)).sum = get (env.rhs A B) mem range A B

/-- What the two particles of a test look like afterwards: unchanged if no interaction takes place or interactions are
out of place, otherwise as the model of the chosen equation leaves them, which is given the particle of the lower
species first. -/
def LeftBy (env : DriverEnv P S K) (ev : Event P K) (a' b' : P) : Prop :=
  if env.inplace = false ∨ ev.path.first < 0 then a' = ev.a ∧ b' = ev.b
  else ∃ e s, (env.rhs ev.A ev.B)[ev.path.first.toNat]? = some e ∧
    if env.species ev.b < env.species ev.a then
      a' = (e.act ev.b ev.a s).2.1 ∧ b' = (e.act ev.b ev.a s).1
    else a' = (e.act ev.a ev.b s).1 ∧ b' = (e.act ev.a ev.b s).2.1

/-- The reports of the tests in a list, where `res` is the result list before them. -/
def Follow (env : DriverEnv P S K) : List P → List (Event P K) → List (Report P K) → Prop
  | _, [], [] => True
  | res, ev :: evs, r :: rs =>
    (r.p = ev.p ∧ r.q = ev.q ∧ r.path = (ev.path.first, ev.path.second) ∧ r.results = res ++ ev.prods ∧
      LeftBy env ev r.a r.b) ∧ Follow env (res ++ ev.prods) evs rs
  | _, _, _ => False

omit [Field K] [LinearOrder K] in
theorem Follow.append {env : DriverEnv P S K} : ∀ {res : List P} {e1 e2 : List (Event P K)} {r1 r2 : List (Report P K)},
    Follow env res e1 r1 → Follow env (res ++ e1.flatMap Event.prods) e2 r2 → Follow env res (e1 ++ e2) (r1 ++ r2)
  | _, [], _, [], _, _, h => by simpa using h
  | res, ev :: evs, e2, r :: rs, r2, h1, h2 => by
    refine ⟨h1.1, Follow.append h1.2 ?_⟩
    simpa [List.append_assoc] using h2
  | _, [], _, _ :: _, _, h, _ => h.elim
  | _, _ :: _, _, [], _, h, _ => h.elim

omit [Field K] [LinearOrder K] in
theorem Follow.get {env : DriverEnv P S K} : ∀ {res : List P} {evs : List (Event P K)} {rs : List (Report P K)},
    Follow env res evs rs → rs.length = evs.length ∧ ∀ k ev r, evs[k]? = some ev → rs[k]? = some r →
      r.p = ev.p ∧ r.q = ev.q ∧ r.path = (ev.path.first, ev.path.second) ∧
      r.results = res ++ (evs.take (k + 1)).flatMap Event.prods ∧ LeftBy env ev r.a r.b
  | _, [], [], _ => ⟨rfl, by simp⟩
  | res, ev :: evs, r :: rs, h => by
    obtain ⟨h1, h2⟩ := Follow.get h.2
    refine ⟨by simp [h1], ?_⟩
    intro k e x he hx
    cases k with
    | zero =>
      simp only [List.getElem?_cons_zero, Option.some.injEq] at he hx
      subst he hx
      obtain ⟨a1, a2, a3, a4, a5⟩ := h.1
      exact ⟨a1, a2, a3, by simp [a4], a5⟩
    | succ k =>
      simp only [List.getElem?_cons_succ] at he hx
      obtain ⟨a1, a2, a3, a4, a5⟩ := h2 k e x he hx
      exact ⟨a1, a2, a3, by simp [a4, List.append_assoc], a5⟩
  | _, [], _ :: _, h => h.elim
  | _, _ :: _, [], h => h.elim

omit [Field K] [LinearOrder K] in
theorem lookup_same {l l' : List (Eqn P S K)}
    (h : l'.map (fun e => (e.sigma, e.act)) = l.map (fun e => (e.sigma, e.act))) (i : ℕ) :
    (l'[i]? = none ∧ l[i]? = none) ∨ ∃ e e', l'[i]? = some e' ∧ l[i]? = some e ∧ e'.sigma = e.sigma ∧ e'.act = e.act := by
  have := congrArg (fun x => x[i]?) h
  simp only [List.getElem?_map] at this
  cases h1 : l'[i]? <;> cases h2 : l[i]? <;> rw [h1, h2] at this <;> simp at this
  · exact .inl ⟨rfl, rfl⟩
  · exact .inr ⟨_, _, rfl, rfl, this.1, this.2⟩

theorem setInteract_same (env : DriverEnv P S K) (r : ℕ → ℕ → List (Eqn P S K)) {l l' : List (Eqn P S K)}
    (h : l'.map (fun e => (e.sigma, e.act)) = l.map (fun e => (e.sigma, e.act))) (m : K) (a b : P) (s : S) :
    setInteract { env with rhs := r } l' m a b s = setInteract env l m a b s := by
  have hs : l'.map (fun e => e.sigma (env.relSpeed a b)) = l.map (fun e => e.sigma (env.relSpeed a b)) := by
    have := congrArg (List.map fun x : (K → K) × (P → P → S → P × P × List P × S) => x.1 (env.relSpeed a b)) h
    simpa [List.map_map, Function.comp_def] using this
  simp only [setInteract, hs]
  unfold performPath
  split
  · rcases lookup_same h (calculateOutPath (l.map fun e => e.sigma (env.relSpeed a b)) m (env.relSpeed a b)
      (env.rng.rand s).1 (env.rng.randExc (env.rng.rand s).2).1).first.toNat with ⟨h1, h2⟩ | ⟨e, e', h1, h2, -, h4⟩
    · rw [h1, h2]
    · rw [h1, h2]; simp only [h4]
  · rfl

theorem path_in_range (cs : List K) (m v u w : K) [IsStrictOrderedRing K] :
    (calculateOutPath cs m v u w).first < 0 ∨ (calculateOutPath cs m v u w).first.toNat < cs.length := by
  unfold calculateOutPath
  split
  · left; simp
  · split
    · rename_i j c h
      obtain ⟨k, hk, hc, -⟩ := pickLoop_some _ _ _ _ _ _ h
      right
      simp only [Int.toNat_natCast]
      have := (List.getElem?_eq_some_iff.1 hc).1
      omega
    · left; simp

theorem leftBy_setInteract [IsStrictOrderedRing K] (env : DriverEnv P S K) (hin : env.inplace = true) (A B p q : ℕ) (m : K) (a b : P) (s : S) :
    let r := setInteract env (env.rhs A B) m a b s
    LeftBy env ⟨A, B, p, q, a, b, r.1, r.2.2.2.1⟩ r.2.1 r.2.2.1 := by
  intro r
  have hpos := setInteract_cases env (env.rhs A B) m a b s
  have hr : r.1.first < 0 ∨ r.1.first.toNat < (env.rhs A B).length := by
    have : r.1 = calculateOutPath ((env.rhs A B).map fun e => e.sigma (env.relSpeed a b)) m (env.relSpeed a b)
      (env.rng.rand s).1 (env.rng.randExc (env.rng.rand s).2).1 := by
      simp only [r, setInteract, performPath_fst]
    rw [this]
    have := path_in_range ((env.rhs A B).map fun e => e.sigma (env.relSpeed a b)) m (env.relSpeed a b)
      (env.rng.rand s).1 (env.rng.randExc (env.rng.rand s).2).1
    simpa using this
  unfold LeftBy
  simp only [hin, Bool.true_eq_false, false_or]
  change Possible env (env.rhs A B) a b r at hpos
  rcases hpos with ⟨h1, h2, h3, -⟩ | ⟨h0, e, -, s', he, h⟩
  · rcases hr with hr | hr
    · rw [if_pos hr]; exact ⟨h2, h3⟩
    · rcases h1 with h1 | h1
      · rw [if_pos h1]; exact ⟨h2, h3⟩
      · rw [List.getElem?_eq_none_iff] at h1; omega
  · rw [if_neg (not_lt.2 h0)]
    refine ⟨e, s', he, ?_⟩
    rcases h with ⟨h1, h2, h3, -⟩ | ⟨h1, h2, h3, -⟩
    · rw [if_pos h1]; exact ⟨h2, h3⟩
    · rw [if_neg h1]; exact ⟨h2, h3⟩

omit [Field K] [LinearOrder K] in
theorem driverRetval_log (ip : Bool) (pf : ℤ) (c : Bool) (A B p q : ℕ) (st : DState P S K) (L L' : List (Event P K)) :
    driverRetval ip pf c A B p q { st with log := L } =
      { driverRetval ip pf c A B p q { st with log := L' } with log := L } := by
  unfold driverRetval
  split
  · rfl
  · simp only; split <;> rfl

end

section

variable {P S K : Type} [Field K] [LinearOrder K] [FloorRing K] [IsStrictOrderedRing K]

omit [IsStrictOrderedRing K] in
theorem selectB_ne (rng : RNG S K) (lo sz pA : ℕ) : ∀ (fuel : ℕ) (s : S) (pB : ℕ) (s' : S),
    selectB rng lo sz pA fuel s = some (pB, s') → pA ≠ pB
  | 0, _, _, _, h => by simp [selectB] at h
  | fuel + 1, s, pB, s', h => by
    simp only [selectB] at h
    split at h
    · exact selectB_ne rng lo sz pA fuel _ _ _ h
    · rename_i hne
      simp only [Option.some.injEq, Prod.mk.injEq] at h
      rw [← h.1]; exact hne

omit [IsStrictOrderedRing K] in
theorem selectRandomPair_ne (rng : RNG S K) (fuel : ℕ) (a b : ℕ × ℕ) (s : S) {p q : ℕ} {s' : S}
    (h : selectRandomPair rng false fuel a b s = some (p, q, s')) : p ≠ q := by
  simp only [selectRandomPair, Bool.false_eq_true, if_false] at h
  split at h
  · cases h
  · rename_i pB s2 hB
    simp only [Option.some.injEq, Prod.mk.injEq] at h
    obtain ⟨rfl, rfl, -⟩ := h
    exact selectB_ne _ _ _ _ _ _ _ _ hB

/-- Fold of the reports of a run. -/
def tell {M : Type} (mon : Monitor P K M) (rs : List (Report P K)) (mn : M) : M :=
  rs.foldl (fun m r => mon.interactions r m) mn

omit [FloorRing K] in
theorem pairTestM_sim (env : DriverEnv P S K) (r : ℕ → ℕ → List (Eqn P S K))
    (hr : ∀ A B, (r A B).map (fun e => (e.sigma, e.act)) = (env.rhs A B).map (fun e => (e.sigma, e.act)))
    (A B : ℕ) (m : K) (p q : ℕ) (hpq : p ≠ q) (st : DState P S K) :
    ∃ ev rep, (pairTest { env with rhs := r } A B m p q st).log = st.log ++ [ev] ∧
      (pairTest { env with rhs := r } A B m p q st).results = st.results ++ ev.prods ∧
      Follow env st.results [ev] [rep] ∧
      ∀ (M : Type) (mon : Monitor P K M) (mn : M) (L : List (Event P K)),
        pairTestM mon env A B m p q ({ st with log := L }, mn) =
          ({ pairTest { env with rhs := r } A B m p q st with log := L }, mon.interactions rep mn) := by
  have hs := setInteract_same env r (hr A B) m (st.mem p) (st.mem q) st.gen
  obtain ⟨h1, h2, -⟩ := pairTest_fields { env with rhs := r } A B m p q st
  simp only at h1 h2
  rw [hs] at h1 h2
  have hleft := fun h => leftBy_setInteract env h A B p q m (st.mem p) (st.mem q) st.gen
  have hpt : pairTest { env with rhs := r } A B m p q st = applyPair env.inplace A B p q
      (setInteract env (env.rhs A B) m (st.mem p) (st.mem q) st.gen) st := by
    unfold pairTest; rw [hs]
  simp only at hleft
  have hM : ∀ (M : Type) (mon : Monitor P K M) (mn : M) (L : List (Event P K)),
      pairTestM mon env A B m p q ({ st with log := L }, mn) =
        let x := setInteract env (env.rhs A B) m (st.mem p) (st.mem q) st.gen
        let mem' := if env.inplace then Function.update (Function.update st.mem p x.2.1) q x.2.2.1 else st.mem
        ({ applyPair env.inplace A B p q x st with log := L },
          mon.interactions ⟨p, q, mem' p, mem' q, (x.1.first, x.1.second), st.results ++ x.2.2.2.1⟩ mn) := by
    intro M mon mn L
    simp only [pairTestM, applyPair]
    generalize setInteract env (env.rhs A B) m (st.mem p) (st.mem q) st.gen = x
    obtain ⟨path, a', b', prods, s'⟩ := x
    simp only
    rw [driverRetval_log _ _ _ _ _ _ _ ⟨_, st.range, _, st.erased, L, _⟩ L
      (st.log ++ [⟨A, B, p, q, st.mem p, st.mem q, path, prods⟩])]
  refine ⟨_, ⟨p, q,
    (if env.inplace then Function.update (Function.update st.mem p
      (setInteract env (env.rhs A B) m (st.mem p) (st.mem q) st.gen).2.1) q
      (setInteract env (env.rhs A B) m (st.mem p) (st.mem q) st.gen).2.2.1 else st.mem) p,
    (if env.inplace then Function.update (Function.update st.mem p
      (setInteract env (env.rhs A B) m (st.mem p) (st.mem q) st.gen).2.1) q
      (setInteract env (env.rhs A B) m (st.mem p) (st.mem q) st.gen).2.2.1 else st.mem) q, _, _⟩,
    h2, h1, ⟨⟨rfl, rfl, rfl, rfl, ?_⟩, trivial⟩, fun M mon mn L => by rw [hM, hpt]⟩
  cases hin : env.inplace with
  | false =>
    unfold LeftBy
    rw [if_pos (.inl hin)]
    simp
  | true =>
    have := hleft hin
    simp only [if_true, Function.update_self, Function.update_of_ne hpq]
    exact this

/-- Lemma on the test loop: the run with a monitor and the run with a log go together. -/
theorem testLoopM_sim (env : DriverEnv P S K) (r : ℕ → ℕ → List (Eqn P S K))
    (hr : ∀ A B, (r A B).map (fun e => (e.sigma, e.act)) = (env.rhs A B).map (fun e => (e.sigma, e.act)))
    (fs A B : ℕ) (m : K) : ∀ (fi : ℕ) (nt : K) (st : DState P S K),
    (∃ e, testLoop { env with rhs := r } fs A B m fi nt st = .error e ∧
      ∀ (M : Type) (mon : Monitor P K M) (mn : M) (L : List (Event P K)),
        testLoopM mon env fs A B m fi nt ({ st with log := L }, mn) = .error e) ∨
    ∃ st' evs rs, testLoop { env with rhs := r } fs A B m fi nt st = .ok st' ∧ st'.log = st.log ++ evs ∧
      st'.results = st.results ++ evs.flatMap Event.prods ∧ Follow env st.results evs rs ∧
      ∀ (M : Type) (mon : Monitor P K M) (mn : M) (L : List (Event P K)),
        testLoopM mon env fs A B m fi nt ({ st with log := L }, mn) = .ok ({ st' with log := L }, tell mon rs mn)
  | 0, nt, st => by
    by_cases h : nt > 1
    · exact .inl ⟨.timeout, by simp [testLoop, h], fun _ _ _ _ => by simp [testLoopM, h]⟩
    · exact .inr ⟨st, [], [], by simp [testLoop, h], by simp, by simp, trivial, fun _ _ _ _ => by simp [testLoopM, h, tell]⟩
  | fi + 1, nt, st => by
    by_cases h : nt > 1
    · by_cases hn : notEnough st A B = true
      · refine .inr ⟨st, [], [], by simp [testLoop, h, hn], by simp, by simp, trivial, fun _ _ _ L => ?_⟩
        have hn' : notEnough ({ st with log := L } : DState P S K) A B = true := hn
        simp [testLoopM, h, hn', tell]
      · have hn' : ∀ L : List (Event P K), ¬ notEnough ({ st with log := L } : DState P S K) A B = true := fun _ => hn
        cases hsel : selectRandomPair env.rng false fs (st.range A) (st.range B) st.gen with
        | none =>
          exact .inl ⟨.timeout, by simp [testLoop, h, hn, hsel], fun _ _ _ L => by simp [testLoopM, h, hn' L, hsel]⟩
        | some x =>
          obtain ⟨p, q, s'⟩ := x
          obtain ⟨ev, rep, h1, h2, h3, h4⟩ := pairTestM_sim env r hr A B m p q (selectRandomPair_ne _ _ _ _ _ hsel)
            { st with gen := s' }
          have hD : testLoop { env with rhs := r } fs A B m (fi + 1) nt st =
              testLoop { env with rhs := r } fs A B m fi (nt - 1)
                (pairTest { env with rhs := r } A B m p q { st with gen := s' }) := by
            simp only [testLoop, h, if_true, hn, hsel]
            rfl
          have hM : ∀ (M : Type) (mon : Monitor P K M) (mn : M) (L : List (Event P K)),
              testLoopM mon env fs A B m (fi + 1) nt ({ st with log := L }, mn) =
                testLoopM mon env fs A B m fi (nt - 1)
                  ({ pairTest { env with rhs := r } A B m p q { st with gen := s' } with log := L },
                    mon.interactions rep mn) := by
            intro M mon mn L
            simp only [testLoopM, h, if_true, hn' L, hsel]
            rw [← h4]
            rfl
          rcases testLoopM_sim env r hr fs A B m fi (nt - 1)
            (pairTest { env with rhs := r } A B m p q { st with gen := s' }) with ⟨e, i1, i2⟩ | ⟨st', evs, rs, i1, i2, i3, i4, i5⟩
          · exact .inl ⟨e, by rw [hD, i1], fun M mon mn L => by rw [hM, i2]⟩
          · refine .inr ⟨st', ev :: evs, rep :: rs, by rw [hD, i1], ?_, ?_, ?_, fun M mon mn L => ?_⟩
            · rw [i2, h1]; simp
            · rw [i3, h2]; simp
            · exact ⟨h3.1, by rw [h2] at i4; exact i4⟩
            · rw [hM, i5]; rfl
    · exact .inr ⟨st, [], [], by simp [testLoop, h], by simp, by simp, trivial, fun _ _ _ _ => by simp [testLoopM, h, tell]⟩

theorem collideAllM_sim (env : DriverEnv P S K) (r : ℕ → ℕ → List (Eqn P S K))
    (hr : ∀ A B, (r A B).map (fun e => (e.sigma, e.act)) = (env.rhs A B).map (fun e => (e.sigma, e.act)))
    (fi fs : ℕ) : ∀ (ds : List ((ℕ × ℕ) × Option (TestData K))) (st : DState P S K),
    (∃ e, collideAll { env with rhs := r } fi fs ds st = .error e ∧
      ∀ (M : Type) (mon : Monitor P K M) (mn : M) (L : List (Event P K)),
        collideAllM mon env fi fs ds ({ st with log := L }, mn) = .error e) ∨
    ∃ st' evs rs, collideAll { env with rhs := r } fi fs ds st = .ok st' ∧ st'.log = st.log ++ evs ∧
      st'.results = st.results ++ evs.flatMap Event.prods ∧ Follow env st.results evs rs ∧
      ∀ (M : Type) (mon : Monitor P K M) (mn : M) (L : List (Event P K)),
        collideAllM mon env fi fs ds ({ st with log := L }, mn) = .ok ({ st' with log := L }, tell mon rs mn)
  | [], st => .inr ⟨st, [], [], rfl, by simp, by simp, trivial, fun _ _ _ _ => rfl⟩
  | ((_, _), none) :: ds, st => by simpa only [collideAll, collideAllM] using collideAllM_sim env r hr fi fs ds st
  | ((A, B), some d) :: ds, st => by
    rcases testLoopM_sim env r hr fs A B d.maxSV fi d.numberTests st with ⟨e, i1, i2⟩ | ⟨st1, evs, rs, i1, i2, i3, i4, i5⟩
    · exact .inl ⟨e, by simp only [collideAll, i1], fun M mon mn L => by simp only [collideAllM, i2]⟩
    · rcases collideAllM_sim env r hr fi fs ds st1 with ⟨e, j1, j2⟩ | ⟨st2, evs2, rs2, j1, j2, j3, j4, j5⟩
      · exact .inl ⟨e, by simp only [collideAll, i1, j1], fun M mon mn L => by simp only [collideAllM, i5, j2]⟩
      · refine .inr ⟨st2, evs ++ evs2, rs ++ rs2, by simp only [collideAll, i1, j1], ?_, ?_, ?_, fun M mon mn L => ?_⟩
        · rw [j2, i2]; simp
        · rw [j3, i3]; simp
        · exact i4.append (by rw [← i3]; exact j4)
        · simp only [collideAllM, i5, j5, tell, List.foldl_append]

/-- The numbers announced for the pairs that have interactions. -/
def numbers (ds : List ((ℕ × ℕ) × Option (TestData K))) : List K :=
  ds.filterMap fun d => d.2.map TestData.numberTests

omit [IsStrictOrderedRing K] in
theorem estimateAllM_sim (get : MaxSVPolicy P S K) (env env' : DriverEnv P S K) (mem : ℕ → P) (range : ℕ → ℕ × ℕ)
    (hb : SameButBound get mem range env env') : ∀ (ps : List (ℕ × ℕ)) (st : DState P S K), st.mem = mem → st.range = range →
    (∃ e, estimateAll env' ps st = .error e ∧
      ∀ (M : Type) (mon : Monitor P K M) (mn : M) (L : List (Event P K)),
        estimateAllM mon get env ps ({ st with log := L }, mn) = .error e) ∨
    ∃ ds st', estimateAll env' ps st = .ok (ds, st') ∧
      ∀ (M : Type) (mon : Monitor P K M) (mn : M) (L : List (Event P K)),
        estimateAllM mon get env ps ({ st with log := L }, mn) =
          .ok (ds, { st' with log := L }, (numbers ds).foldl (fun m x => mon.pairtests x m) mn) := by
  intro ps
  induction ps with
  | nil => exact fun st _ _ => .inr ⟨[], st, rfl, fun _ _ _ _ => rfl⟩
  | cons ab ps ih =>
    obtain ⟨A, B⟩ := ab
    intro st hmem hrange
    have hlen : (env'.rhs A B).length = (env.rhs A B).length := by
      have := congrArg List.length (hb.eqs A B); simpa using this
    by_cases h0 : (env.rhs A B).length = 0
    · have e1 : estimatePair env' st A B = .ok (none, st) := by simp only [estimatePair, hlen, h0, if_true]
      have e2 : ∀ (M : Type) (mon : Monitor P K M) (mn : M) (L : List (Event P K)),
          estimatePairM mon get env A B ({ st with log := L }, mn) = .ok (none, { st with log := L }, mn) := by
        intro M mon mn L; simp only [estimatePairM, h0, if_true]
      rcases ih st hmem hrange with ⟨e, i1, i2⟩ | ⟨ds, st', i1, i2⟩
      · exact .inl ⟨e, by simp only [estimateAll, e1, i1], fun M mon mn L => by simp only [estimateAllM, e2, i2]⟩
      · refine .inr ⟨((A, B), none) :: ds, st', by simp only [estimateAll, e1, i1], fun M mon mn L => ?_⟩
        simp only [estimateAllM, e2, i2]; rfl
    · by_cases hub : rsize (st.range A) = 0 ∨ rsize (st.range B) = 0
      · refine .inl ⟨.ub, ?_, fun M mon mn L => ?_⟩
        · simp only [estimateAll, estimatePair, hlen, h0, if_false, hub, if_true]
        · simp only [estimateAllM, estimatePairM, h0, if_false, hub, if_true]
      · have hm : findMaxSigmaVProduct ((env'.rhs A B).map Eqn.maxSigmaV) (env'.maxRelVel A B) =
            get (env.rhs A B) st.mem st.range A B := by
          rw [hmem, hrange, ← hb.bound A B (by intro hc; rw [hc] at h0; simp at h0), findMaxSigmaVProduct_eq, List.map_map,
            hb.const]
          rfl
        obtain ⟨td, g, e1, e2⟩ : ∃ (td : TestData K) (g : S),
            estimatePair env' st A B = .ok (some td, { st with gen := g }) ∧
            ∀ (M : Type) (mon : Monitor P K M) (mn : M) (L : List (Event P K)),
              estimatePairM mon get env A B ({ st with log := L }, mn) =
                .ok (some td, { st with log := L, gen := g }, mon.pairtests td.numberTests mn) := by
          refine ⟨⟨promote (estimateTests (env.weight (st.mem (st.range A).1)) (env.weight (st.mem (st.range B).1))
            (rsize (st.range A)) (rsize (st.range B)) env.dt (get (env.rhs A B) st.mem st.range A B) env.volume (A == B))
            (env.rng.rand st.gen).1, get (env.rhs A B) st.mem st.range A B⟩, (env.rng.rand st.gen).2, ?_, fun M mon mn L => ?_⟩
          · simp only [estimatePair, hlen, h0, if_false, hub, hm]
            rw [hb.const]
          · simp only [estimatePairM, h0, if_false, hub]
        rcases ih { st with gen := g } hmem hrange with ⟨e, i1, i2⟩ | ⟨ds, st', i1, i2⟩
        · exact .inl ⟨e, by simp only [estimateAll, e1, i1], fun M mon mn L => by simp only [estimateAllM, e2, i2]⟩
        · refine .inr ⟨((A, B), some td) :: ds, st', by simp only [estimateAll, e1, i1], fun M mon mn L => ?_⟩
          simp only [estimateAllM, e2, i2]; rfl

/-- The whole run. -/
theorem driverM_sim (get : MaxSVPolicy P S K) (env env' : DriverEnv P S K) (st : DState P S K)
    (hb : SameButBound get st.mem st.range env env') (fi fs : ℕ) :
    (∃ e, driver env' fi fs st = .error e ∧
      ∀ (M : Type) (mon : Monitor P K M) (mn : M) (L : List (Event P K)),
        driverM mon get env fi fs ({ st with log := L }, mn) = .error e) ∨
    ∃ st1 st' ds evs rs, driver env' fi fs st = .ok st' ∧
      estimateAll env' (speciesPairs env'.nSpecies) st = .ok (ds, st1) ∧ collideAll env' fi fs ds st1 = .ok st' ∧
      st'.log = st.log ++ evs ∧ Follow env st.results evs rs ∧
      ∀ (M : Type) (mon : Monitor P K M) (mn : M) (L : List (Event P K)),
        driverM mon get env fi fs ({ st with log := L }, mn) =
          .ok ({ st' with log := L }, tell mon rs ((numbers ds).foldl (fun m x => mon.pairtests x m) mn)) := by
  have hn : env'.nSpecies = env.nSpecies := by rw [hb.const]
  rcases estimateAllM_sim get env env' st.mem st.range hb (speciesPairs env.nSpecies) st rfl rfl with
    ⟨e, i1, i2⟩ | ⟨ds, st1, i1, i2⟩
  · exact .inl ⟨e, by simp only [driver, hn, i1], fun M mon mn L => by simp only [driverM, i2]⟩
  · obtain ⟨⟨g, hg⟩, -, -⟩ := estimateAll_spec env' _ _ _ _ i1
    rcases collideAllM_sim env env'.rhs hb.eqs fi fs ds st1 with ⟨e, j1, j2⟩ | ⟨st', evs, rs, j1, j2, j3, j4, j5⟩
    · rw [← hb.const] at j1
      exact .inl ⟨e, by simp only [driver, hn, i1, j1], fun M mon mn L => by simp only [driverM, i2, j2]⟩
    · rw [← hb.const] at j1
      refine .inr ⟨st1, st', ds, evs, rs, by simp only [driver, hn, i1, j1], by rw [hn, i1], j1, ?_, ?_, fun M mon mn L => ?_⟩
      · rw [j2, hg]
      · rw [hg] at j4; exact j4
      · simp only [driverM, i2, j5]

end

end Chimp
