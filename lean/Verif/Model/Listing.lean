import Verif.Model.Example
import Verif.Model.Writer

/-!
# The programs that list cross sections

`examples/CrossSection/single-input-equation/getCrossSection.cpp`, `examples/CrossSection/all/getCrossSection.cpp` and
`examples/CrossSection/xpath-access/testCrossSection.cpp`, with the functions `findAllRHSParticles` and
`getAllParticlesCtx` of the library and the query of `findAllLHSRelatedInteractionCtx` without a product filter.

Simplified: what is written to `data.dat` is a list of blocks, one per equation, with exact numbers in place of their
decimal text; what goes to the standard output is left out.  The functions that read numbers from an argument are
parameters.  Velocities and cross sections are in SI units.
-/

namespace Chimp

variable {W : Type}

/-! ### `print` -/

/-- The failures of an evaluation that are exceptions.  `nonfinite` is a value that is no number, `ub` is undefined. -/
def XErr.thrown : XErr → Bool
  | .badThreshold => true
  | .emptyTable => true
  | .outOfRange => true
  | .noRoot => true
  | .nonfinite => false
  | .ub => false

/-- `nm*nm`, `examples/CrossSection/all/getCrossSection.cpp` line 49. -/
noncomputable def nm2 : ℝ := 1 / 10 ^ 18

/-- The loop of `print`, `examples/CrossSection/all/getCrossSection.cpp` lines 54-65 (the three programs have the same
text): the rows written from velocity `v` on, if the loop ends.  The last argument of a row is `none` for a value that
is no finite number.  There is no rule for an evaluation that is undefined. -/
inductive LoopRows (σ : ℝ → Except XErr ℝ) (dv v1 : ℝ) : ℝ → Bool → List (ℝ × Option ℝ) → Prop
  | stop {v skip} : ¬ v ≤ v1 → LoopRows σ dv v1 v skip []
  | value {v y l} : v ≤ v1 → σ v = .ok y → LoopRows σ dv v1 (v + dv) false l →
      LoopRows σ dv v1 v false ((v, some (y / nm2)) :: l)
  | nonfinite {v l} : v ≤ v1 → σ v = .error .nonfinite → LoopRows σ dv v1 (v + dv) false l →
      LoopRows σ dv v1 v false ((v, none) :: l)
  | throws {v e l} : v ≤ v1 → σ v = .error e → e.thrown = true → LoopRows σ dv v1 (v + dv) true l →
      LoopRows σ dv v1 v false ((v, some 0) :: l)
  | skip {v l} : v ≤ v1 → LoopRows σ dv v1 (v + dv) true l → LoopRows σ dv v1 v true ((v, some 0) :: l)

/-- `print`, `examples/CrossSection/all/getCrossSection.cpp` lines 41-69.  With no points the step is infinite or not a
number: the loop is not entered if `v0 ≤ v1`, and does not end otherwise. -/
def PrintRows (σ : ℝ → Except XErr ℝ) (v0 v1 : ℝ) (N : ℤ) (rows : List (ℝ × Option ℝ)) : Prop :=
  if N = 0 then v0 ≤ v1 ∧ rows = []
  else LoopRows σ ((v1 - v0) / N) v1 (v0 + 1 / 2 * ((v1 - v0) / N)) false rows

/-- What is written for one equation. -/
structure Block where
  head : List Char
  rows : List (ℝ × Option ℝ)

/-- The body of the loop over equations, `examples/CrossSection/single-input-equation/getCrossSection.cpp` lines
157-161. -/
def WritesEq (db : Registry ℝ) (v0 v1 : ℝ) (N : ℤ) (w : WEq W) (b : Block) : Prop :=
  (∃ t, w.eq.print db = some t ∧ b.head = "# Eq: ".toList ++ t) ∧ PrintRows w.cs.sigma v0 v1 N b.rows

/-! ### Arguments -/

/-- What the treatment of the arguments ends in. -/
inductive Args where
  | usage
  | badRange
  | badPoints
  | run (v0 v1 : ℝ) (N : ℤ)
  | ub

/-- Reading the range from `argv[i]` and the number of points from `argv[j]`, if asked for.  `argv[argc]` is the null
pointer; making a string stream from it, or reading beyond it, is undefined. -/
def readArgs (range : String → Option (ℝ × ℝ)) (int : String → Option ℤ) (argv : List String) (i j : Option ℕ) : Args :=
  let r : Option (Option (ℝ × ℝ)) := match i with
    | none => some (some (100, 10000000))
    | some i => (argv[i]?).map range
  match r with
  | none => .ub
  | some none => .badRange
  | some (some v) =>
    match j with
    | none => .run v.1 v.2 100
    | some j =>
      match argv[j]? with
      | none => .ub
      | some s =>
        match int s with
        | none => .badPoints
        | some N => .run v.1 v.2 N

/-- `main`, `examples/CrossSection/single-input-equation/getCrossSection.cpp` lines 95-126. -/
def singleArgs (range : String → Option (ℝ × ℝ)) (int : String → Option ℤ) (argv : List String) : Args :=
  if argv.length < 3 then .usage
  else readArgs range int argv (if argv.length > 3 then some 3 else none) (if argv.length > 4 then some 4 else none)

/-- `main`, `examples/CrossSection/all/getCrossSection.cpp` lines 89-112. -/
def allArgs (range : String → Option (ℝ × ℝ)) (int : String → Option ℤ) (argv : List String) : Args :=
  readArgs range int argv (if argv.length > 1 then some 3 else none) (if argv.length > 2 then some 4 else none)

/-! ### Species of the products -/

/-- The query of `findAllLHSRelatedInteractionCtx` without extra condition, `/repo/src/chimp/RuntimeDB.cpp` lines
124-127. -/
def lhsNodes (doc : Doc) (A B : ℕ) (nA nB : String) : List ℕ :=
  (List.range doc.nodes.length).filter fun k =>
    match doc.nodes[k]? with
    | none => false
    | some x => x.hasCS && eqioMatches (reactantSpec A B nA nB) x.ins

/-- `findAllLHSRelatedInteractionCtx()`, `/repo/src/chimp/RuntimeDB.cpp` lines 97-133: the map, as a list. -/
def lhsContexts (doc : Doc) (f : Filter) (db : Registry ℝ) : List ((ℕ × ℕ) × List ℕ) :=
  (indexPairs db.length).filterMap fun p =>
    match db[p.1]?, db[p.2]? with
    | some a, some b => some (p, f.apply doc (lhsNodes doc p.1 p.2 a.name b.name))
    | _, _ => none

/-- A `std::set` of strings with these elements. -/
def nameSet (l : List String) : List String := l.dedup.insertionSort (· ≤ ·)

/-- `findAllRHSParticles`, `/repo/src/chimp/RuntimeDB.cpp` lines 491-518: the texts of `Eq/Out/T/P`. -/
def findAllRHSParticles (doc : Doc) (m : List ((ℕ × ℕ) × List ℕ)) : List String :=
  nameSet (m.flatMap fun e => e.2.flatMap fun k =>
    match doc.nodes[k]? with
    | none => []
    | some x => x.outs.map TNode.P)

/-! ### The programs -/

/-- The database of `examples/CrossSection/single-input-equation/getCrossSection.cpp` lines 136-151. -/
noncomputable def singleSession (T : Tools W) (D : SDoc) (A B : String) : Except SErr (Session W) :=
  match callsUncaught T false [.filter (.eqio false (eqTermSetOf ⟨A, -1⟩ ⟨B, -1⟩ ⟨"", 0⟩)), .addNames [A], .addNames [B]]
      (Session.new D) with
  | .error e => .error e
  | .ok s =>
    let names := ((findAllRHSParticles s.doc.doc (lhsContexts s.doc.doc s.filter s.props)).erase A).erase B
    callsUncaught T false [.addNames names, .init] s

/-- `data.dat` after `examples/CrossSection/single-input-equation/getCrossSection.cpp` lines 131-173: an exception is
reported on the standard output, and the file is empty then. -/
def SingleWrites (T : Tools W) (D : SDoc) (A B : String) (v0 v1 : ℝ) (N : ℤ) (out : List Block) : Prop :=
  match singleSession T D A B with
  | .error _ => out = []
  | .ok s =>
    match lookupPair s.props s.table A B with
    | .error _ => out = []
    | .ok none => False
    | .ok (some set) => List.Forall₂ (WritesEq s.props v0 v1 N) set.rhs out

/-- The database of `examples/CrossSection/all/getCrossSection.cpp` lines 123-130; `getAllParticlesCtx`
(`/repo/src/chimp/RuntimeDB.cpp` lines 521-523) gives every `Particle`. -/
noncomputable def allSession (T : Tools W) (D : SDoc) : Except SErr (Session W) :=
  callsUncaught T false (.filter .null :: (D.particles.map .add ++ [.init])) (Session.new D)

/-- `data.dat` after `examples/CrossSection/all/getCrossSection.cpp` lines 117-148.  Every cell of the triangular table
is visited once; the order is that of the container, which is not modelled. -/
def AllWrites (T : Tools W) (D : SDoc) (v0 v1 : ℝ) (N : ℤ) (out : List Block) : Prop :=
  match allSession T D with
  | .error _ => out = []
  | .ok s => ∃ order : List (ℕ × ℕ), order.Perm (indexPairs s.props.length) ∧
      List.Forall₂ (WritesEq s.props v0 v1 N) (order.flatMap fun p => s.eqs p.1 p.2) out

/-- `//Interaction[cross_section/@model='m']` -/
def modelNodes (doc : Doc) (m : String) : List ℕ :=
  (List.range doc.nodes.length).filter fun k =>
    match doc.nodes[k]? with
    | none => false
    | some x => x.hasCS && x.csModel == m

/-- One of the two files of `examples/CrossSection/xpath-access/testCrossSection.cpp` lines 78-121, for the model `m`:
the species are all `Particle`s in document order, `initBinaryInteractions` is not called, and an `Interaction` whose
loading throws is passed over (here also one whose loading is undefined). -/
def DirectWrites (T : Tools W) (D : SDoc) (m : String) (out : List Block) : Prop :=
  List.Forall₂ (WritesEq (addParticleTypes [] D.particles) 100 10000000 100)
    ((modelNodes D.doc m).filterMap fun k => (loadNode T D (addParticleTypes [] D.particles) k).toOption) out

end Chimp
