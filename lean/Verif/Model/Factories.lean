import Mathlib.Algebra.Field.Basic
import Mathlib.Order.Defs.LinearOrder
import Mathlib.Algebra.Order.Group.Defs
import Mathlib.Algebra.Order.Group.Unbundled.Abs

/-!
# Choice of source particles for the products of an inelastic interaction

Models `detail::setParticleFactories`.  The code works with floating point infinities on purpose
(the centre of charge of neutral reactants is placed at infinity), so scores and positions are
elements of `XF K`: a finite value, an infinity, or not-a-number, with the IEEE rules for the
operations used here.  Finite values are an exact ordered field.

Simplifications: the number of candidates, a power computed in `double` and converted to `int`,
is an unbounded natural number.  A failed `assert` is the outcome `assertion`.
-/

namespace Chimp

/-- A `double` with infinities and not-a-number made explicit. -/
inductive XF (K : Type) where
  | fin (x : K)
  | pinf
  | ninf
  | nan
deriving DecidableEq

namespace XF
variable {K : Type}

/-- IEEE addition. -/
def add [Add K] : XF K → XF K → XF K
  | fin a, fin b => fin (a + b)
  | nan, _ => nan
  | _, nan => nan
  | pinf, ninf => nan
  | ninf, pinf => nan
  | pinf, _ => pinf
  | _, pinf => pinf
  | ninf, _ => ninf
  | _, ninf => ninf

/-- IEEE product of a finite number and any number. -/
def smul [Field K] [LinearOrder K] (m : K) : XF K → XF K
  | fin a => fin (m * a)
  | nan => nan
  | pinf => if m = 0 then nan else if 0 < m then pinf else ninf
  | ninf => if m = 0 then nan else if 0 < m then ninf else pinf

/-- IEEE quotient by a finite non-zero number. -/
def divFin [Field K] [LinearOrder K] (x : XF K) (t : K) : XF K :=
  match x with
  | fin a => fin (a / t)
  | nan => nan
  | pinf => if 0 < t then pinf else ninf
  | ninf => if 0 < t then ninf else pinf

/-- IEEE negation. -/
def neg [Neg K] : XF K → XF K
  | fin a => fin (-a)
  | nan => nan
  | pinf => ninf
  | ninf => pinf

/-- `std::abs`. -/
def abs [Field K] [LinearOrder K] : XF K → XF K
  | fin a => fin |a|
  | nan => nan
  | pinf => pinf
  | ninf => pinf

/-- IEEE `<`; false when either side is not a number. -/
def lt [LinearOrder K] : XF K → XF K → Bool
  | fin a, fin b => decide (a < b)
  | ninf, fin _ => true
  | ninf, pinf => true
  | fin _, pinf => true
  | _, _ => false

end XF

/-- `ParticleFactory::Op`, `/repo/src/chimp/interaction/model/detail/inelastic_helpers.h` lines 90-94. -/
inductive FOp where
  | noop
  | cm
  | cq
deriving DecidableEq

/-- Data members of `ParticleFactory`, same file lines 131-133. -/
structure PFactory where
  srcIdx : ℕ
  species : ℤ
  op : FOp
deriving DecidableEq

/-- `MassChargeTuple`, same file lines 167-178. -/
structure MC (K : Type) where
  mass : K
  charge : K
  species : ℤ
  src : ℤ := -1

/-- Outcomes of `setParticleFactories` other than a result: the four exceptions, a failed
`assert(src_indx < r.size())`, and a read past the end of `massChargeIn`. -/
inductive FactErr where
  | massVanished
  | massCreated
  | chargeVanished
  | chargeCreated
  | assertion
  | ub
deriving DecidableEq

variable {K : Type} [Field K] [LinearOrder K]

/-- The pseudo position of reactant `i`, `/repo/src/chimp/interaction/model/detail/inelastic_helpers.cpp`
lines 82-85: `ri` starts at `1 - size` and grows by 2. -/
def rPos (n i : ℕ) : K := ((1 - (n : ℤ) + 2 * (i : ℤ) : ℤ) : K)

/-- `∑ ri * w`, lines 82-92. -/
def momentSum (w : MC K → K) (ins : List (MC K)) : K :=
  ins.zipIdx.foldl (fun s x => s + rPos ins.length x.2 * w x.1) 0

/-- `∑ w`, lines 82-92 for the reactants and 121-122 for the products. -/
def totalOf (w : MC K → K) (l : List (MC K)) : K := l.foldl (fun s x => s + w x) 0

/-- `CM` (`w = mass`) and `CQ` (`w = charge`): infinite when the total vanishes, lines 94-102. -/
def centreOf (w : MC K → K) (ins : List (MC K)) : XF K :=
  if totalOf w ins = 0 then .pinf else .fin (momentSum w ins / totalOf w ins)

/-- The vector `r`: reactant positions, centre of mass, centre of charge, lines 74-105. -/
def posList (ins : List (MC K)) : List (XF K) :=
  (List.range ins.length).map (fun i => .fin (rPos ins.length i)) ++
    [centreOf MC.mass ins, centreOf MC.charge ins]

/-- The reactant to copy from when a centre is used, lines 144-165: the last reactant of the same
species, else the last one matching in mass and charge, else the last one matching in mass, else 0.
The charge compared in line 155 is that of *reactant* number `i`, where `i` is the index of the
product; it is only read when some reactant has the mass of the product. -/
def similar (ins : List (MC K)) (i : ℕ) (o : MC K) : Except FactErr ℕ :=
  let s1 := ins.zipIdx.foldl (fun s x => if o.mass = x.1.mass then x.2 else s) 0
  let third := fun s2 => ins.zipIdx.foldl (fun s x => if o.species = x.1.species then x.2 else s) s2
  match ins[i]? with
  | some y =>
    .ok (third (ins.zipIdx.foldl
      (fun s x => if o.mass = x.1.mass ∧ y.charge = x.1.charge then x.2 else s) s1))
  | none => if ins.any (fun x => decide (o.mass = x.mass)) then .error .ub else .ok (third s1)

/-- A candidate: the factories and the accumulated centre sums (`candidates[j]`, `cm_cq[j]`). -/
structure Cand (K : Type) where
  facs : List PFactory
  cm : XF K
  cq : XF K

/-- `src_indx`, lines 131-133; `m` is the number of products. -/
def srcIndex (N m i : ℕ) (o : MC K) (j : ℕ) : ℕ :=
  if 0 ≤ o.src then o.src.toNat else j / N ^ (m - i - 1) % N

/-- Body of the inner loop for product `i` and candidate `j`, lines 128-176. -/
def stepProduct (ins : List (MC K)) (m i : ℕ) (o : MC K) (j : ℕ) (c : Cand K) :
    Except FactErr (Cand K) :=
  let r := posList ins
  let s := srcIndex r.length m i o j
  match r[s]? with
  | none => .error .assertion
  | some x =>
    if ins.length ≤ s then
      match similar ins i o with
      | .error e => .error e
      | .ok k => .ok ⟨c.facs ++ [⟨k, o.species, if s = ins.length then .cm else .cq⟩],
          c.cm.add (.smul o.mass x), c.cq.add (.smul o.charge x)⟩
    else .ok ⟨c.facs ++ [⟨s, o.species, .noop⟩],
      c.cm.add (.smul o.mass x), c.cq.add (.smul o.charge x)⟩

/-- The inner loop over the candidates from number `j` on. -/
def stepAll (ins : List (MC K)) (m i : ℕ) (o : MC K) : ℕ → List (Cand K) → Except FactErr (List (Cand K))
  | _, [] => .ok []
  | j, c :: cs =>
    match stepProduct ins m i o j c with
    | .error e => .error e
    | .ok c' =>
      match stepAll ins m i o (j + 1) cs with
      | .error e => .error e
      | .ok cs' => .ok (c' :: cs')

/-- The outer loop over the products from number `i` on, lines 120-178. -/
def addProducts (ins : List (MC K)) (m : ℕ) :
    ℕ → List (MC K) → List (Cand K) → Except FactErr (List (Cand K))
  | _, [], cs => .ok cs
  | i, o :: os, cs =>
    match stepAll ins m i o 0 cs with
    | .error e => .error e
    | .ok cs' => addProducts ins m (i + 1) os cs'

/-- The score of one candidate, lines 187-219. -/
def scoreOf (ins outs : List (MC K)) (c : Cand K) : Except FactErr (XF K) :=
  let CM := centreOf MC.mass ins
  let CQ := centreOf MC.charge ins
  let mt := totalOf MC.mass outs
  let qt := totalOf MC.charge outs
  let massPart : Except FactErr (XF K) :=
    if mt = 0 then (if CM ≠ .pinf then .error .massVanished else .ok (.fin 0))
    else if CM = .pinf then .error .massCreated
    else .ok ((XF.fin 0).add ((c.cm.divFin mt).add CM.neg).abs)
  match massPart with
  | .error e => .error e
  | .ok s1 =>
    if qt = 0 then (if CQ ≠ .pinf then .error .chargeVanished else .ok s1)
    else if CQ = .pinf then .error .chargeCreated
    else .ok (s1.add ((c.cq.divFin qt).add CQ.neg).abs)

/-- The loop inserting into the score map followed by `scores.begin()`, lines 184-234.  `insert` does
nothing when the key is present, so of equal scores the first stays; the map begins with the least
key.  With a key that is not a number the outcome is that of the usual red-black tree: such a
key is not inserted unless the map is empty, and then it stays the only one. -/
def bestOf (ins outs : List (MC K)) :
    List (Cand K) → XF K × List PFactory → Except FactErr (XF K × List PFactory)
  | [], b => .ok b
  | c :: cs, b =>
    match scoreOf ins outs c with
    | .error e => .error e
    | .ok s => bestOf ins outs cs (if s.lt b.1 then (s, c.facs) else b)

/-- `setParticleFactories`, `/repo/src/chimp/interaction/model/detail/inelastic_helpers.cpp`
lines 60-235: the score returned and the factories.  The list of candidates is never empty, so the
last branch is not reached. -/
def setParticleFactories (ins outs : List (MC K)) : Except FactErr (XF K × List PFactory) :=
  let n := (2 + ins.length) ^ outs.length
  match addProducts ins outs.length 0 outs (List.replicate n ⟨[], .fin 0, .fin 0⟩) with
  | .error e => .error e
  | .ok [] => .error .ub
  | .ok (c :: cs) =>
    match scoreOf ins outs c with
    | .error e => .error e
    | .ok s => bestOf ins outs cs (s, c.facs)

end Chimp
