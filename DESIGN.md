# Design of the formal model of chimp

The code under study is `/repo/src/chimp` (a C++ template library for direct-simulation
Monte Carlo collisions) and the example in `/repo/examples/simtest`.  The model is in
Lean 4 under `lean/Verif`, in three layers per area:

* `Verif/Model/*.lean`  definitions that follow the C++ function by function; every definition
  cites the file and lines it models and says what was simplified;
* `Verif/Lemmas/*.lean` helper lemmas about the model;
* `Verif/Props/*.lean`  small independent specifications, the property theorems (named
  `Cxx_...`), and beside the theorems `example`s that meet their hypotheses.

Wrong programs tried against the theorems are logged in `seeded/LOG.jsonl` (there "failed" means
that the proof of the theorem no longer goes through, which can be because a lemma it uses
fails).  The status of every property is in `MANIFEST.json`.

## Trusted base

### Lean

The Lean 4 kernel.  No axioms are added; there is no `sorry`, `native_decide` or `bv_decide`.
`decide +kernel` is used in examples and witnesses; it uses kernel reduction only.  Axioms of
the property theorems, as printed by `#print axioms`:

<!-- axioms begin -->
* `propext` (7 theorems): `C06_at_most_one_pair`, `C06_symmetric`, `C117_translation`, `C83_grouping`, `C83_order`, `C89_defaults`, `C89_last`.
* `Quot.sound`, `propext` (16 theorems): `C06_repeated_species_never_found`, `C103_policy_as_database`, `C104_steps`, `C15_number_of_products`, `C19_exact_side`, `C32_reject_iff`, `C38_result_unique`, `C67_species_order`, `C75_null_collision_rule`, `C83_print`, `C90_added_for_all`, `C90_fresh`, `C90_not_own`, `C90_own`, `C90_second_database`, `C90_throws`.
* `Classical.choice`, `Quot.sound`, `propext` (480 theorems): all other `Cxx_` theorems.
<!-- axioms end -->

### Idealisations

* The reading of the C++ that the model encodes (line references are in each definition).
* Floating point numbers are exact numbers: real numbers for kinematics and cross sections, an
  arbitrary linearly ordered field where only order and field operations matter.  Exceptions are
  C95 and C96, where every operation of the driver is rounded to the nearest number with `p`
  digits (`Rounding` in `Model/Float.lean`), and C97 to C101 and C105, where every operation of
  collisions and of the cross sections is.  Overflow, underflow and signed zeros are not
  modelled.  Where a division by zero gives infinity or NaN
  and the code goes on with it, the model says so explicitly: `XF` in `Model/Factories.lean`
  has infinity and NaN; `nonfinite` is an error of cross sections; `none` of interactions.
* `int`, `unsigned` and `size_t` are unbounded integers; overflow is out of scope.
* Random numbers are an arbitrary state machine with values in `[0,1]` (`rand`) or `[0,1)`
  (`randExc`); theorems quantify over all of them.  Where a property is about probabilities it
  is stated as the Lebesgue measure of the set of random numbers leading to the outcome (C31,
  C36, C37), or for a generator whose state is random and whose numbers are independent and
  uniform (`RNG.IID` in `Lemmas/Random.lean`; `streamRNG_iid` shows that an independent uniform
  sequence is one).
* Loops that need not end in the C++ (`selectRandomPair`, the test loop) take a fuel argument;
  theorems hold for every fuel, and C38 says that the result does not depend on it.

### Libraries outside the repository, by contract

* `xylose::upper_triangle` with `SymmetryFix`: a map from unordered index pairs to cells; a
  resize keeps the cells that exist.
* `xylose::data_set`: a map ordered by key.  `std::map`, `std::set`, `std::sort`,
  `std::set_union` and so on: by contract, or as explicit list algorithms where the property
  depends on them.  Keys that are NaN follow what libstdc++'s red-black tree does (C50, massless
  products).
* libxml2/XPath: in most models the document is an abstract list of interaction nodes, and each XPath
  expression the code builds is given its XPath 1.0 meaning on such nodes by hand.  C114 proves that
  this is the meaning of the expressions on the tree, for interactions with one equation, and that
  the sections and texts of the list are those of the tree.  Trusted: the rules of XPath in
  `Model/XPath`, that libxml2 follows them and reads the text of an expression as the expression, and
  that node sets are in document order and compare by identity.
* The `physical` unit parser and calculator: values arrive converted to SI numbers (in C110: as a number with a dimension).  By C90 that
  is so for a program with one database; with several, the symbols can be those of another.
* The expression calculator (`ops=`): an arbitrary external function in the theorems about
  products, which say which expressions they allow.  In C91 expressions are trees, the functions
  the library adds are modelled, and the rest of the calculator (arithmetic, parsing, printing)
  is arbitrary.
* `xylose::fast_pow`: an arbitrary function in VSS, the exact real power in VHS, a function within `κ` of it in C100.
* `xylose::distribution::Inverter`: a number in the interval it was given (`Draws.InRange`).
  `xylose::nsort::NSort`: any function that sorts by a key below the number of species
  (`NSorts`).
* The root finder of the Lotz model: an arbitrary function, idealised as exact in C64, C71
  and C92.

### Code that is modelled

| Lean module | C++ |
|---|---|
| `Model/Registry` | `RuntimeDB.h/.cpp` (species), `property/Comparator.h` |
| `Model/Equation` | `interaction/Term.h`, `detail/sort_terms.h`, `Equation.h/.cpp`, `Input.h` (load), `ReducedMass.h` |
| `Model/Table` | `RuntimeDB.cpp`: `getXpathQuery`, `findAllLHSRelatedInteractionCtx`, `initBinaryInteractions`, lookup by species pair |
| `Model/Filter` | `interaction/filter/*` with the XML loaders, `detail/EqPair.h`, the text of an equation used as key |
| `Model/CreateMissing` | `RuntimeDB.cpp`: `createMissingElasticCrossSections` |
| `Model/OutPath` | `interaction/Set.h`: `calculateOutPath`, `findMaxSigmaVProduct` |
| `Model/Driver` | `interaction/Driver.h`, `selectRandomPair.h`, `detail/DriverRetval.h`, `Set::interact` |
| `Model/Monitor` | `interaction/Driver.h` once more with the template parameters `Monitor` and `MaxSigmaVProduct` |
| `Model/Simulation` | a user's program around `interaction/Driver.h`: cells, time steps, grouping as in `examples/simtest/sortSpecies.h`, erasing and inserting as `interaction/detail/DriverRetval.h` asks |
| `Model/Float` | the code of `Model/OutPath` and `Model/Driver` once more, every operation on `double` rounded |
| `Model/FloatKin` | the code of `Model/Kinematics`, thresholds, `constant` cross sections and tables once more, every operation rounded; cosine and sine arbitrary functions |
| `Model/FloatCross` | the constructors of `Model/CrossSection` for constant, inverse, VHS, tables, `AvgEasy` and `AveragedDiameters` once more, every operation rounded |
| `Model/FloatLotz` | `interaction/cross_section/Log.h`, `Lotz.h`, `detail/LotzDetails.h`, `LotzDetails.cpp` once more with every operation rounded |
| `Model/Factories` | `model/detail/inelastic_helpers.h/.cpp`: `setParticleFactories` and `ParticleFactory` |
| `Model/Kinematics` | `model/Elastic.h`, `VSSElastic.h`, `InElastic.h`, `InElastic_2X2.h`, `InElastic_2X3.h`, `detail/inelastic_helpers.*`, `detail/vss_helpers.*` |
| `Model/Ops` | `detail/inelastic_helpers.h`: `InElasticExpressions`, `Process`, `hasToken` |
| `Model/Calculator` | `physical_calc.cpp`, its use in `RuntimeDB.cpp`, `addInteractionHelpers` and the compilation of expressions in `setFactories` |
| `Model/CrossSection` | `cross_section/*` with `detail/*` |
| `Model/SimTest` | `examples/simtest/Cell.h`, `cellMeasurements.h` |
| `Model/Example` | `examples/simtest/main.cpp`, `Particle.h`, `sortSpecies.h` |
| `Model/Thermal` | `interaction/v_rel_fnc.h`, and its use in `examples/RuntimeDB/testRuntimeDB.cpp` lines 113-118 |
| `Model/VHSInfo` | `interaction/cross_section/detail/VHSInfo.cpp`, `VHSInfo.h`: the stored parameters from the three values of the document; `tgamma` is the exact gamma function |
| `Model/Writer` | the Python module `python/chimp/interaction` (equations, `data` and `vhs` cross sections, references; the Lotz writer is in `Model/Reading`), reading of the written elements, and printing of loaded equations (`interaction/Term.h`, `Input.h`, `Equation.cpp` lines 39-46) |
| `Model/Listing` | the three programs in `examples/CrossSection` (what they write to files; not the standard output), `findAllRHSParticles`, `getAllParticlesCtx` |
| `Model/Whole` | the rest of `Equation::load`, and the parts above joined |
| `Model/Session` | `RuntimeDB` as a whole: every public call that changes it, with what exceptions leave behind and with the averaged cross sections of created equations |
| `Model/Write` | writing through the references and iterators of `operator[]`, `operator()` and `findParticle` |
| `Model/Models` | the two registries of a `RuntimeDB` and databases with models of the user's own (`Equation.cpp`: `load`; `cross_section/Base.h`, `model/Base.h`: `new_load`, `getLabel`) |
| `Model/Radius` | `effectiveRadius` in `cross_section/Base.h` and `Equation.cpp` |
| `Model/Reading` | `cross_section/Constant.cpp`, `DATA.cpp`, `detail/generic.cpp`, `detail/VHSInfo.cpp`, `InverseInfo.cpp`, `LogInfo.cpp`, `LotzDetails.cpp`, `model/detail/vss_helpers.cpp` and `loadKineticEnergyChange` on XML trees with units; the Lotz writer of the Python module |
| `Model/LoadXml` | `Equation::load` (`interaction/Equation.cpp` lines 63-165) on XML trees: terms, cross section and model read from one element |
| `Model/XPath` | the queries of `filter/EqIO.h`, `Elastic.h`, `Label.h`, `Section.h`, `Base.h` and `RuntimeDB.cpp` lines 107-157 as XPath expressions on XML trees |
| `Model/TreeDB` | `RuntimeDB.cpp` lines 107-186 and 231-269 and `property/*.h` on XML trees; quantities are evaluated by a `Reader` |
| `Model/TreeModel` | `RuntimeDB.cpp` lines 271-285 and the loaders in `filter/*.h` on XML trees |
| `Model/PyProperty` | `python/chimp/property/__init__.py`; `eval` of a text is any partial function |
| `Model/Options` | `make_options.h` and the use of the options in `RuntimeDB.cpp`, `cross_section/DATA.h`, `Driver.h` |
| `Model/Property` | `property/aggregate.h`, `detail/list.h`, `define.h`, `detail/check.h`, `DefaultSet.h` and the properties in it |

### Code that is not modelled

Logging and printing of diagnostics; memory management (`shared_ptr`, deleted objects);
`InElastic_nXn.h` (pseudo code, never built); monitors that write to the particles they are shown; models of the user's own that change the database
while they are loaded; references of a `RuntimeDB` that are kept while its vectors are reallocated; examples other
than simtest and CrossSection, but for the lines named above.

## Conventions

* Undefined behaviour of the C++ (out-of-range access, dereferencing an empty range) is a
  distinct outcome of the model, never a default value.
* C++ exceptions are `Except.error` / `none` outcomes.
* If the code violates the natural form of a property, the violation is proved with a concrete
  witness, the part that does hold is proved under an explicit precondition, and the finding is
  listed at the end of this file.

## Properties: what is modelled and how it is proved

| id | modelled | proof |
|----|----------|-------|
| C01 | `addParticleType` as a fold over the species list | induction over the history of additions |
| C02 | `findParticle`, `findParticleIndx`, `operator[]`, `operator()` | list search characterised by membership; uses C01 uniqueness |
| C03 | `std::sort` by the comparator (insertion sort, and by contract: any sorted permutation) | sortedness, permutation, uniqueness of sorted permutations of a strict total order |
| C04 | the comparator | case analysis on linear orders |
| C05 | the concatenated string and `contains(...)`, on character lists | combinatorics of delimiters; counterexamples by evaluation |
| C06 | meaning of the XPath built by `getXpathQuery` on an abstract interaction node | unfolding and counting |
| C07, C08, C09 | `findAllLHSRelatedInteractionCtx`, `initBinaryInteractions` and the symmetric table | refinement: table entry = filter of the document; induction over documents |
| C10, C11 | `loadAndSortTerms` as ordered-map insertion | invariant over the insertion loop; extensionality of strictly sorted maps |
| C12, C13 | `Equation::load` | case analysis on the sorted map with total two; witness for multiplicity zero |
| C14 | `Equation::isElastic` with `std::set<Term>` modelled as insert-if-not-equivalent | on loaded equations terms have distinct species so nothing collapses |
| C15 | `countComponents`, `getTermForProduct` | induction over the product list against the expanded list |
| C16 | `ReducedMass` | field algebra |
| C17, C18 | filter trees (inductive type) with `set_union`, `set_intersection`, `set_difference` as merge algorithms on ordered lists | induction over trees; merge algorithms refine set operations on strictly ordered lists |
| C19, C24 | `EqIO`, `EqTermSet` | refinement to a declarative matching predicate |
| C20, C21, C22 | `Section::filter` with the per-equation map | loop invariant of the map; witness for the empty name |
| C23 | loaders from an XML tree | structural induction: load after serialise is the identity; error characterisation |
| C25 | `formatUniqueEqTerms/String` on character lists | left-inverse parser / unique decomposition |
| C26–C29 | `createMissingElasticCrossSections` double loop over a symmetric table | loop invariant; final table = pointwise specification |
| C30–C33 | `calculateOutPath` over an ordered field; measures over the reals | induction over prefix sums; Lebesgue measure of intervals |
| C34 | `findMaxSigmaVProduct` | sum of bounds |
| C35, C36 | `selectRandomPair` over a random stream | floor arithmetic, induction over the stream; interval measure |
| C37, C38 | promotion and the `while` loop | exact iteration count via `Nat.ceil`; per pair by induction over the tests; monotonicity in the fuel |
| C39–C44 | the whole `Driver::operator()` over a particle array with ranges | invariants by induction over steps, species pairs and the whole run |
| C45–C48 | collision models over real 3-vectors | algebra of joining and splitting bodies |
| C49, C69 | `ParticleFactory::create` and the result list | induction over factories; refinement to the written products |
| C50–C53 | `setParticleFactories` with an explicit out-of-range outcome | argmin over the enumeration, induction on mixed-radix digits |
| C54–C56, C61, C62 | cross section models over the reals | real analysis (monotonicity, derivative sign) |
| C57–C60, C63 | tabulated data on sorted lists | induction over the table and over the sampling loop |
| C64, C71 | Lotz sums | `HasDerivAt`; sign of the derivative on both sides of the root |
| C65 | composition of C30, C54 and the inelastic kinematics | an inductive class of all cross sections the library can build |
| C66 | the driver over the joined model | balance of an additive quantity by induction over the run, then C45–C48 for each interaction |
| C67 | `Set::interact` | case analysis with the species order |
| C68 | `maxRelativeVelocity`, `doCellMeasurements` | per-component bounds and Cauchy–Schwarz; witness |
| C70 | `InElastic::new_load` | product by product over the loaded equation |
| C72 | the driver over the joined model | every event of a run comes from a `Set::interact` call; C30 and C65 |
| C73 | all cross sections, as documents | case analysis over the kinds with C54–C59 and C71 |
| C74 | completion of an equation from its document | inversion of the loader, then C45, C46, C49, C54, C57 |
| C75 | the driver, with the bound computed before the first test | induction over the tests of the run; C34 |
| C76 | the driver out of place, with a generator whose state is random | a run is a composition of random programs whose final generator state has the initial distribution, independently of the outcome; expectations are additive along the composition; the C++ loops are simulated with enough fuel |
| C77 | `isoVec` and all models that use it, with a generator whose state is random | spherical coordinates on R³ turn the two uniform numbers into the surface measure; volume is invariant under linear isometries, hence so is the law of `isoVec`; the outgoing velocities are fixed multiples of one or two independent such vectors |
| C78 | `vssPost`, the same generator | the outgoing relative velocity is written in an orthogonal frame attached to the incoming one; the azimuth is invariant under turns and reflections of the frame; for parameter 1 one particular turn carries the elastic law to the VSS law; Fubini gives the mean |
| C79 | `Session`: the public calls of `RuntimeDB` on complete equations | invariant by induction over the history of calls, through loops that exceptions may end anywhere |
| C80 | the same | refinement: forgetting cross sections maps the loops of `Session` to those of `CreateMissing` (C26–C29); C61–C63 for the values |
| C81 | the same, with the driver | the invariant of C79 gives the hypotheses of C66 and C72 |
| C82 | the calls of `Session` one by one | induction over the names read; the filter loaded is the one its description denotes (C23); C79 for the default filter |
| C83 | classes of properties as trees, `Concat`, `Aggregate`, `load`, `print`, `make_properties`, `set_properties`; acceptance by the compiler as a count of base class subobjects | induction over chains of properties and over the arguments |
| C84 | `load` of the default set on an element given by its XPath queries | C83 for the set, cases for each property |
| C85 | `main` of the simtest example: the calls that set up the database, the particles drawn, the sort, the driver run | induction over the particles drawn and the names; a sorted list is cut by counting; then C38, C42, C44, C66, C68, C76 and C81 |
| C86 | the functions of `v_rel_fnc.h`; a thermal pair is specified by six independent Gaussian components | the density of the product in spherical coordinates; Gamma integrals for the mean; bounds of the tail by two antiderivatives |
| C87 | the Python writer as a function from two dictionaries to an XML tree; the reader as queries on the tree; printing as insertion into the ordered set | the sorted items are the only list ordered by mass and name; reading inverts writing term by term; text injectivity from C25; printing a loaded side is induction over its ordered map |
| C88 | the loop of `print` as a relation between the cross section and the rows (no rows are related if it does not end); each program as the calls it makes on a session, then a block per equation found | the loop by induction over the rounds; the sessions by the theorems on tables, filters and calls (C05–C07, C78–C82); the blocks by C87 |
| C89 | options as a record, the metafunctions as functions that pass all options on by position; the environment variable as an optional string | induction over the chain; commuting settings; the effects by C59, C79, C80 and C42 |
| C90 | the process: the symbol table of the calculator, the static flag of each database type, the databases that exist; calls as steps; commands, values and compilation as arbitrary functions of the table | induction over the calls with invariants on the table (own symbols, helpers there, helpers gone) |
| C91 | expressions as trees, the static object explicit, evaluation on the vector of products; meaning as a relation to a value and an update of the product, which knows neither | evaluation computes the meaning, by mutual induction over expressions; frames and dependence on the centres by induction; the interaction by comparing the model object with one whose expressions do nothing |
| C92 | published formula as a sum over the open subshells, in terms of the electron energy | terms rewritten by energy; sign of the derivative for one shell is a factor 1/ln u - 1/2 + b c u/(e^(c(u-1)) - b), shown to fall by its derivative and a perfect square; estimates of logarithms and exponentials for the two findings |
| C93 | the formula; hard spheres specified by the set of displacements at which they touch | the set is a disc, its volume from Mathlib; created equations by C80 |
| C94 | registries as maps from names to prototypes or null pointers, prototypes as arbitrary functions, objects of an arbitrary type; calls as in C79 and six uses of the registries | induction over histories with invariants on the table; a simulation for unused names; a refinement onto the model of C79 for the library's own prototypes |
| C95 | the functions of C36–C38 with each operation rounded to a nearest number with `p` digits, ties in any direction; random numbers have `p` digits too | rounding is monotone and fixes numbers with `p` digits, so the bounds of a range survive; relative error of each sum by induction over the list; frequency by counting the numbers between rounded bounds |
| C96 | the driver of C41–C48 with each operation rounded; with the identity as rounding it is that driver (`driverR_id`) | the runs satisfy the step relation of C41–C48, so its invariants carry over; the count by following `rd(nt - 1)`, exact up to `2^p` and the identity above `2^(p+1)` |
| C97 | elastic and inelastic velocities, thresholds and table lookup with each operation rounded; NaN is the outcome `none` of the root of a negative number | defined exactly if `q + dV2 ≥ 0` for the rounded square `q`; relative errors of `q` and of the threshold composed (`Rel`); tables by the spacing of the numbers around the first speed; findings by witnesses whose roundings are computed |
| C98 | the velocities of `Model/FloatKin`; a library is two functions bounded by one and within `κ` of cosine and sine (`Arith.Lib`); energy is `½ m v²`, errors are powers of `1 + 2^-p` | each component of a velocity is the exact combination of the rounded relative velocity up to `(growth − 1)` times the combination of absolute values (`Err`), summed against the masses; the length of the relative velocity by `Rel`; directions by Lipschitz bounds of root, cosine and sine; the axis case by computing the roundings |
| C99 | the driver of `Model/FloatDriver`; the amount of `φ` in the cell and among the products (`allOf`); the number of reported tests with a channel (`interactionCount`); one interaction obeys the law up to a relative error (`NearlyBalances`, `NearlyKeeps`) | every test of a run is a `GStep` (`driverR_tests`); one in-place test replaces the amounts of the pair by those of the outcome, and the pair holds no more than the cell (`gstep_total`, `pair_le`); induction over the steps with `(1 + ε)ⁿ` as the bound on the total; only open channels occur (`C96_open_channels`); elastic gases by `C98_elastic_double` |
| C100 | `Model/FloatCross`: constructors of cross sections with rounded operations, the power function of the library given by its error (`PowLib`); a bound up to a factor (`SigmaVBoundUpTo`) | the lever rule and the formulas are sums and products of nonnegative numbers, so each is within a power of `1 + 2^-p` of the exact one (`Rel`); `viscTLaw - 1/2` is exact; bounds from those of C55, C58 and C62; with exact operations the constructors are those of C54 to C62; violations in `double` with numbers evaluated by `Rounding.rd_eq`, for every rule for ties |
| C101 | `sampleLoopR`, `mkAveragedR`; the speeds `v ↦ rd (v - dv)` (`sampleSpeed`) | a step moves down by at least `dv/2` while `2u v ≤ dv`, which bounds the rounds; induction over the rounds gives the table, its order and its neighbours; positive samples lie below the start, so each step adds an error of at most `u` times the start; stuck loops by `Rounding.rd_eq` on the normal form of the start |
| C102 | `Model/Write`: a step of a program is a call of `Model/Session` or a write through a reference; a write is any function of the value (`Use`, `runUses`) | effect of a write from the definitions of vectors and of the symmetric table; the first position of a name (`FirstNamed`); every equation of a state came in at one step (reverse induction over the program), and a loop that adds equations gives them the reduced masses of the species list it runs on; momentum by other masses is `(n1 m2 - n2 m1)/(m1 + m2)` times the change of the relative velocity |
| C103 | `Model/Monitor`: the driver with a monitor (two functions that change a state of its own) and a class for the maximum (any function of interactions, particles and ranges); what is told is specified by `Told`, the database that announces other maxima by `SameButBound` | simulation of each loop of the driver by that of `Model/Driver` on such a database, with the list of reports as witness; then C37, C42 and C76 |
| C104 | `Model/Simulation`: a program that groups the particles of each cell by species, calls the driver if no species with interactions is missing, erases the queued positions, appends the results, and moves the particles. Motion (`Flies`) is any map on particles followed by any placement into cells; time step, volume and maximum speeds may depend on step, cell and particles. Not from the repository except for the grouping; it is what the driver's interface asks of its caller | C39, C43, C66 and C85 for one cell, with a lemma that the array without the queued positions is the union of the ranges; then induction over cells and steps; termination by C38 and monotonicity in the fuel; a witness out of place |
| C105 | `Model/FloatLotz`: `Log` and `Lotz` with each operation rounded; `log10`, `log` and `exp` of the library are functions within `j` factors `1 + 2^-p` of the exact ones, the search any function that ends in an interval of relative width τ with a change of sign of the function given | the relative error of `v2Beta` (`Rel`) turned into an absolute one of its logarithm, `exp` a contraction below zero, then `Err` through each operation and induction over the shells; the maximum from the exact sign of the rounded derivative and `L exp(-L/2)`; a witness for the sign at the threshold whose roundings are computed |
| C106 | `thermal` is the product of three normal distributions of variance `kT/m`; the state of a run is the velocities of all particles together with the generator, distributed as a product measure (`equilibrium`).  `maxRelativeVelocity` is a constant of the run; the database is any `WholeDB` with elastic equations only | for a pair: densities in centre-of-mass and relative coordinates, polar coordinates, and the isotropy of C77 (`elastic_preserving`); for a pair inside a cell, marginal integrals (`collideAt_preserving`); a test is a choice between preserving maps by a condition on the relative speed, which a collision keeps (`preserving_ite`, `preserving_draw`); the run is a random program of `Lemmas/Random` on velocities and generator, followed by the driver by induction (`driver_simV`).  For VSS the energy loss of C46 is integrated over a set of positive measure |
| C107 | `meanRate` is the mean of `σ(v)·v` over a `ThermalPair` (C86), for the cross section that `CSDoc.load` makes; VHS parameters come from `vhsInfo` | moments of the distribution of relative speeds by the gamma integral; tails by the fundamental theorem of calculus; the guard by Bernoulli's inequality |
| C108 | `cosBetween` of the relative velocities before and after `WEq.act`; `viscosity` is the first Chapman–Enskog approximation for a given viscosity cross section (specification), `viscosityCross` the one that a loaded equation produces | the law of the projection of an isotropic vector by a reflection to the x axis; `vssPost_spec`; moments with the gamma function as in C107 |
| C109 | `pairRate` (σ(v)·v of a pair), kinetic energies before and after `WEq.act` on thermal velocities of two temperatures | mean of the isotropic direction is zero; the Gaussian pair is invariant under a reflection (`mirror`) of the relative velocity that keeps a suitable combination of the two velocities, which removes the odd part; moments of the normal distribution |
| C110 | `Model/Reading`: the loaders on a tree of elements and text, quantities as a coefficient and a dimension | the `Describes` relation lists what has to be written for each model; reading is shown equivalent to it by cases; conversion of speeds by algebra |
| C111 | the driver of C76 and `wholeEnv`; velocities and announced speeds are random variables of their own (`movingAt`, `FairStep`) | the reports of a run are counted by pair (a countable sum of the outcomes of the random program, zero outside of the ranges), C76 for each pair, then the integral over the velocities; C107 for a thermal gas.  Examples: inverse cross section for two species and for one, constant cross section with a threshold |
| C112 | `Model/LoadXml`: the element is read by `Model/Writer` and `Model/Reading` and completed by `Model/Whole` | loading is taken apart into its steps; C87 gives the terms, C110 the values, C54 the cross section; elements that agree under the names that are queried give the same results of all queries |
| C113 | `pushed` (momentum gained along a direction) of `WEq.act`, weighted with `pairRate`, for any distribution of pairs of velocities | mean of the isotropic direction is zero, Fubini; VSS from `C78_mean`; for thermal velocities the pair has, relative to two gases with a common drift, a density that depends on the relative velocity only (`pair_tilt`), and turning all velocities round in that frame makes the mean an integral of something that is never negative (`drift_sign`) |
| C114 | the part of XPath 1.0 the library uses: syntax, text and evaluation on a tree (`Model/XPath`), the queries as such expressions, and the document of `Model/Filter` read from a tree (`docOf`) | membership in a node set, step by step; induction over the terms for the repeated `T[..]/..`; nodes of the tree and of the list of interactions correspond one to one |
| C115 | `RuntimeDB` on the tree of the document: `addParticleType` by name, `Properties::load`, the filters and `initBinaryInteractions` with every query evaluated on the tree (`Model/TreeDB`) | induction over names, filters and pairs of species; each query by C114; the table is that of `Session.init`, and C79 applies |
| C116 | the loaders of the filters and `addModel` on the tree of the document (`Model/TreeModel`) | induction on the size of an element; C115 for the species and the table |
| C117 | the functions of `python/chimp/property` on the tree of the document (`Model/PyProperty`) | the element is unique by C115; with equal masses C112 applies |
| C118 | `addModel`, `initBinaryInteractions` and the driver on the tree of the document (`Model/TreeModel`, `Model/TreeDB`, `Model/Whole`) | the database is reached by a history of calls (C115), so C79 and C81 apply; its equations come from the elements by C116 |
| C119 | as C118, and `Model/Simulation` | C38 for the end of the run, C73 for the values of cross sections, C72 and C81 on the database of C118; C104 for steps and cells; C57 for tables |

Provisos that a reader of the short titles should know:

* C59: the last but one table value is positive, speeds are nonnegative.
* C64, C71, C92: the root search is exact.
* C65, C72: nonnegative cross section values; with products at the centre of charge the
  reactants have nonzero total charge (otherwise the position is NaN).  C72 claims the
  threshold energy for loaded equations only (for averaged ones see C61).
* C79–C81: no species is added after the first initialisation.
* C66 (concrete form): every cross section consulted has a value; no VSS equations for energy
  (see the findings on VSS); expressions leave velocities alone; inelastic equations conserve
  mass (charge).
* C75: in place, interactions change speeds, so "no pair is faster than announced" is a
  hypothesis about each tested pair.

## Findings

Behaviour of the code that a user may not expect.  Each has a theorem with a witness, or follows
from the theorem named.

Loading and looking up

* An equation whose reactants are written as two `T` elements of the same species is never found
  by the query (`C06_repeated_species_never_found`).
* `0 A + 2 B` loads as A + A, and `A + 0 B + C` as A + B: a multiplicity of zero counts as a
  term (`C12_zero_multiplicity`).
* The `:name:` text filter is too lax for names containing colons or for the empty name
  (`C05_provisos_needed`).
* A second `initBinaryInteractions` appends every equation again
  (`C08_second_init_duplicates`).
* If a species is added after an initialisation and the database is initialised again, entries
  keep equations of species that stood at these indices before
  (`C79_species_after_init_fails`).
* A `Particle` without a mass is loaded with mass zero (`C84_missing_mass`).
* The calculator is one for the whole program, and constructing a database clears it.  After a
  second database is constructed, the first reads its values with the symbols of the second
  (`C90_not_own`), and what is added to one is added for all (`C90_added_for_all`).  The helpers
  for `ops` expressions are added only once per type of database: after a second database is
  constructed they are gone for good (`C90_second_database`).  A command that throws leaves the
  calculator changed (`C90_throws`).  `execCalcCommands` with an empty section name reads before
  the string (`C90_section`).
* `make_properties` with a set of properties before the last argument does not compile, although
  `Aggregate` takes sets anywhere (`C83_list_argument`).

Filters

* A `Section` filter with an empty section name skips its sub-filter (`C22_empty_name`,
  `C22_subfilter_skipped`).
* `EqIO` with an empty specification keeps nothing (`C19_empty_keeps_nothing`).
* In `EqTermSet` the first entry for a name wins, although the documentation says that later
  ones override (`C24_first_entry_wins`, `C24_later_ignored`).
* The text of an equation used as a key is ambiguous for names like `A[0]`, blanks, empty names
  and multiplicity zero (`C25_provisos_needed`).

Creating missing equations

* `createMissingElasticCrossSections` with a name that is not a species is silently unrestricted
  (`C29_unknown_name`).
* The reactants of a created equation are ordered by mass only, so for species of equal mass they
  can be in reversed index order (hence the proviso of `C28_new_equation`).

Driver

* An empty range of a species with equations is dereferenced: undefined behaviour
  (`C44_empty_species_ub_iff`).
* If the estimate is an integer N, N − 1 tests are made
  (`C37_integer_estimate_loses_one`).
* A pair of one species with n particles interacts n/(n−1) times as often as w σ v dt/V, because
  the estimate counts n²/2 pairs and the selection has n(n−1)/2 (`C76_one_species`).  With an
  integer estimate k the rate is (k−1)/k of the nominal one (`C76_integer_estimate`).
* `selectRandomPair` never ends for a single particle of one species
  (`C35_single_particle_never_returns`).
* The simtest cell's `maxRelativeVelocity` is not an upper bound between different species; the
  factor √2 is reached (`C68_not_a_bound`, `C68_factor`).
* The example program has undefined behaviour if the random numbers give no particle to a species
  with an equation (`C85_outcomes`; `MainExample.undefined`).  Its `createRandomParticles` reads
  outside a vector if the database has no species (`C85_no_species`).
* `avg_v_rel` returns the mean relative speed of a thermal gas divided by √2 (`C86_average`,
  `C86_average_low`).  `calcStdVFromT` is no standard deviation of the relative velocity, of its
  components or of the relative speed (`C86_not_a_deviation`); it is the root mean square divided
  by √2.  The FIXME beside `MAX_SPEED_FACTOR` asks for the fraction of slower particles: for pairs
  it is between 99.63% and 99.66% (`C86_fraction`).
* The Python module writes numbers of particles below one as one (`C87_counts_below_one`).  An
  equation with a product of number zero loads, but printing it fails an assertion
  (`C87_print_zero`).
* The programs that list cross sections do not end for an empty range such as `100:100`, or for a
  negative number of points (`C88_rows_forever`).  The one for all interactions announces its range
  and number of points as the first and second argument but reads the third and fourth: with one
  or two arguments, and with three of which the third is a range, it reads outside `argv`
  (`C88_all_arguments`).  The one for two species says that it disregards the number of
  the reactants, but does not (`C88_multiplicity`), and reports success with an empty file if the
  database cannot be made (`C88_single_empty`).

Interaction models

* VSS loses energy when the relative velocity is within 10⁻⁶ (absolute) of the x axis
  (`C46_energy_lost`, formula in `C46_vss`).
* Inelastic equations whose products do not have the mass of the reactants do not conserve
  momentum; `C47_two_products` and `C48_three_products` give what is conserved.
* With a product at the centre of charge and reactants of zero total charge the position is NaN
  (`C47_defined_iff`, `C48_defined_iff`).
* Whether `CM` and `CQ` may be called in expressions is found by looking for the texts `CM()` and
  `CQ()` in what the calculator prints.  If it prints calls with their arguments, as in `CM(0)`,
  nothing is found and the centre is the origin (`C91_centre_unseen`).  How it prints is not part of
  this repository.  The comment in `data/standard/interactions.xml` that explains expressions uses
  `P(0,CHARGE)`, which is not defined (the name is `SPECIES_CHARGE`), and swaps the descriptions of
  `CM` and `CQ`.
* `setParticleFactories` (`inelastic_helpers.cpp` line 155) reads past the end of the reactants
  for a third product that has the mass of a reactant (`C53_reads_past`); the same line compares
  the charge of reactant i, not that of the product.
* A massless product with an explicit centre-of-charge source on neutral reactants makes the
  score NaN, and the choice of factories then depends on the order of a map with NaN keys
  (`C50_massless_products`).

Cross sections

* `findMaxSigmaV` is not a bound for the logarithmic model beyond its turning point and for VHS
  with a viscosity exponent above one (`C56_log`, `C56_vhs`), and for tables with falling segments
  (`C58_exceeded`).
* A table of zeros only makes `DATA::checkThreshold` increment past the end (`C60_zeros`).
* Beyond the end of a table the extrapolation is in general not continuous with the last entry;
  its slope is matched for one exponent although the exponent is changed afterwards
  (`C59_best_fit`).
* The inverse and logarithmic models without threshold are not finite at v = 0
  (`C54_inverse`, `C54_log`).
* `AveragedDiameters` samples at vmax + dv/2, where a component may throw (`C63_failure`), and
  does not end for dv ≤ 0 (`C63_needs_positive_step`).
* A created average of two easy cross sections can be positive below the threshold energy it
  reports, because the thresholds of its components are for other reduced masses
  (`C61_threshold_fails`).
* The threshold energy of a single Lotz shell is the ionisation energy times reduced mass over
  electron mass (`C71_single`).
* With several subshells the Lotz sum counts closed subshells with a negative sign
  (`C92_between`), and the threshold found lies strictly above the ionisation potential, where the
  published formula is already positive (`C92_threshold`).  The class comment of `P` calls the
  first binding energy the ionisation potential.
* The search for the maximum of sigma v in the Lotz model can stop at a local maximum
  (`C92_understated`, `b = 0.99`, `c = 1/20000`); it cannot for one subshell with `c ≥ 1/50`
  (`C92_one_shell`).  With `b = 1` the interval searched is a single point
  (`C92_full_correction`).
* Replacing the model registered as `elastic` changes the equations loaded later but not those
  created, which always get the library's class (`C94_replacing_elastic`).
* `createMissingElasticCrossSections` trusts the label of a cross section: a user's class that
  returns `vhs` although `σ(v) v` can fall gets an average whose bound is too small
  (`C94_label_misleads`).
* `operator[]` on a registry inserts a null pointer when the name is missing, and `Equation::load`
  calls through it (`C94_reading_an_entry`).
* If the estimated number of tests is above `2^54` (twice the largest exactly counted number of a
  `double`), `number_of_tests -= 1` changes nothing: out of place the run never ends
  (`C96_endless`), in place it ends only when a species runs out (`C96_stuck`).
* A pair test added by a random number can be lost when `n + 1` is rounded, with a
  random number within `2^-53 (Nr + 1)` of zero (`C96_number_of_tests`).
* The threshold test compares rounded roots, the interaction subtracts the squares: at a relative
  speed equal to the threshold speed the difference can be negative, and the velocities are NaN
  (`C97_constant_finding` in every precision; `C97_data_finding` for tables that begin with a
  nonzero value).  A table that begins with the value zero is safe (`C97_data_zero_start`).
* `1 - B*B` cancels near the axis, so directions have about half the digits of a `double` there
  (`C98_direction`, `C98_direction_half`).  Energy and momentum keep theirs.
* In `double` the maximum reported by an inverse cross section is exceeded by the rounded product
  (`C100_inverse_exceeds`, `7/25`), and so is that of a flat table (`C100_table_exceeds`).  The
  driver then sees a probability above one, by a few units in the last digit.
* The lever rule does not reproduce the ends of a segment: the table `(0, 0), (49, 1)` gives
  `1 - 2^-53` at 49 (`C100_table_point_off`), and the flat table `(0, 1), (91, 1)` gives more than
  one at 3 (`C100_table_overshoots`).
* With a step below `vmax/2^54` the constructor of `AveragedDiameters` never returns
  (`C101_endless`): `v -= dv` leaves `v` as it is.
* Reduced masses are computed when an equation is made.  After `db["x"].mass::value = m` old equations
  go on with the old masses, so collisions do not keep the momentum by the masses that the database
  reports (`C102_stale_masses`).  If the write breaks the order by mass then equations created
  afterwards have their reactants the other way round than the driver hands them over
  (`C102_reversed`).  `initBinaryInteractions` sorts again but does not remove the old equations.
* `monitor.pairtests` is told the number before the loop takes one off: one more than the tests
  performed for an integer estimate, and on average the estimate plus its fractional part
  (`C103_told`, `C103_mean_told`).
* Read, not proved: the driver never calls `MaxSigmaVProduct::update`, so a class that adapts its
  maximum learns nothing.  `DriverRetval<true>` uses the name `SpeciesRange`, which is not declared
  there (the template parameter is `Range`), so a driver with interactions in place seems not to
  compile as written.  The model takes `Range`.
* Out of place a program cannot just add the results to its particles: the driver queues nothing for
  erasure, does not say which particles reacted, and the same pair can react again and again, so
  that products carry more of a conserved quantity than the whole cell (`C104_out_of_place`).  In
  place the same program conserves (`C104_balance`).
* At its own threshold speed a Lotz cross section can be negative.  `v2Beta` at `1/sqrt(beta)` need not be
  one after rounding: for `beta = 2` in `double` it is one step below, its logarithm is negative, and
  so are the value and the maximum reported there (`C105_lotz_negative`).  From two roundings above that
  speed on no value is negative (`C105_lotz_threshold`).
* A gas with VSS scattering cools.  Pairs whose relative velocity is within 1e-6 of the x axis lose energy
  (C46); in equilibrium such pairs have positive probability, so the mean energy after a collision is
  strictly below `3 kT` (`C106_vss_cools`).  The loss is tiny, but equilibrium is not stationary as it is for
  the elastic model (`C106_stationary`).
* `visc_T_law` is not checked when a VHS cross section is loaded.  Between `5/2` and `7/2` the gamma function of
  `5/2 - visc_T_law` is negative; such a cross section with a positive `value` loads without error and is negative at
  every speed (`C107_vhs_negative`).
* A threshold written as a negative speed counts as the absolute value, a negative energy is refused
  (`C110_threshold_sign`).  Two `KineticEnergyChange` elements in one interaction are ignored with a
  log message (`C110_declared`).  The Python module writes Lotz shells as `LotzParameter`, the data
  file has `LotzParameters` (`C110_python_lotz`); the scales of the Python class are never written.
- **Python interactions take no energy.**  The Python classes write neither a threshold for VHS cross sections nor a
  `KineticEnergyChange`.  An inelastic interaction written with a VHS cross section therefore
  loads with no change of kinetic energy (`C112_python_no_energy`).
- **Two equations in one interaction.**  The query for two species asks for the reactants and for the products in separate
  steps.  An `Interaction` with two `Eq` elements is selected if one has the reactants and the other known
  products (`C114_two_equations`).
- **Python and the library read species differently.**  Of several `Particle` elements of one name Python takes the first, the
  library throws; of a mass that is not plain text Python takes the first piece (`C117_twice`, `C117_differs`); for
  a species without a mass Python throws, the library has zero (`C117_agrees`).
