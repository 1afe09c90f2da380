{"id": "C01", "title": "Species registry holds each name once, first definition wins", "statement": "After any sequence of addParticleType calls on a RuntimeDB, getProps() contains exactly the names that were added, each exactly once, and the properties kept for a name are those of its first addition; later additions of the same name change nothing.", "quantifier": "every finite sequence of additions, any length, any repetition, any names and property values", "why_tests_cant": "A test adds a handful of species; the claim is about every history of additions.", "anchors": ["src/chimp/RuntimeDB.cpp: RuntimeDB::addParticleType, findParticle"]}
{"id": "C02", "title": "Name and index lookups agree", "statement": "findParticleIndx(n) is a valid index i of getProps() with getProps()[i] named n exactly when n was added, and -1 otherwise; operator[](n) returns that same entry when n was added and throws otherwise; operator()(n,m) throws exactly when one of the two names was not added and otherwise returns the same table cell as operator()(i,j) on the two indices.", "quantifier": "every registry reachable by additions and every pair of names", "why_tests_cant": "Needs every registry and every queried name, including absent ones.", "anchors": ["src/chimp/RuntimeDB.cpp: findParticle, findParticleIndx, operator[], operator()"]}
{"id": "C03", "title": "Species indices are sorted by mass then name and do not depend on the order of addition", "statement": "After initBinaryInteractions the species list is a rearrangement of what was added, strictly increasing in (mass, name); hence i<j implies mass(i)<=mass(j), and any two histories that register the same set of species assign every species the same index.", "quantifier": "every set of species with distinct names, every order of addition", "why_tests_cant": "The number of orders is factorial in the number of species; ties in mass must be resolved for all of them.", "anchors": ["src/chimp/property/Comparator.h: Comparator::operator()", "src/chimp/RuntimeDB.cpp: initBinaryInteractions (std::sort)"]}
{"id": "C04", "title": "The species comparator is a strict total order on distinct names", "statement": "The comparator used for sorting species, for sorting equation terms and for printing is irreflexive, transitive and, for two species with different names, holds in exactly one direction; so std::sort and std::map are used within their contract.", "quantifier": "all pairs and triples of species with any real masses and any names", "why_tests_cant": "std::sort has undefined behaviour if the order is not strict weak; only a proof over all triples excludes it.", "anchors": ["src/chimp/property/Comparator.h", "src/chimp/interaction/detail/sort_terms.h: PropertyPtrComparator", "src/chimp/interaction/Term.h: Term::printset::name_mass"]}
{"id": "C05", "title": "Products must all be loaded species", "statement": "The product filter applied by initBinaryInteractions keeps an interaction exactly when it has at least one product term and every product name is the name of a loaded species, provided no name contains ':' and no product name is empty. Without that proviso the filter is wrong: a product with a composite name such as 'A::B' or an empty name is accepted although it is not loaded.", "quantifier": "every list of loaded names and every list of product names", "why_tests_cant": "The filter is a substring search in a concatenated string; that it has no false positives is a statement about all strings.", "anchors": ["src/chimp/RuntimeDB.cpp: initBinaryInteractions (particles_output_filter)"]}
{"id": "C06", "title": "Reactant query finds exactly the interactions of a species pair", "statement": "For species A and B the reactant search selects an interaction exactly when its reactant side is written as '2 A' (A=B) or as one A term and one B term of multiplicity one or unspecified (A!=B); consequently every interaction is found for at most one unordered pair, and a reactant side written 'A + A' in two terms is found for no pair.", "quantifier": "every interaction document and every pair of species names", "why_tests_cant": "Must hold for every document and pair; tests only use the shipped database.", "anchors": ["src/chimp/RuntimeDB.cpp: findAllLHSRelatedInteractionCtx", "src/chimp/interaction/filter/EqIO.h: getXpathQuery"]}
{"id": "C07", "title": "Interaction table is complete and symmetric", "statement": "After initBinaryInteractions every unordered pair of species has exactly one entry; db(i,j) and db(j,i) are the same entry, its stored inputs are the two species in index order, and every equation in it has exactly those two reactants, in index order.", "quantifier": "every document, filter and set of loaded species for which initialization returns, every pair of indices", "why_tests_cant": "Quantifies over all databases and all pairs.", "anchors": ["src/chimp/RuntimeDB.cpp: initBinaryInteractions, operator()(int,int)", "src/chimp/RuntimeDB.h: InteractionTable"]}
{"id": "C08", "title": "Interaction table is sound and complete with respect to the document and filter", "statement": "After initBinaryInteractions the equations in entry (i,j) correspond one-to-one, in document order, to the interactions of the document that carry cross section data, have the reactants i and j in the written form of C06, only loaded products, and pass the user's filter; names contain no colon.", "quantifier": "every document, filter tree and set of loaded species", "why_tests_cant": "Lost or duplicated interactions for some document cannot be excluded by examples.", "anchors": ["src/chimp/RuntimeDB.cpp: findAllLHSRelatedInteractionCtx, initBinaryInteractions"]}
{"id": "C09", "title": "Default filter admits only elastic interactions", "statement": "If the user does not set a filter, every equation in the table comes from an interaction whose reactant text equals its product text, and every such interaction between loaded species is in the table.", "quantifier": "every document and set of loaded species", "why_tests_cant": "Over all documents.", "anchors": ["src/chimp/RuntimeDB.cpp: RuntimeDB::RuntimeDB", "src/chimp/interaction/filter/Elastic.h"]}
{"id": "C10", "title": "Loaded equation terms are merged and sorted without losing particles", "statement": "Loading one side of an equation yields terms with pairwise different species, strictly increasing in (mass, name); the multiplicity of each species is the sum of its multiplicities in the document, the reported number of particles is the total, and the per-particle source and operation entries of each term have exactly the term's multiplicity and keep document order.", "quantifier": "every list of document terms with nonnegative multiplicities over loaded species", "why_tests_cant": "Any number of terms, repetition pattern and order.", "anchors": ["src/chimp/interaction/detail/sort_terms.h: loadAndSortTerms", "src/chimp/interaction/Equation.cpp: Equation::load"]}
{"id": "C11", "title": "Equation loading does not depend on the order in which different species are written", "statement": "Two documents whose term lists differ only by rearrangement that keeps the relative order of terms of the same species load to the same equation sides.", "quantifier": "every pair of such term lists", "why_tests_cant": "All rearrangements of all lists.", "anchors": ["src/chimp/interaction/detail/sort_terms.h: loadAndSortTerms"]}
{"id": "C12", "title": "Only binary reactions load, and the two reactants are the documented ones in mass order", "statement": "With positive multiplicities, loading succeeds on the reactant side exactly when the total multiplicity is two, and then A and B are exactly the two documented reactants with A not after B in the species order; any other total is an error. A reactant term of multiplicity zero breaks this: '0 A + 2 B' with A first in mass order loads as A + A.", "quantifier": "every reactant term list over loaded species", "why_tests_cant": "All lists; the zero-multiplicity corner is not covered by any test.", "anchors": ["src/chimp/interaction/Equation.cpp: Equation::load lines 80-92"]}
{"id": "C13", "title": "Interaction model selection", "statement": "The model of a loaded equation is the one named by the interaction's model attribute if present; otherwise 'elastic' exactly when reactants and products agree as multisets of species including per-particle source and operation annotations, and 'inelastic' otherwise; a name that is not registered is an error, as is an unregistered cross section model.", "quantifier": "every interaction document and registry", "why_tests_cant": "Decision over all documents and registries.", "anchors": ["src/chimp/interaction/Equation.cpp: Equation::load lines 112-162"]}
{"id": "C14", "title": "isElastic on a loaded equation means reactants equal products", "statement": "For an equation loaded from a document whose multiplicities are positive, isElastic() holds exactly when the products are the same multiset of species as the reactants and no product carries an explicit source index.", "quantifier": "every successfully loaded equation", "why_tests_cant": "Set comparison with a partial order on terms could confuse different product lists for some inputs.", "anchors": ["src/chimp/interaction/Equation.cpp: Equation::isElastic"]}
{"id": "C15", "title": "Product indexing enumerates products exactly once", "statement": "getTermForProduct(i) returns the term of the i-th product when the products are written out with multiplicity, for every i below numberProducts(), and throws for every other i; numberProducts() is the length of that expansion.", "quantifier": "every list of product terms with nonnegative multiplicities and every index", "why_tests_cant": "All lists and indices.", "anchors": ["src/chimp/interaction/Equation.cpp: getTermForProduct", "src/chimp/interaction/Term.h: countComponents"]}
{"id": "C16", "title": "Reduced mass identities", "statement": "For positive masses m1, m2 the reduced mass satisfies value = m1*m2/(m1+m2), over_m1 = value/m1, over_m2 = value/m2, over_m1 + over_m2 = 1, m1*over_m1 = m2*over_m2, value <= min(m1,m2), and swapping the masses swaps the two ratios.", "quantifier": "all positive real masses", "why_tests_cant": "Identity over the reals.", "anchors": ["src/chimp/interaction/ReducedMass.h"]}
{"id": "C17", "title": "Filters only remove interactions", "statement": "Whatever filter tree is used, its result is a subset of the interactions it is given, still without repetition and in document order.", "quantifier": "every filter tree of any depth and every set of interactions", "why_tests_cant": "Trees are unbounded.", "anchors": ["src/chimp/interaction/filter/*.h: filter()"]}
{"id": "C18", "title": "And, Or, Not and Null are set intersection, union, difference and identity", "statement": "An interaction is in the result of And exactly when both operands keep it, of Or when at least one does, of Not when the first keeps it and the second does not, and Null keeps everything; this composes for arbitrary trees.", "quantifier": "every filter tree and set of interactions", "why_tests_cant": "Unbounded trees; the implementation uses ordered-range algorithms whose correctness depends on the operands staying ordered.", "anchors": ["src/chimp/interaction/filter/And.h", "src/chimp/interaction/filter/Or.h", "src/chimp/interaction/filter/Not.h", "src/chimp/interaction/filter/Null.h"]}
{"id": "C19", "title": "EqIO keeps exactly the interactions with the specified side", "statement": "With a non-empty set of terms of nonzero multiplicity, EqIO keeps an interaction exactly when the chosen side has as many terms as the specification and every specified species occurs in it with the specified multiplicity (one also matches an omitted multiplicity, negative matches any); for a side without repeated species this means the side is exactly the specification.", "quantifier": "every term specification and every interaction", "why_tests_cant": "All specifications and documents.", "anchors": ["src/chimp/interaction/filter/EqIO.h: getXpathQuery, EqIO"]}
{"id": "C20", "title": "Section REQUIRED keeps exactly the interactions of the section that pass the sub-filter", "statement": "With a non-empty section name and requirement REQUIRED, the result is exactly the set of interactions kept by the sub-filter that lie in the section.", "quantifier": "every document, section, sub-filter and input set", "why_tests_cant": "All documents and sub-filters.", "anchors": ["src/chimp/interaction/filter/Section.h: Section::filter"]}
{"id": "C21", "title": "Section PREFERRED keeps exactly one interaction per equation, of the best available class", "statement": "With PREFERRED the result contains exactly one interaction for each equation text occurring in the sub-filter's result and none else; it is from the preferred section if that section has one, else from the standard section if that has one, else from elsewhere; within the chosen class it is the last in document order.", "quantifier": "every document, section, sub-filter and input set", "why_tests_cant": "Grouping over arbitrary many duplicates.", "anchors": ["src/chimp/interaction/filter/Section.h: Section::filter", "src/chimp/interaction/filter/detail/EqPair.h"]}
{"id": "C22", "title": "Empty section name disables the sub-filter", "statement": "A Section filter with an empty name returns its input unchanged even when its sub-filter would reject everything; so 'Section restricts its sub-filter' holds only for non-empty names.", "quantifier": "every sub-filter and input set", "why_tests_cant": "A negative statement about an unbounded family; shows the exact condition under which the positive claim holds.", "anchors": ["src/chimp/interaction/filter/Section.h lines 94-98"]}
{"id": "C23", "title": "Filter trees load from XML faithfully", "statement": "Loading the XML form of any filter tree yields that tree; And, Or and Not nodes without exactly two children, Section or equation-filter nodes with more than one, EqIO without children or with an unknown direction, and unknown node names are errors, at any depth.", "quantifier": "every XML filter description of any depth", "why_tests_cant": "Unbounded trees.", "anchors": ["src/chimp/interaction/filter/Base.cpp: parse_item", "src/chimp/interaction/filter/Base.h: loader::lookup", "src/chimp/interaction/filter/{And,Or,Not,EqIO,Section,Label,Null,Elastic}.h: loader"]}
{"id": "C24", "title": "Repeated species in an EqIO specification: the first entry wins", "statement": "When a term specification names a species several times, the first entry is the one in force and the later ones have no effect on filtering (the documentation comment says a later entry overrides).", "quantifier": "every sequence of term insertions", "why_tests_cant": "All sequences.", "anchors": ["src/chimp/interaction/filter/EqIO.h: operator<, EqTermSet"]}
{"id": "C25", "title": "Equation text identifies the equation", "statement": "Two interactions get the same equation text exactly when their reactant and product term lists agree entry by entry in species, multiplicity (omitted meaning one) and source index, provided multiplicities are at least one and species names are non-empty, contain no blank and do not end in ']'. Without any one of these provisos two different equations can get the same text.", "quantifier": "all pairs of interactions", "why_tests_cant": "Injectivity of a string encoding over all inputs.", "anchors": ["src/chimp/interaction/Equation.h: formatUniqueEqTerms, formatUniqueEqString"]}
{"id": "C26", "title": "createMissingElasticCrossSections adds exactly the missing elastic pairs and reports how many", "statement": "The call adds one elastic equation to entry (i,j) exactly when that entry has no elastic equation, both single-species entries do, and the averaging is possible; it appends it, leaves all existing equations and all other entries unchanged, and returns the number added.", "quantifier": "every table over any number of species, any parameters", "why_tests_cant": "The double loop visits each unordered pair twice through a symmetric table; that each is filled once is a loop-invariant statement over all tables.", "anchors": ["src/chimp/RuntimeDB.cpp: createMissingElasticCrossSections"]}
{"id": "C27", "title": "createMissingElasticCrossSections is idempotent", "statement": "A second call with the same parameters adds nothing and returns 0.", "quantifier": "every table and parameters", "why_tests_cant": "All tables.", "anchors": ["src/chimp/RuntimeDB.cpp: createMissingElasticCrossSections"]}
{"id": "C28", "title": "After createMissingElasticCrossSections no completable pair is left without an elastic equation", "statement": "With a positive velocity range (or when all single-species elastic cross sections are of the easily averaged kinds), after the unrestricted call every pair whose two species have single-species elastic equations has an elastic equation; the added equation has the two species as reactants and products, in mass order when their masses differ.", "quantifier": "every table", "why_tests_cant": "All tables.", "anchors": ["src/chimp/RuntimeDB.cpp: createMissingElasticCrossSections"]}
{"id": "C29", "title": "Restricting createMissingElasticCrossSections to named species", "statement": "With both indices given only that entry can change. With species names that are loaded the same holds; with an unknown name the call silently behaves as if no restriction was given for that argument.", "quantifier": "every table, every pair of indices or names", "why_tests_cant": "All tables and names.", "anchors": ["src/chimp/RuntimeDB.cpp: createMissingElasticCrossSections(string,...)"]}
{"id": "C30", "title": "calculateOutPath returns a valid open channel or none", "statement": "For nonnegative cross sections the returned index is -1 with value 0, or a valid equation index j with value equal to that equation's cross section at the given speed, and that value is strictly positive: a closed channel is never selected.", "quantifier": "every list of equations, every speed, every bound and every pair of random numbers", "why_tests_cant": "All random streams and cross section lists, including zeros at either end.", "anchors": ["src/chimp/interaction/Set.h: calculateOutPath"]}
{"id": "C31", "title": "Channel selection is exactly proportional to the cross sections", "statement": "Given that a collision is accepted, channel j is selected exactly when the second random number times the total lies in a half-open interval of length sigma_j; the measure of the random numbers selecting j is sigma_j / sigma_total.", "quantifier": "every list of nonnegative cross sections with positive total", "why_tests_cant": "A statistical test can only estimate frequencies; the claim is an exact measure.", "anchors": ["src/chimp/interaction/Set.h: calculateOutPath"]}
{"id": "C32", "title": "Acceptance is exactly the null-collision rule", "statement": "A pair test is rejected exactly when rand*max > sigma_total*v; if max is positive and bounds sigma_total*v, the measure of accepting random numbers is sigma_total*v/max and the joint measure of accepting and selecting channel j is sigma_j*v/max.", "quantifier": "every list of cross sections, speed and bound", "why_tests_cant": "Exact measure statement.", "anchors": ["src/chimp/interaction/Set.h: calculateOutPath"]}
{"id": "C33", "title": "The severe-error exit of channel selection is unreachable", "statement": "If cross sections are nonnegative with positive total and the second random number is below one, channel selection always returns a channel; the exit logged as severe is reached exactly when the total is zero at acceptance (possible only if rand*max is not positive).", "quantifier": "all cross section lists and random numbers", "why_tests_cant": "Reachability over all inputs.", "anchors": ["src/chimp/interaction/Set.h: calculateOutPath lines 151-165"]}
{"id": "C34", "title": "A set's findMaxSigmaVProduct bounds the total rate", "statement": "If every equation's findMaxSigmaV bounds sigma(v)*v on [0,vmax], then the set's value bounds sigma_total(v)*v on [0,vmax], so the acceptance probability never exceeds one for pairs slower than vmax.", "quantifier": "every set and every speed in range", "why_tests_cant": "All speeds in a continuum.", "anchors": ["src/chimp/interaction/Set.h: findMaxSigmaVProduct", "src/chimp/interaction/Driver.h: DefaultMaxSigmaVProduct"]}
{"id": "C35", "title": "selectRandomPair picks valid, distinct partners", "statement": "Whenever selectRandomPair returns, the first position is inside the first range, the second inside the second, and the two are different positions; with self selection allowed only the distinctness is dropped. For any ranges that are not the same single element, some random draw makes it return, and when both ranges are the same single element no draw does.", "quantifier": "all ranges and all random streams with values in [0,1)", "why_tests_cant": "All streams and sizes; termination depends on the stream.", "anchors": ["src/chimp/interaction/selectRandomPair.h"]}
{"id": "C36", "title": "Every position can be selected, with equal measure", "statement": "For ranges of n elements, position k of the first range is chosen exactly when the first draw lies in [k/n,(k+1)/n); so each is chosen with measure 1/n.", "quantifier": "all sizes and positions", "why_tests_cant": "Exact measure for all sizes.", "anchors": ["src/chimp/interaction/selectRandomPair.h"]}
{"id": "C37", "title": "Number of pair tests per species pair", "statement": "The driver performs floor(N) + [u < frac(N)] pair tests for a species pair with expected number N when N is not an integer (so N on average over u), unless particles run out; when N is a positive integer it performs N-1 tests, one fewer than the estimate.", "quantifier": "all real estimates N and random numbers u", "why_tests_cant": "Boundary of a real-valued loop; tests use one N.", "anchors": ["src/chimp/interaction/Driver.h lines 212-218, 242-274"]}
{"id": "C38", "title": "The driver terminates", "statement": "For every cell, database and random stream in which each pair selection returns, the driver loop ends: for every species pair the number of tests performed is at most the ceiling of the promoted estimate.", "quantifier": "all cells, databases and streams", "why_tests_cant": "Termination over all executions.", "anchors": ["src/chimp/interaction/Driver.h: operator()"]}
{"id": "C39", "title": "In-place driver bookkeeping: survivors plus consumed are exactly the originals", "statement": "After any driver run in in-place mode, the particles inside the species ranges together with the particles consumed by product-creating interactions are, as a multiset of identities, exactly the particles initially in the ranges; every position queued for erasure is distinct, lies in an original range and outside the final ranges, and there are exactly two per consuming interaction.", "quantifier": "every cell, any number of species and steps, every outcome sequence", "why_tests_cant": "Swap-with-last removal with two removals from possibly the same range has several aliasing cases; all schedules must be covered.", "anchors": ["src/chimp/interaction/detail/DriverRetval.h", "src/chimp/interaction/Driver.h"]}
{"id": "C40", "title": "No particle interacts after being consumed", "statement": "In in-place mode a particle consumed by an interaction is never selected again in the same run, and both members of a selected pair are always live particles of the two species being tested.", "quantifier": "every run", "why_tests_cant": "All schedules.", "anchors": ["src/chimp/interaction/detail/DriverRetval.h", "src/chimp/interaction/Driver.h"]}
{"id": "C41", "title": "Species ranges stay homogeneous", "statement": "If at the start each species range holds only particles of that species and interactions that operate in place keep species, this remains so at every step of the driver.", "quantifier": "every run", "why_tests_cant": "Invariant over all executions.", "anchors": ["src/chimp/interaction/Driver.h", "src/chimp/interaction/detail/DriverRetval.h"]}
{"id": "C42", "title": "Out-of-place driver leaves the cell untouched", "statement": "With in-place interactions disabled, a driver run changes neither the particles of the cell nor its ranges; its only effect is to append to the result list. Every test is of two different particles of the cell as it was given, one from the range of each of the two species.", "quantifier": "every run", "why_tests_cant": "All executions.", "anchors": ["src/chimp/interaction/detail/DriverRetval.h: DriverRetval<false>", "src/chimp/interaction/model/Base.h"]}
{"id": "C43", "title": "Result list only grows", "statement": "During a driver run particles are only appended to the result list; whatever was in it before stays as a prefix.", "quantifier": "every run", "why_tests_cant": "All executions.", "anchors": ["src/chimp/interaction/Driver.h", "src/chimp/interaction/model/*.h"]}
{"id": "C44", "title": "Empty species must not meet a non-empty interaction set", "statement": "The driver reads the weight of the first particle of both species for every pair with interactions; this is defined exactly when both species ranges are non-empty. With an empty species (an ordinary situation) and interactions present the driver reads past the range.", "quantifier": "every cell and database", "why_tests_cant": "Undefined behaviour may go unnoticed in tests.", "anchors": ["src/chimp/interaction/Driver.h lines 193-202"]}
{"id": "C45", "title": "Elastic collision conserves momentum, kinetic energy and relative speed", "statement": "For positive masses and any random numbers in [0,1], the elastic model leaves total momentum, total kinetic energy, centre-of-mass velocity and relative speed unchanged.", "quantifier": "all velocities, positive masses and random numbers", "why_tests_cant": "Continuum of inputs.", "anchors": ["src/chimp/interaction/model/Elastic.h: interact"]}
{"id": "C46", "title": "VSS elastic collision conserves momentum always and energy away from the degenerate branch", "statement": "The VSS elastic model conserves momentum for all inputs; it conserves kinetic energy and relative speed whenever the transverse relative speed exceeds 1e-6 or is exactly zero; for transverse speeds in (0,1e-6] it loses energy, by at most the transverse part.", "quantifier": "all velocities, masses, random numbers and scattering parameters", "why_tests_cant": "The failing region is a tiny tube that random tests do not hit.", "anchors": ["src/chimp/interaction/model/VSSElastic.h: interact"]}
{"id": "C47", "title": "Two-product inelastic collision conserves momentum and changes kinetic energy by exactly dE", "statement": "If product masses sum to reactant masses and the relative kinetic energy plus dE is nonnegative, the two-product model conserves momentum and the kinetic energy after equals that before plus dE.", "quantifier": "all velocities, positive masses, dE and random numbers", "why_tests_cant": "Continuum of inputs.", "anchors": ["src/chimp/interaction/model/InElastic_2X2.h", "src/chimp/interaction/model/detail/inelastic_helpers.h: CalculateVRelImpl"]}
{"id": "C48", "title": "Three-product inelastic collision conserves momentum and changes kinetic energy by exactly dE", "statement": "Same as for two products, for every energy split.", "quantifier": "all velocities, positive masses, dE and random numbers", "why_tests_cant": "Continuum of inputs with five random numbers.", "anchors": ["src/chimp/interaction/model/InElastic_2X3.h"]}
{"id": "C49", "title": "Products are appended with the declared species, in order", "statement": "An inelastic interaction appends exactly as many particles as the equation has products, the k-th having the species of the k-th product; earlier entries of the list are unchanged and all other attributes (weight, and position unless placed at a centre) are copied from one of the two reactants.", "quantifier": "every equation, particles and random numbers", "why_tests_cant": "All equations.", "anchors": ["src/chimp/interaction/model/InElastic_2X2.h", "src/chimp/interaction/model/InElastic_2X3.h", "src/chimp/interaction/model/detail/inelastic_helpers.h: ParticleFactory::create"]}
{"id": "C50", "title": "Product sources minimise the displacement of the centres of mass and charge", "statement": "The source assignment chosen for products has the least score among all assignments of reactant positions, centre of mass and centre of charge to the products that respect explicit source indices, and among those of least score it is the first in the enumeration order; the score returned is its score. This holds for reactants of nonzero total mass when the reactants' total charge is nonzero or all products have mass. Otherwise (products of mass zero, neutral reactants) some assignments have no score: if the first one in the enumeration order has none it is chosen, else the least score among those that have one is chosen.", "quantifier": "every list of reactants and products with masses and charges", "why_tests_cant": "Exponential search space; minimality is over all candidates.", "anchors": ["src/chimp/interaction/model/detail/inelastic_helpers.cpp: setParticleFactories"]}
{"id": "C51", "title": "Source assignment is complete and in range", "statement": "The assignment has one entry per product, in order, carrying the product's species; an explicit source index of a reactant is honoured; every entry's source index refers to an existing reactant.", "quantifier": "every list of reactants and products", "why_tests_cant": "All lists.", "anchors": ["src/chimp/interaction/model/detail/inelastic_helpers.cpp: setParticleFactories"]}
{"id": "C52", "title": "Vanishing or created mass and charge are rejected", "statement": "Source assignment fails exactly when the product total of mass (or charge) is zero while the reactant total is not, or the reverse; otherwise it returns an assignment.", "quantifier": "every list of reactants and products", "why_tests_cant": "All lists.", "anchors": ["src/chimp/interaction/model/detail/inelastic_helpers.cpp: setParticleFactories lines 186-218"]}
{"id": "C53", "title": "Charge comparison reads past the reactant list for a third product", "statement": "While searching for a reactant of the same kind, the product index is used to index the reactant list; for the third and later products this is out of range whenever a reactant has the same mass as that product and a centre position is considered. For at most two products the access is always in range.", "quantifier": "every list of products", "why_tests_cant": "Undefined behaviour, normally silent.", "anchors": ["src/chimp/interaction/model/detail/inelastic_helpers.cpp lines 153-157"]}
{"id": "C54", "title": "Cross sections vanish below threshold, and threshold energy and velocity agree", "statement": "For the constant, VHS, log and inverse models the cross section is zero for every speed below the threshold speed, the threshold energy is half the reduced mass times the squared threshold speed, and so any speed with nonzero cross section carries at least the threshold energy; a negative threshold is rejected.", "quantifier": "all parameters and speeds", "why_tests_cant": "Continuum of speeds.", "anchors": ["src/chimp/interaction/cross_section/Constant.h", "src/chimp/interaction/cross_section/VHS.h", "src/chimp/interaction/cross_section/Log.h", "src/chimp/interaction/cross_section/Inverse.h"]}
{"id": "C55", "title": "findMaxSigmaV bounds sigma*v for constant, inverse and VHS models", "statement": "For nonnegative constants, for positive speeds in the inverse model and for VHS with viscosity exponent at most one, findMaxSigmaV(vmax) is at least sigma(v)*v for every v in [0,vmax], and is attained.", "quantifier": "all parameters in range and all speeds up to vmax", "why_tests_cant": "Supremum over a continuum.", "anchors": ["src/chimp/interaction/cross_section/Constant.h: findMaxSigmaV", "src/chimp/interaction/cross_section/Inverse.h: findMaxSigmaV", "src/chimp/interaction/cross_section/VHS.h: findMaxSigmaV"]}
{"id": "C56", "title": "findMaxSigmaV for VHS with exponent above one and for the log model is not a bound in general", "statement": "The stated monotonicity of sigma*v fails: for VHS with viscosity exponent above one and for the log model beyond exp(A ln10/B - 1) there are speeds below vmax with sigma(v)*v greater than the reported maximum; below that speed the log model's value is a bound.", "quantifier": "existence of a counterexample for each such parameter; all speeds below the turning point", "why_tests_cant": "Needs both a universally quantified bound and its exact limit.", "anchors": ["src/chimp/interaction/cross_section/VHS.h: findMaxSigmaV", "src/chimp/interaction/cross_section/Log.h: findMaxSigmaV"]}
{"id": "C57", "title": "Tabulated cross section interpolates its table", "statement": "For a table with strictly increasing speeds the cross section equals the table value at every table speed, lies between the two neighbouring values in between, is linear there, is zero below the first speed, and is nonnegative if the table is.", "quantifier": "every table and every speed up to its last entry", "why_tests_cant": "Continuum of speeds, all tables.", "anchors": ["src/chimp/interaction/cross_section/DATA.h: eval, operator()"]}
{"id": "C58", "title": "findMaxSigmaV of tabulated data: bound on table points and rising segments", "statement": "The value reported for tabulated data is at least sigma(v)*v at every table speed below vmax and at vmax, and for vmax up to the last table speed at every speed if the table does not fall between consecutive entries in range (more generally, if no segment in range has its largest product strictly inside); on a falling segment sigma*v can exceed it strictly inside, so in general it is not a bound.", "quantifier": "every table, vmax and speed", "why_tests_cant": "Interior maxima between table points.", "anchors": ["src/chimp/interaction/cross_section/DATA.h: findMaxSigmaV"]}
{"id": "C59", "title": "Extrapolation beyond the table is positive and decreasing", "statement": "Whenever extrapolation is enabled and available and the table's last but one value is positive, the cross section beyond the last table speed is positive and decreases with speed; if it is not available and the last value is nonzero the evaluation is an error, and if the last value is zero the cross section is zero.", "quantifier": "every table and every speed beyond its end", "why_tests_cant": "Continuum of speeds, all tables.", "anchors": ["src/chimp/interaction/cross_section/DATA.h: setCoeffs, eval", "src/chimp/interaction/cross_section/detail/logE_E.h"]}
{"id": "C60", "title": "Leading zeros are trimmed to one", "statement": "After construction the tabulated data is the input table with leading zero entries removed except the last one before the first nonzero value; all nonzero entries stay, the cross section at every speed up to the end of the table is unchanged except that it is defined as zero below the threshold; an empty table is reported as an error, and a table of zeros advances an iterator past the end.", "quantifier": "every table", "why_tests_cant": "All tables.", "anchors": ["src/chimp/interaction/cross_section/DATA.h: checkThreshold"]}
{"id": "C61", "title": "Averaged cross section lies between its components and is symmetric", "statement": "For nonnegative components the averaged cross section is 0.25(sqrt s0 + sqrt s1)^2: it lies between the smaller and the larger component, its diameter is the mean of the diameters, exchanging the components changes nothing, averaging a cross section with itself gives it back, it is positive only at speeds where a component is, and its threshold energy is the smaller of the two. It is zero below this energy if the thresholds of the components are for one reduced mass; created for two species, where they are for those of their own pairs, if the lighter species has the lower threshold by the ratio of reduced masses, and not in general.", "quantifier": "all components and speeds", "why_tests_cant": "Continuum.", "anchors": ["src/chimp/interaction/cross_section/detail/AvgEasy.h", "src/chimp/interaction/cross_section/AveragedDiameters.h"]}
{"id": "C62", "title": "findMaxSigmaV of the averaged cross section is a bound when both components have nondecreasing sigma*v", "statement": "If both component products sigma*v are nondecreasing and nonnegative on [0,vmax] then the averaged cross section's reported maximum bounds its sigma*v there.", "quantifier": "all components and speeds", "why_tests_cant": "Continuum.", "anchors": ["src/chimp/interaction/cross_section/detail/AvgEasy.h: findMaxSigmaV"]}
{"id": "C63", "title": "Averaged table sampling", "statement": "The table of a numerically averaged cross section has entries exactly at the speeds vmax + dv/2 - k dv that are positive; its spacing is dv, it covers every speed in [dv, vmax], and each entry is the average of the components there; construction ends for every positive dv.", "quantifier": "all positive vmax and dv and components", "why_tests_cant": "Loop with real step; all step sizes.", "anchors": ["src/chimp/interaction/cross_section/AveragedDiameters.h"]}
{"id": "C64", "title": "Lotz derivative is the derivative", "statement": "The function used to locate the maximum of sigma*v in the Lotz model is, for every positive speed above threshold and any subshell parameters, the derivative of v*sigma(v).", "quantifier": "all parameter lists and positive speeds", "why_tests_cant": "Calculus identity; the source itself doubts it in a comment.", "anchors": ["src/chimp/interaction/cross_section/detail/LotzDetails.h: DSigmaVFunctor", "src/chimp/interaction/cross_section/Lotz.h: operator()"]}
{"id": "C65", "title": "A selected endothermic channel always has enough energy", "statement": "If an inelastic equation takes its energy change from its cross section's threshold, then whenever calculateOutPath selects that equation the square root in its velocity update has a nonnegative argument, so post-collision speeds are real numbers.", "quantifier": "all sets, speeds and random numbers", "why_tests_cant": "Composition of loading, selection and kinematics for all inputs.", "anchors": ["src/chimp/interaction/Set.h: interact", "src/chimp/interaction/model/InElastic.h: new_load", "src/chimp/interaction/model/detail/inelastic_helpers.h: CalculateVRelImpl<true>"]}
{"id": "C66", "title": "Whole-run conservation laws", "statement": "For a database put together by the library whose inelastic equations conserve mass and whose expressions leave velocities alone, any in-place driver run conserves total mass and total momentum of live plus produced particles, and total charge when equations conserve charge; without VSS equations the total kinetic energy changes exactly by the sum of the energy changes of the interactions performed, so with elastic equations only it is conserved. Out of place, the products reported carry what the reactants of the tests that created them carried. More generally the change of any additive quantity in a run is the sum of its changes over the interactions performed. Every cross section consulted is assumed to have a nonnegative value.", "quantifier": "every cell, random stream and number of steps", "why_tests_cant": "Invariant over entire executions.", "anchors": ["src/chimp/interaction/Driver.h", "src/chimp/interaction/Set.h", "src/chimp/interaction/model/*.h"]}
{"id": "C67", "title": "Reactants are handed to the model in species order", "statement": "Set::interact passes the particle of smaller species index first whatever the order of the selected pair, so mass ratios computed for the equation's inputs apply to the right particles.", "quantifier": "all pairs", "why_tests_cant": "All pairs and tables.", "anchors": ["src/chimp/interaction/Set.h: interact"]}
{"id": "C68", "title": "Example cell's relative speed estimate", "statement": "The example cell's maxRelativeVelocity is not an upper bound of the relative speed of particles of the two species, but the true maximum never exceeds sqrt(2) times it.", "quantifier": "all particle sets", "why_tests_cant": "Bound over all velocity sets.", "anchors": ["examples/simtest/Cell.h: maxRelativeVelocity", "examples/simtest/cellMeasurements.h: doCellMeasurements"]}
{"id": "C69", "title": "Products at the centre of mass or charge", "statement": "A product written with source index 0 or 1 appears at the position of that reactant, one written with source 2 at the mean of the reactants' positions weighted with their masses, one written with source 3 at the mean weighted with their charges; these placements are the same for two- and three-product models.", "quantifier": "every equation, positions, masses and charges", "why_tests_cant": "Follows the source through loading, factory choice and creation for all inputs.", "anchors": ["src/chimp/interaction/model/detail/inelastic_helpers.h: ParticleFactory, setParticleFactories", "src/chimp/interaction/model/InElastic_2X2.h", "src/chimp/interaction/model/InElastic_2X3.h"]}
{"id": "C70", "title": "Which inelastic equations load", "statement": "An equation read from a document has valid species and one source and expression per product; with positive masses and valid sources it loads as a two- or three-product model exactly if reactants and products are both neutral or both charged (for three products: if the third product does not have the mass of a reactant); with any other number of products it loads as an object whose interact throws.", "quantifier": "every document and database", "why_tests_cant": "All documents; the failure condition depends on sums over both sides.", "anchors": ["src/chimp/interaction/model/InElastic.h: new_load", "src/chimp/interaction/model/detail/inelastic_helpers.h", "src/chimp/interaction/Equation.cpp"]}
{"id": "C71", "title": "Lotz findMaxSigmaV", "statement": "With an exact root search the reported maximum of a Lotz cross section bounds sigma(v)*v for every speed up to vmax and is attained, for any number of shells without exponential correction, and generally whenever the derivative changes sign only at the root found; without exponential correction the cross section is never negative. For a single shell the threshold energy is the ionisation energy times reduced mass over electron mass, and the maximum is where the electron has e^2 times the ionisation energy.", "quantifier": "any number of shells, all positive parameters, vmax and speeds", "why_tests_cant": "A global maximum of a sum over any number of shells.", "anchors": ["src/chimp/interaction/cross_section/Lotz.h", "src/chimp/interaction/cross_section/detail/LotzDetails.h"]}
{"id": "C72", "title": "Every interaction performed in a run is possible", "statement": "In any driver run over a database put together by the library, each test that is reported as an interaction names an equation of the two species of the pair; its cross section is positive at the pair's relative speed, the pair has at least the threshold energy in its centre of mass (unless the equation was created by averaging), the interaction model gives finite results for that pair whatever random numbers come, and the products reported are those of that model.", "quantifier": "every database, cell, random stream and number of steps, in place or out of place", "why_tests_cant": "Needs the agreement of threshold handling, selection by cross section and the energy balance of the models in every execution.", "anchors": ["src/chimp/interaction/Driver.h", "src/chimp/interaction/Set.h", "src/chimp/interaction/Equation.cpp", "src/chimp/interaction/cross_section/*.h", "src/chimp/interaction/model/*.h"]}
{"id": "C73", "title": "Cross sections have finite nonnegative values where they apply", "statement": "A cross section loaded from physical parameters has a finite nonnegative value at every speed it covers: all speeds for the constant, VHS and (without exponential correction) Lotz models; with corrections of at most one, the speeds at which the Lotz shells are all open or all closed; nonzero speeds, or any speed with a positive threshold, for the inverse and logarithmic models, the latter up to its zero; speeds up to the end of a table, and beyond it if the table ends with zero or can be extrapolated.", "quantifier": "all documents, parameters and speeds", "why_tests_cant": "All real speeds and parameters.", "anchors": ["src/chimp/interaction/cross_section/*.h"]}
{"id": "C74", "title": "The document decides what an interaction does", "statement": "An equation completed from a document uses the cross section written there, with its threshold taken at the reduced mass of the two reactants, and acts as the model named there says: elastic keeps momentum and energy and leaves in the isotropic direction given by two random numbers; vss_elastic keeps momentum and turns the relative velocity by the angle whose cosine is 2 u^(1/alpha) - 1 with the documented parameter (relative velocities not along the x axis); inelastic leaves the reactants alone and produces the written species in order, with the documented energy change or minus the threshold. No other model name completes.", "quantifier": "every database, document, pair and random stream, in place or out of place", "why_tests_cant": "Connects loading with every later use of the loaded object.", "anchors": ["src/chimp/interaction/Equation.cpp", "src/chimp/interaction/cross_section/*.h", "src/chimp/interaction/model/*.h"]}
{"id": "C75", "title": "Acceptance of pairs in a run", "statement": "In any driver run every test is decided by the null-collision rule with the sum of findMaxSigmaV of the pair's equations at the announced maximum relative speed of the two species. If these are bounds and no pair is faster than announced, the rate of every tested pair is at most that sum, so the acceptance probability never exceeds one; out of place it suffices that the announcement bounds the speeds at the start.", "quantifier": "every cell, database, random stream and number of steps", "why_tests_cant": "Holds for each test of entire executions, with a bound that was computed before the first test.", "anchors": ["src/chimp/interaction/Driver.h", "src/chimp/interaction/Set.h: calculateOutPath, findMaxSigmaVProduct", "src/chimp/interaction/cross_section/*.h"]}
{"id": "C76", "title": "The expected number of interactions of a pair", "statement": "With independent uniform random numbers an out-of-place driver run ends almost surely, and the expected number of times two given particles of different species perform equation j is max(w_A, w_B) sigma_j(v) v dt / V, where v is their relative speed, whatever bound findMaxSigmaV announces, as long as it is a bound and the estimated number of tests is not an integer. If the estimate is an integer k, the expectation is (k-1)/k of that. For two particles of one species with n particles it is n/(n-1) times w sigma_j(v) v dt / V.", "quantifier": "every cell, database, particle pair and equation, out of place", "why_tests_cant": "An expectation over all random streams of whole runs with any number of particles, species and tests.", "anchors": ["src/chimp/interaction/Driver.h", "src/chimp/interaction/selectRandomPair.h", "src/chimp/interaction/Set.h: calculateOutPath, findMaxSigmaVProduct, interact"]}
{"id": "C77", "title": "Isotropic scattering prefers no direction", "statement": "With independent uniform random numbers the velocities that leave an elastic or inelastic interaction (two or three products), relative to the centre of mass of the reactants, are jointly distributed alike in every orientation: turning or reflecting all of them about the centre of mass does not change their joint distribution. On average every outgoing particle moves with the centre of mass.", "quantifier": "every database, completed equation other than vss_elastic, pair of particles, and rotation or reflection; product expressions leave velocities alone", "why_tests_cant": "A statement about a probability distribution on the sphere and all rotations of it.", "anchors": ["src/chimp/interaction/model/Elastic.h", "src/chimp/interaction/model/InElastic.h", "src/chimp/interaction/model/detail/*.h"]}
{"id": "C78", "title": "The VSS scattering law", "statement": "With independent uniform random numbers, a VSS interaction (relative velocity not along the x axis) prefers no direction but that of the incoming relative velocity: if the incoming velocities are turned or reflected, the joint distribution of the outgoing ones is turned in the same way. With VSS parameter 1 it has the same distribution as the elastic model. With parameter alpha each particle keeps on average the fraction (alpha-1)/(alpha+1) of its velocity relative to the centre of mass.", "quantifier": "every database, completed vss_elastic equation, pair of particles off the x axis, rotation or reflection, and parameter", "why_tests_cant": "A statement about probability distributions in all orientations and for all real parameters.", "anchors": ["src/chimp/interaction/model/VSSElastic.h", "src/chimp/interaction/model/Elastic.h"]}
{"id": "C79", "title": "A database in use: every equation has a source", "statement": "After any sequence of the public calls that change a RuntimeDB (documents, filters, defaults, adding species and models, initialising, creating cross sections), whatever exceptions were thrown and caught, as long as no species is added after the first initialisation: names are distinct, species are in order of mass and name, every pair has an entry that both orders give, and every equation of a pair was loaded with exactly these reactants from an Interaction wanted for the pair and kept by the filter, in a document and with a filter in force at an initialisation, or was created from the elastic equations standing for the two species. An initialisation that returns appends exactly the wanted and kept Interactions in document order. Calls throw only if an Interaction that is wanted and kept cannot be loaded or an average cannot be formed.", "quantifier": "every history of calls, document, filter and species", "why_tests_cant": "Quantifies over all histories including the states exceptions leave behind.", "anchors": ["src/chimp/RuntimeDB.h", "src/chimp/RuntimeDB.cpp", "src/chimp/interaction/Equation.cpp", "src/chimp/interaction/Set.h"]}
{"id": "C80", "title": "Created cross sections average diameters", "statement": "In any such history, createMissingElasticCrossSections appends exactly one equation to each selected pair that lacks an elastic one and for which one can be made, changes nothing else, and returns their number. After a call for all species no pair lacks one that could be made. The created cross section has at every speed (if both are of the vhs, log, constant or inverse kinds), or else at every sampled speed (half a step above the range and down in steps, range and step being the arguments or else the defaults), the square of the mean of the square roots of the cross sections standing for the two species, and these still stand there.", "quantifier": "every history of calls, range, resolution and selection", "why_tests_cant": "All histories; agreement at all real speeds or at any number of samples.", "anchors": ["src/chimp/RuntimeDB.cpp: createMissingElasticCrossSections", "src/chimp/interaction/cross_section/AveragedDiameters.h", "src/chimp/interaction/cross_section/detail/AvgEasy.h"]}
{"id": "C81", "title": "Runs on any database in use", "statement": "A driver run on the database of any such history conserves mass and charge if the inelastic equations balance them, momentum, and with elastic models energy, and performs only interactions that are possible for the pair; this includes created equations and databases left behind by exceptions.", "quantifier": "every history of calls, cell, random stream and number of steps", "why_tests_cant": "Joins all histories of the database with all executions of the driver.", "anchors": ["src/chimp/RuntimeDB.cpp", "src/chimp/interaction/Driver.h", "src/chimp/interaction/Set.h", "src/chimp/interaction/model/*.h"]}
{"id": "C82", "title": "What each call does to a database", "statement": "Adding names reads the unique Particle of each name in order and adds each once, keeping what is there; at the first name without exactly one Particle the call throws and the earlier names stay. Adding a model adds the species of all models of that name and makes its one filter the filter, unless it throws, when the filter is kept. With the filter a database starts with, every equation loaded has the same text on both sides. Creating cross sections by names is creating by the indices of these names, and a name that is not loaded selects every species. The lookup by two names gives the entry of the two species, and throws exactly if one of them is not loaded.", "quantifier": "every database state, document, model name and list of names", "why_tests_cant": "Quantifies over all documents and histories, including calls that throw part of the way.", "anchors": ["src/chimp/RuntimeDB.cpp", "src/chimp/RuntimeDB.h", "src/chimp/interaction/filter/Base.cpp"]}
{"id": "C83", "title": "Aggregated particle properties", "statement": "Aggregate of any number of properties and sets of properties is one class with all of them in order, whatever the grouping. Loading it is accepted by the compiler exactly if no property occurs twice; it reads each property from the element given and throws what the first unreadable one throws. make_properties of different properties has the values given, in order; set_properties gives each named property the last value given for it and keeps the others; printing prints each property once in order. make_properties does not accept a set as an argument before the last.", "quantifier": "every number, order and grouping of properties, value, and loader of a property", "why_tests_cant": "Template recursion over all nestings and numbers of properties; what does not compile cannot be unit tested.", "anchors": ["src/chimp/property/aggregate.h", "src/chimp/property/detail/list.h", "src/chimp/property/define.h"]}
{"id": "C84", "title": "What is read from a Particle", "statement": "Loading the default set of properties from a Particle element gives the name written there, and mass, charge and polarizability as written, or zero where they are not. It throws exactly if the name is missing or a quantity is written that is none or has another dimension. A Particle without a mass therefore loads with mass zero.", "quantifier": "every Particle element", "why_tests_cant": "Quantifies over all contents of the element; tests fix a few.", "anchors": ["src/chimp/property/DefaultSet.h", "src/chimp/property/define.h", "src/chimp/property/detail/check.h", "src/chimp/property/mass.h"]}
{"id": "C85", "title": "The example program", "statement": "The example program throws at a name of its five species that has no Particle or several, and when loading an Interaction throws. Otherwise it draws the particles, each of a species of the database, within the cube of side two, with velocity components up to four standard deviations; sorting leaves for each species a range with exactly its particles, disjoint from the others and together all particles. The driver run then has undefined behaviour exactly if a species with an equation got no particle, and with a fair random stream returns otherwise. Then the cell is as it was, every test was of two particles of the species it was for, within sqrt 2 of the announced speed, and the products in the result list carry the mass, charge, momentum and (with elastic models) energy of the pairs that made them. With independent uniform random numbers it returns almost surely, and two given particles at relative speed v (not above the announced one) perform equation j on average sigma_j(v) v / 1000 times, or k/(k-1) times that within a species of k particles, if the maxima are bounds and the estimate is not an integer.", "quantifier": "every document, sequence of random numbers, number of particles and sorting algorithm", "why_tests_cant": "All documents and random sequences through the whole program; the undefined behaviour depends on the random numbers.", "anchors": ["examples/simtest/main.cpp", "examples/simtest/Particle.h", "examples/simtest/sortSpecies.h", "examples/simtest/Cell.h", "examples/simtest/cellMeasurements.h"]}
{"id": "C86", "title": "Thermal speed estimates", "statement": "For two particles of any masses in a gas in thermal equilibrium, avg_v_rel of the temperature and the reduced mass is the mean relative speed divided by the square root of two, so it is always too small; calcStdVFromT squared is half the mean square of the relative velocity, and is the variance neither of the relative speed nor of a component of the relative velocity. The estimate of the largest relative speed the example computes from it is exceeded by between 0.34% and 0.37% of the pairs, for every temperature and masses.", "quantifier": "every temperature, Boltzmann constant, two masses and probability space with Maxwell-distributed velocities", "why_tests_cant": "The values are means over a continuous distribution; a test can compare the formula with itself, or sample.", "anchors": ["src/chimp/interaction/v_rel_fnc.h", "examples/RuntimeDB/testRuntimeDB.cpp"]}
{"id": "C87", "title": "Written and printed equations", "statement": "An interaction written by the Python module for two dictionaries of species and positive numbers has a text that does not depend on the order of the dictionaries: terms by increasing mass and name. If the species are loaded with the masses Python uses and there are two reactant particles, the library loads it: reactants and products are those of the dictionaries, the model is that of the class or else elastic exactly if the dictionaries are the same, and printing the loaded equation gives the text Python prints. In a document of such interactions with different equations, looking up the text finds the interaction written for it, and fails if there is none or several; the elastic filter keeps exactly those whose dictionaries are the same. Any loaded equation with positive numbers prints each species of a side once with its total number, and the sources of the products. A product of number zero loads but cannot be printed, and Python writes numbers below one as one.", "quantifier": "every pair of dictionaries, mass function, database, document and cross section data", "why_tests_cant": "Quantifies over all equations and documents, and crosses two languages.", "anchors": ["python/chimp/interaction/__init__.py", "python/chimp/interaction/cross_section/__init__.py", "python/chimp/reference.py", "src/chimp/interaction/Term.h", "src/chimp/interaction/Input.h", "src/chimp/interaction/Equation.cpp"]}
{"id": "C88", "title": "The programs that list cross sections", "statement": "For an increasing range and N > 0 points the listing of an equation has N rows, at the middles of N equal parts of the range, with the cross section in square nanometres, and zero from the first velocity on at which evaluating it throws. The program for two names loads exactly the two and the products of their interactions; it succeeds exactly if each of these names has exactly one Particle and each interaction of the two with a product loads, and then writes one block for each of these, in document order, with its equation; otherwise, or if there is none, the file is empty. The program for all interactions succeeds exactly if every interaction between particles of the document with all products in it loads, and writes one block for each. The program that reads the interactions of a model one by one writes a block for each that loads, in document order. The listing does not end for an empty range or a negative number of points; the program for all interactions reads arguments that are not there; and the number of the reactants matters, against the text of the program.", "quantifier": "every document, pair of names, range, number of points and cross section", "why_tests_cant": "Quantifies over all documents, names and ranges through whole programs; non-termination cannot be observed by a test.", "anchors": ["examples/CrossSection/single-input-equation/getCrossSection.cpp", "examples/CrossSection/all/getCrossSection.cpp", "examples/CrossSection/xpath-access/testCrossSection.cpp", "src/chimp/RuntimeDB.cpp"]}
{"id": "C89", "title": "Options of the database", "statement": "After any chain of set metafunctions each option has the last value given for it in the chain, or the value it had before; the order of settings of different options does not matter. Beyond the end of a table that ends falling and not at zero, evaluating a cross section throws exactly if the environment variable CHIMP_CROSS_SECTION_EXTRAPOLATION is 'no', or it is not set and the option is false; otherwise the value is positive and falls. If auto_create_missing_elastic is true, after an initialisation that returns no pair lacks an elastic equation that could be made; if false, initialising adds only equations loaded from the document. If inplace_interactions is false, a driver run changes no particle of the cell.", "quantifier": "every chain of settings, value of the environment variable, table, document and history of calls", "why_tests_cant": "Chains are template instantiations of unbounded length; the effects are over all tables, documents and runs.", "anchors": ["src/chimp/make_options.h", "src/chimp/RuntimeDB.cpp", "src/chimp/interaction/cross_section/DATA.h", "src/chimp/interaction/Driver.h"]}
{"id": "C90", "title": "The calculator is shared by all databases", "statement": "Constructing a database clears the units calculator of the program: its symbols are then those of the library as changed by the commands of the new document in document order, whatever was there before; a command that throws ends the construction and leaves what the commands up to it did. As long as no other database is constructed or extended, a database reads values with the symbols of its own document and of those added to it. After another database is constructed it reads them with the symbols of that one, and what is added to one database is added for all. In a program with one database every ops expression is compiled with all helper functions there; once ops have been loaded and another database of the same type is constructed, no ops expression is ever again compiled with any of them. An empty section name for the commands is undefined behaviour.", "quantifier": "every sequence of constructions, added documents, values read and ops loaded, in any number of databases", "why_tests_cant": "The effect depends on what other databases of the process did before; quantifies over all interleavings and documents.", "anchors": ["src/chimp/physical_calc.cpp", "src/chimp/RuntimeDB.cpp", "src/chimp/interaction/model/detail/inelastic_helpers.h: addInteractionHelpers, setFactories"]}
{"id": "C91", "title": "Expressions written with products", "statement": "Running the expressions written with a product computes their meaning: P(n,name) is the coordinate, velocity component, weight or charge of that name of the first or second reactant, CM and CQ are the coordinates of the centres of mass and charge, and the last setPosition, setVelocity and setWeight count. Expressions change only their product, only by the setters called in them, never its species, and in the same way whatever was run before. Expressions with literal names and indices and the right numbers of arguments always run through. An interaction with expressions is the interaction without them followed by what they say; expressions without setVelocity leave momentum and energy conserved. The centres are right only if the calculator prints calls as 'CM()' and 'CQ()': if it prints them as they are written, CM is the origin.", "quantifier": "every expression, pair of particles, list of products, equation and random stream", "why_tests_cant": "Quantifies over all expression trees and products; the static object makes the effect depend on order.", "anchors": ["src/chimp/interaction/model/detail/inelastic_helpers.h", "src/chimp/interaction/model/InElastic.h", "src/chimp/interaction/model/InElastic_2X2.h", "src/chimp/interaction/model/InElastic_2X3.h"]}
{"id": "C92", "title": "The Lotz cross section and the published formula", "statement": "At every speed at which the electron energy m_e v^2/2 reaches all binding energies, a Lotz cross section is the sum of the published formula. For one subshell with positive a q, 0 <= b < 1 and c at least 1/50 (or b = 0) and a root search that finds sign changes, it is constructed, its threshold is the binding energy, it is the published formula at every speed, never negative, and findMaxSigmaV bounds sigma(v)*v for every speed up to vmax and is attained. With several binding energies the code departs from the formula, which sums only open subshells: closed ones with b e^c < 1 are counted with a negative sign, so the value is too small, and the threshold lies strictly above the ionisation potential. For b = 0.99 and c = 1/20000 any exact search stops at a local maximum and the reported maximum is exceeded; for b = 1 the interval searched is a single point.", "quantifier": "every list of subshells, electron and reduced mass, speed, vmax and root search", "why_tests_cant": "A global maximum over all speeds and parameters, and equality of functions; sampling a speed cannot settle either.", "anchors": ["src/chimp/interaction/cross_section/Lotz.h", "src/chimp/interaction/cross_section/detail/LotzDetails.h", "src/chimp/interaction/cross_section/detail/LotzDetails.cpp"]}
{"id": "C93", "title": "Effective radii are those of hard spheres", "statement": "effectiveRadius(v) of a cross section or equation is the radius of equal hard spheres whose cross section for meeting each other, the area of the sideways displacements at which they touch in passing, is the cross section at v; it has a value exactly if the cross section has a nonnegative one. The cross section of an elastic equation that the database created for two species is that of hard spheres with the effective radii of the two species, and its own effective radius is their mean: at every speed if both are of the kinds averaged directly, otherwise at the sampled speeds.", "quantifier": "every cross section, speed, history of calls and pair of species", "why_tests_cant": "Equates a formula with the measure of a set for all cross sections and speeds.", "anchors": ["src/chimp/interaction/cross_section/Base.h: effectiveRadius", "src/chimp/interaction/Equation.cpp: effectiveRadius", "src/chimp/RuntimeDB.cpp: createMissingElasticCrossSections"]}
{"id": "C94", "title": "Models of the user's own", "statement": "cross_section_registry and interaction_registry may be changed at any time. Under a name there is what was put there last. An initialisation makes each equation with the prototypes registered at that time under the names in the document (elastic or inelastic if it names no model), throws if a name is not registered, and later changes of the registries never change equations made before. Whatever is registered, created equations have the library's elastic model and the mean of the diameters. Models under names that no document in force uses make no difference to anything. With the registries of the constructor the database is that of C79 to C82. Findings: replacing elastic does not change created equations; the label a model returns decides how averages are formed, and one that calls itself vhs without its property gets a wrong bound of sigma v; after an entry was merely read, a missing model is a call through a null pointer instead of an exception.", "quantifier": "every history of calls, prototype of a cross section or interaction, document and initial registry", "why_tests_cant": "Quantifies over all user classes, which are arbitrary code, and over all orders of registering, loading and creating.", "anchors": ["src/chimp/RuntimeDB.h: cross_section_registry, interaction_registry", "src/chimp/RuntimeDB.cpp", "src/chimp/interaction/Equation.cpp: load", "src/chimp/interaction/cross_section/Base.h", "src/chimp/interaction/model/Base.h"]}
{"id": "C95", "title": "Choosing a pair and a channel in floating point", "statement": "With every operation rounded to p digits (any rule for ties) and random numbers that are themselves p digit numbers: a pair that is returned lies in its ranges and its particles differ. Every position of a range of n particles can be drawn if 8n is at most 2^p, and if u runs over the multiples of 2^-b with n 2^b at most 2^p each position is drawn floor(2^b/n) times or once more. The channel chosen always has a positive cross section, and its value is reported. The severe message is issued exactly if all cross sections are zero and the random number or the maximum is zero. Acceptance and the choice of the channel are those of exact arithmetic with the sums changed by at most a factor (1 +- 2^-p) per operation.", "quantifier": "every precision, rule for ties, range, list of nonnegative cross sections, bound, speed and random number", "why_tests_cant": "Quantifies over all floating point inputs and precisions; off by one at the end of a range shows for one random number in 2^53.", "anchors": ["src/chimp/interaction/selectRandomPair.h", "src/chimp/interaction/Set.h: calculateOutPath"]}
{"id": "C96", "title": "Driver runs in floating point", "statement": "With every operation of the driver rounded to p digits and ranges of at most 2^p particles: survivors plus consumed particles are the particles there were; the erasure queue holds each vacated position once; every pair tested is alive, and of the two species; ranges stay homogeneous; out of place nothing changes; the result list grows by the products; only open channels interact. The estimate of a pair of species is the exact formula within a factor (1 +- 2^-p) per operation. If the estimate plus 2 is at most 2^p, the number of tests is the planned one, or one fewer with a random number within 2^-p (Nr + 1) of zero, or a species ran out. A run of which all estimates are that small ends, for a generator that keeps giving numbers of at most 1/4 and of at least 3/4. Finding: if the estimate is above 2^(p+1), taking one away does not change it: out of place the run never ends, in place only when a species runs out.", "quantifier": "every precision, rule for ties, cell, set of interactions, random stream and fuel", "why_tests_cant": "Quantifies over all runs and precisions; an endless loop cannot be observed by a test.", "anchors": ["src/chimp/interaction/Driver.h", "src/chimp/interaction/selectRandomPair.h", "src/chimp/interaction/Set.h: calculateOutPath"]}
{"id": "C97", "title": "Thresholds in floating point", "statement": "With every operation rounded to p digits: elastic collisions, and inelastic interactions that release energy or have no energy change, always give velocities that are numbers. For constant cross sections with a threshold (double, ties to even): if the relative kinetic energy exceeds the threshold by a factor 1 + 8/2^53 the channel is open and the velocities after the interaction are numbers; if the threshold exceeds it by a factor 1 + 12/2^53 the channel is closed; if the relative speed is above the threshold speed the velocities are numbers. For tables, an open channel gives numbers unless the relative speed is the first of the table and its value there is not zero; so a table that begins with the value zero never gives NaN. Findings: in every precision there are masses, a threshold and velocities at which a constant cross section is open and the interaction gives NaN; for double there is such a case for tables that begin with a nonzero value.", "quantifier": "every precision, reduced mass, threshold, pair of velocities, table and random stream", "why_tests_cant": "The bad cases are single pairs of adjacent floating point numbers; quantifies over all inputs and precisions.", "anchors": ["src/chimp/interaction/model/detail/inelastic_helpers.h", "src/chimp/interaction/model/InElastic_2X2.h", "src/chimp/interaction/model/InElastic_2X3.h", "src/chimp/interaction/model/Elastic.h", "src/chimp/interaction/cross_section/Constant.h", "src/chimp/interaction/cross_section/DATA.h"]}
{"id": "C98", "title": "Conservation laws in floating point", "statement": "With every operation of the elastic and inelastic models rounded to p digits, and a library whose cosine, sine and M_PI have errors of at most kappa: an elastic collision always gives numbers, draws two random numbers and changes the kinetic energy E of the pair by at most (g^63 (1 + 4 kappa) - 1) E, g = 1 + 2^-p, and each component of the momentum by at most 2 (g^21 (1 + 4 kappa) - 1) sqrt(2 (m1 + m2) E); for double these are 69/2^53 and 54/2^53. An inelastic interaction with two or three products of the same total mass whose velocities are numbers changes the kinetic energy by dE and conserves momentum with errors of the same form (g^103, g^176 of E + |dE|). Given the same random numbers the direction drawn is that of exact arithmetic within 4 sqrt(2^-p) and the velocities of an elastic collision follow the exact ones; half the digits is what one gets: for a small random number the rounded direction lies on the axis and the exact one does not. With exact operations the functions are those of C45 to C48.", "quantifier": "every precision of at least 10 digits for directions and every precision otherwise, rule for ties, library, masses, velocities, energy change and random stream", "why_tests_cant": "Bounds errors for all inputs and precisions; sampled collisions show typical errors only.", "anchors": ["src/chimp/interaction/model/Elastic.h", "src/chimp/interaction/model/InElastic_2X2.h", "src/chimp/interaction/model/InElastic_2X3.h", "src/chimp/interaction/model/detail/inelastic_helpers.h", "src/chimp/interaction/ReducedMass.h"]}
{"id": "C99", "title": "Drift over a run in floating point", "statement": "A run of the driver with every operation rounded, interactions in place and channels that change a nonnegative quantity (such as the kinetic energy) by a fixed amount up to a relative error e: after n interactions the amount in the cell and among the products is the initial amount plus the sum of the changes, up to ((1 + e)^n - 1) of the initial amount plus the sizes of the changes. A quantity of either sign which each channel keeps up to c times the root of the energy involved (such as a component of the momentum) changes over the run by at most n c times the root of the energy of the run. For a gas with elastic collisions only, in double: the energy E0 of the cell stays within ((1 + 69/2^53)^n - 1) E0, which is at most 138 n/2^53 E0 for n up to 2^45, and each component of the momentum changes by at most 108 n/2^53 sqrt(M (1 + 69/2^53)^n E0), M the largest mass.", "quantifier": "every precision, rule for ties, cell, set of interactions, random stream, number of tests and fuel", "why_tests_cant": "Error growth over unboundedly many collisions; a test sees one run of one length.", "anchors": ["src/chimp/interaction/Driver.h", "src/chimp/interaction/model/Elastic.h", "src/chimp/interaction/ReducedMass.h"]}
{"id": "C100", "title": "Cross sections in floating point", "statement": "With every operation rounded to p digits and g = 1 + 2^-p: a constant cross section reports a maximum that no rounded product sigma(v) v in range exceeds; an inverse one has the product k up to 2^-p k; a variable hard sphere with viscosity exponent from 1/2 to 1 has the value of its formula up to g^5 (1 + kappa), kappa the error of the power function; between two consecutive entries a table is the straight line up to g^6, zero below its first speed and exact at it; an average is the square of the mean diameter up to g^6 and does not depend on the order of its components. The maxima reported by findMaxSigmaV are bounds up to g for constant and inverse, g^11 (1 + kappa)/(1 - kappa) for variable hard spheres, g^13 for tables whose segments hide no maximum, and g^13 for averages. In double the maxima of inverse cross sections and of flat tables can be exceeded, a table need not return a tabulated value at its own speed, and a flat table can give more than its value.", "quantifier": "every precision, rule for ties, power function of given error, parameter, table, reduced mass, threshold, speed and vmax", "why_tests_cant": "Bounds rounding errors over all inputs; the violations occur at single floating point numbers.", "anchors": ["src/chimp/interaction/cross_section/Constant.h", "src/chimp/interaction/cross_section/Inverse.h", "src/chimp/interaction/cross_section/VHS.h", "src/chimp/interaction/cross_section/DATA.h", "src/chimp/interaction/cross_section/detail/AvgEasy.h"]}
{"id": "C101", "title": "Sampled averages in floating point", "statement": "AveragedDiameters with every operation rounded to p digits (at least 3), vmax and dv positive p digit numbers and components that are defined and not negative at all positive speeds: if vmax/dv is at most 2^(p-2) the sampling loop ends within 4 vmax/dv + 4 rounds; the samples have increasing positive speeds, neighbours are between dv/2 and 3 dv/2 apart, the first is at most dv and the last at least vmax, so all speeds from dv to vmax are covered; sample k from the top is at vmax + dv/2 - k dv up to (k + 1) u (1 + u) (vmax + dv/2), u = 2^-p, and its value is the square of the mean diameter at its own speed up to (1 + u)^6. If vmax/dv is above 2^(p+1), subtracting dv changes nothing and the constructor never returns. A component that throws at speeds from vmax on makes it throw.", "quantifier": "every precision, rule for ties, pair of cross sections, vmax, dv and reduced mass", "why_tests_cant": "Termination and the position of samples for all inputs; an endless constructor cannot be observed by a test.", "anchors": ["src/chimp/interaction/cross_section/AveragedDiameters.h", "src/chimp/RuntimeDB.cpp: createMissingElasticCrossSections"]}
{"id": "C102", "title": "Writing through references", "statement": "db[i] = ... changes species i and nothing else, and is undefined exactly if there is no such species; db[\"n\"] = ... changes the first species of that name, or throws naming n and changes nothing; db(i,j) = ... changes what db(i,j) and db(j,i) return and nothing else, and is undefined exactly outside the table; db(\"n\",\"m\") = ... throws for the first unknown name. Writes that leave names change no lookup and names stay distinct; a renamed species is found by a free new name, and if the name is taken then the later of the two species is found by no name. In any program of calls and writes every equation was either written by the program or has the reduced masses that its species had right after the call that loaded or created it. Hence writing masses before initBinaryInteractions is safe, but an elastic collision of an equation from before a write keeps the momentum by the new masses only if their ratio is the same or the relative velocity does not change, and an equation that is created after a write that breaks the order by mass has its reactants the other way round than the driver hands them over.", "quantifier": "every state of a database, sequence of calls and writes, index, name, new value, pair of masses, pair of particles and random stream", "why_tests_cant": "Quantifies over all sequences of calls and writes; the effect on equations made earlier shows only in later collisions.", "anchors": ["src/chimp/RuntimeDB.h: operator[], operator()", "src/chimp/RuntimeDB.cpp: operator[], operator(), findParticle, createMissingElasticCrossSections", "src/chimp/interaction/ReducedMass.h"]}
{"id": "C103", "title": "Monitors and maxima of the user's own", "statement": "Driver takes a monitor and a class for the maximum of sigma v as template parameters. A monitor that only reads changes nothing: particles, ranges, results, erasure queue and undefined behaviour are those of the same run without it. A run with any class for the maximum is the run of the default driver on a database with the same cross sections and models that announces what the class returns; with the default class it is the run on the database itself. Every monitor is told, in this order: for each pair of species with interactions, lexicographically, the number of tests, which is the estimate or one more if a random number is below its fraction; then one report for each test, in the order of the tests, with the two particles, the path, the particles as the interaction left them and all results so far. The tests performed for a pair are the number told, rounded up, less one, unless particles run out; the mean of the number told exceeds the estimate by its fractional part. Out of place with independent random numbers, a monitor that counts the reports on two particles and equation j counts max(w_A, w_B) sigma_j(v) v dt / V on average, whatever positive value not below sigma_T v the class returns, unless the estimate is an integer.", "quantifier": "every monitor and state of it, class for the maximum, database, cell, random stream and fuel", "why_tests_cant": "Quantifies over all user classes; expected values cannot be observed in a run.", "anchors": ["src/chimp/interaction/Driver.h: Driver, DefaultMaxSigmaVProduct, NullMonitor", "src/chimp/interaction/detail/DriverRetval.h", "src/chimp/interaction/Set.h"]}
{"id": "C104", "title": "A simulation around the driver", "statement": "A program keeps its particles in cells; in each time step it groups the particles of each cell by species, calls the driver with interactions in place if no species with interactions is missing, erases the positions in the queue, appends the results, and then moves all particles, possibly to other cells. Then after any number of steps: erasing the queued positions leaves exactly the particles of the species ranges, so nothing is lost or doubled; all particles are of known species; their number changes by the products less two for each test that gave products; an additive quantity that motion keeps and each equation changes by a fixed amount has changed by the sum over the interactions performed, for the library: mass, charge and momentum are conserved and kinetic energy changes by the energies of the equations performed; no particle that does not exist is read, and with a fair generator every number of steps comes to its end. Steps can be interrupted and resumed. Out of place this fails: a pair can react again and again and the products carry more than the cell.", "quantifier": "every database, number of cells and steps, motion, placement into cells, time step, random stream and initial state", "why_tests_cant": "Invariants over unboundedly many steps and cells; a test sees one short simulation.", "anchors": ["src/chimp/interaction/Driver.h", "src/chimp/interaction/detail/DriverRetval.h", "examples/simtest/sortSpecies.h", "examples/simtest/main.cpp"]}
{"id": "C105", "title": "Logarithmic and Lotz cross sections in floating point", "statement": "With every operation rounded to p digits and library functions accurate to j factors 1+2^-p: the logarithmic cross section is zero below its threshold speed, above it within j+2 roundings of A - B log10 v (measured with the two terms), it does not increase with the speed if log10 does not decrease and B >= 0, and is negative exactly where the rounded B log10 v exceeds A. A Lotz cross section is the published formula within 2j+22+n roundings (n shells, measured with an explicit scale) wherever all shells are open, by four roundings where b is not 0; it is then not negative for a q >= 0, 0 <= b <= 1 and c >= 0. With one binding energy P the threshold speed is that of an electron of energy P within three roundings and the threshold energy within nine. For one shell with b = 0, findMaxSigmaV reports the product formed at the speed it reports, and no sigma(v)*v up to vmax exceeds it by more than 16 times 2j+24 roundings plus the square of the relative error of the search, times the greatest product there is. With exact operations these are the cross sections of C54, C71 and C92. Finding: in double a Lotz cross section can be negative at its own threshold speed, and so the maximum reported for that speed.", "quantifier": "every precision and rule for ties, all parameters, shells, speeds and library functions of the stated accuracy", "why_tests_cant": "Error bounds for all parameters and speeds; the negative value occurs at single floating-point numbers.", "anchors": ["src/chimp/interaction/cross_section/Log.h", "src/chimp/interaction/cross_section/Lotz.h", "src/chimp/interaction/cross_section/detail/LotzDetails.h", "src/chimp/interaction/cross_section/detail/LotzDetails.cpp"]}
{"id": "C106", "title": "Thermal equilibrium is stationary", "statement": "If the velocities of all particles of a cell are thermal (independent, normally distributed components of variance kT/m about a common drift velocity) and the generator delivers independent uniform numbers, then after a driver run in place on a database whose interactions are all elastic, and after any number of such runs, the velocities are again thermal and independent, at the same temperature and drift, for any masses, cross sections, announced maxima, weights, volumes and time steps; a run finishes almost surely and changes nothing but velocities and the generator; every particle keeps the mean kinetic energy 3/2 kT in the drift frame. VSS scattering does not have this property: two particles with thermal velocities have less mean energy after a VSS collision than before.", "quantifier": "every temperature, drift, number and masses of particles, elastic database, cell, list of runs and generator of independent uniform numbers", "why_tests_cant": "A statement about joint distributions of all velocities; a test can only compare moments of a sample.", "anchors": ["src/chimp/interaction/Driver.h", "src/chimp/interaction/Set.h", "src/chimp/interaction/model/Elastic.h", "src/chimp/interaction/model/VSSElastic.h"]}
{"id": "C107", "title": "Rate coefficients of a thermal gas", "statement": "In a gas of temperature T the mean of sigma(v)*v over pairs of particles with thermal velocities, the number by which densities are multiplied to get a reaction rate, is: for a constant cross section with threshold energy E, value * <v> * (1 + E/kT) exp(-E/kT); for an inverse cross section, its constant times the share of pairs whose collision energy reaches E, and the constant itself without threshold; for a VHS cross section without threshold with 1/2 <= visc_T_law < 3/2, value * (T_ref/T)^(visc_T_law - 1/2) * <v>, less a fraction of at most (visc_T_law - 1/2)/(3/2 - visc_T_law) * tiny/(2kT), where tiny is the guard against division by zero. Here <v> is the mean relative speed. So value is the cross section of the hard spheres with the same rate at T_ref. Finding: visc_T_law is not checked; between 5/2 and 7/2 a VHS cross section with positive value loads and is negative at every speed.", "quantifier": "every temperature, pair of masses, threshold, value, reference temperature and viscosity exponent in the stated range", "why_tests_cant": "Means over a continuous distribution of velocities; a test can only sample them.", "anchors": ["src/chimp/interaction/cross_section/detail/VHSInfo.h", "src/chimp/interaction/cross_section/detail/VHSInfo.cpp", "src/chimp/interaction/cross_section/VHS.h", "src/chimp/interaction/cross_section/Constant.h", "src/chimp/interaction/cross_section/Inverse.h"]}
{"id": "C108", "title": "Deflection angles and viscosity", "statement": "Let chi be the angle between the relative velocity of two particles before and after a collision. With the elastic model cos chi is uniform on [-1,1], whatever the masses and velocities, so the diffusion cross section (mean of 1 - cos chi) is the cross section itself and the viscosity cross section (mean of 1 - cos^2 chi) two thirds of it. With the VSS model with parameter alpha and an exact power function, for pairs that do not move along the x axis, (1 + cos chi)/2 is distributed like the power 1/alpha of a uniform number, and the two means are 2/(alpha+1) and 4 alpha/((alpha+1)(alpha+2)). A gas of one species with the elastic model and a VHS cross section with 1/2 <= omega < 5/2 (omega is visc_T_law) has in the first Chapman-Enskog approximation the viscosity 15 sqrt(pi m k T_ref)/(2 value (5-2 omega)(7-2 omega)) (T/T_ref)^omega: the viscosity follows the power law that visc_T_law names, from below up to the fraction (omega-1/2)/(7/2-omega) tiny/(2kT) that the guard against division by zero adds.", "quantifier": "every mass, velocity, temperature, VHS and VSS parameter in the stated range and generator of independent uniform numbers", "why_tests_cant": "Laws of a random angle and an integral over all speeds; a test can only sample them.", "anchors": ["src/chimp/interaction/model/Elastic.h", "src/chimp/interaction/model/VSSElastic.h", "src/chimp/interaction/cross_section/VHS.h", "src/chimp/interaction/cross_section/detail/VHSInfo.h"]}
{"id": "C109", "title": "Heat flows from hot to cold", "statement": "Two particles that collide with the elastic model exchange, on average over the random direction, the energy mu V.g (mu reduced mass, V velocity of the centre of mass, g relative velocity), in every frame of reference: the first loses it and the second gains it. Hence for two species with thermal velocities of different temperatures about a common drift velocity, the energy gained by the first per unit rate of collisions is negative exactly if the first is hotter and positive exactly if it is colder, whatever the masses and the cross section, and its value is -m1 m2/(m1+m2)^2 (kT1-kT2)/(kT1/m1+kT2/m2) times the mean of sigma(v) v^3. For an inverse cross section k/v it is -2 m1 m2/(m1+m2)^2 k times the difference of the mean energies.", "quantifier": "every pair of masses, velocities, temperatures, drift, cross section with finite means and generator of independent uniform numbers", "why_tests_cant": "Means over all velocities and directions; a test can only sample them.", "anchors": ["src/chimp/interaction/model/Elastic.h", "src/chimp/interaction/Equation.h", "src/chimp/interaction/ReducedMass.h", "src/chimp/interaction/cross_section/Inverse.h"]}
{"id": "C110", "title": "Cross sections are read with their units", "statement": "A cross_section element loads exactly if it names a model of the library and each parameter of that model is written once, as an expression of the right dimension (value and A, B areas, T_ref a temperature, value_vref a volume per time, Lotz P an energy and so on); then the cross section has the values in SI units. A parameter that is missing, repeated or of another dimension is an error, and so is a threshold that is neither an energy nor a speed. Thresholds and the first column of tables may be given as energies or as the speeds that belong to them, with the same result; but a negative threshold speed counts as positive while a negative energy is refused. KineticEnergyChange is read if it is written once as an energy; if it is written twice it is ignored. A VHS cross section written by the Python module is read with its values; a Lotz cross section written by the Python module is not, because the element names differ.", "quantifier": "every element, parameter text and calculator, every reduced mass, threshold and table", "why_tests_cant": "All documents and all ways to write a value; a test covers a few elements.", "anchors": ["src/chimp/interaction/cross_section/detail/generic.cpp", "src/chimp/interaction/cross_section/detail/VHSInfo.cpp", "src/chimp/interaction/cross_section/detail/InverseInfo.cpp", "src/chimp/interaction/cross_section/detail/LogInfo.cpp", "src/chimp/interaction/cross_section/detail/LotzDetails.cpp", "src/chimp/interaction/cross_section/DATA.cpp", "src/chimp/interaction/cross_section/Constant.cpp", "src/chimp/interaction/model/detail/inelastic_helpers.cpp", "python/chimp/interaction/cross_section/__init__.py"]}
{"id": "C111", "title": "The law of mass action", "statement": "With independent uniform random numbers and random velocities for which sigma_j(v) v has the mean k for every pair of the species A and B, an out-of-place driver step performs equation j on average max(w_A, w_B) n_A n_B k dt / V times, counted over all pairs of the cell, and within one species w n^2 k dt / (2 V) times. The announced maximum speeds may depend on the velocities and do not matter, as long as they are not exceeded, findMaxSigmaV is a bound and the estimated number of tests is almost surely not an integer. For a gas in thermal equilibrium k is the rate coefficient of C107; in particular Arrhenius' law holds for a constant cross section with a threshold. With equal weights this is density times density times k, for each unit of volume and time.", "quantifier": "every cell, number of particles, distribution of velocities, set of equations, cross sections, weights, announced speeds and time step", "why_tests_cant": "A mean over all random numbers and all velocities of all particles; a test sees single runs.", "anchors": ["src/chimp/interaction/Driver.h", "src/chimp/interaction/Set.h", "src/chimp/interaction/Equation.h", "src/chimp/interaction/selectRandomPair.h"]}
{"id": "C112", "title": "From XML text to the equation in use", "statement": "If Equation::load accepts an Interaction element, then the element has exactly one cross_section, the equation has that cross section for the reduced mass of its two reactants, and the soft-sphere parameter or the declared energy is the number or energy written in the element. White space, comments, references and other unknown parts, and the order of the parts, change nothing. An interaction that the Python classes Interaction (same particles on both sides) or VSSInteraction write with a VHS cross section loads exactly if the texts of its value, reference temperature, exponent (and soft-sphere parameter) are an area, a temperature and numbers; the equation is then for the two named particles, lighter first, with Bird's VHS cross section for these values at every speed. Interactions written with only a VHS cross section never take kinetic energy, even if they are inelastic.", "quantifier": "every element, database, calculator, text and relative speed", "why_tests_cant": "All documents, units and databases; a test loads a few files.", "anchors": ["src/chimp/interaction/Equation.cpp", "src/chimp/interaction/cross_section/VHS.h", "src/chimp/interaction/cross_section/detail/VHSInfo.cpp", "src/chimp/interaction/model/VSSElastic.h", "src/chimp/interaction/model/InElastic.h", "python/chimp/interaction/__init__.py", "python/chimp/interaction/cross_section/__init__.py"]}
{"id": "C113", "title": "Friction between species", "statement": "Two particles that collide with the elastic model exchange, on average over the random direction, the momentum mu g (mu reduced mass, g relative velocity): the first loses it and the second gains it. With the VSS model it is 2k/(1+k) of that, where k is vss_param_inv (off the x axis). Hence for two species with any distribution of velocities the mean momentum that the first gains per unit rate of collisions is -mu times the mean of sigma(v) v g, and the second gains the opposite. With an inverse cross section k/v the friction is -k mu times the difference of the mean velocities, whatever the distributions. For species with thermal velocities, each with its own temperature and drift, the friction never points along the relative drift, and it is strictly against it if the cross section is positive and there is a drift.", "quantifier": "every pair of masses, velocities, distributions, temperatures, drifts, cross sections with finite means and generator of independent uniform numbers", "why_tests_cant": "Means over all velocities and directions; a test can only sample them.", "anchors": ["src/chimp/interaction/model/Elastic.h", "src/chimp/interaction/model/VSSElastic.h", "src/chimp/interaction/ReducedMass.h", "src/chimp/interaction/cross_section/Inverse.h"]}
{"id": "C114", "title": "The XPath queries select what is meant", "statement": "The text of the queries that EqIO, Elastic and Label put together, and of the query for the interactions of two species, is the notation of an XPath expression which, evaluated on the whole document, selects exactly what the names promise. For two species: the Interaction elements, at any depth, with a cross_section, an equation with these reactants and as many terms, and products that are all known. For EqIO, Elastic and Label: the elements whose side has the terms, whose sides have the same text, whose attribute model is the label. For interactions with one equation this is the set of nodes that the theorems on filters (C06, C17 to C24) and on the table (C05, C07 to C09) are about, in document order, sections included, and loading a selected element gives the equation that the theorems on whole databases are about. An interaction with two equations can be selected although neither has the reactants and known products.", "quantifier": "every document tree, position, set of terms, label, list of species, and conversion of text to numbers", "why_tests_cant": "A test has one document and one query; the claim is about all trees, at any depth, and every query that can be built.", "anchors": ["src/chimp/interaction/filter/EqIO.h", "src/chimp/interaction/filter/Elastic.h", "src/chimp/interaction/filter/Label.h", "src/chimp/interaction/filter/Section.h", "src/chimp/interaction/filter/Base.h", "src/chimp/RuntimeDB.cpp", "src/chimp/interaction/Equation.cpp"]}
{"id": "C115", "title": "A database filled from a document", "statement": "Adding a species by name succeeds exactly if the document has one Particle element of this name, at any depth, whose mass, charge and polarizability, where given, are quantities of these dimensions; missing ones are zero. After adding a list of names, every name is there once, nothing is lost, and everything new is described by an element of the document. initBinaryInteractions then sorts the species by mass and name and leaves in the entry for two species, behind what was there, the equations loaded from exactly the Interaction elements with these reactants, known products and a cross section that the filter keeps, in document order. It throws exactly if one of these elements cannot be loaded. The table is the one that the theorems on databases in use (C79 to C82) are about.", "quantifier": "every document tree with one equation per interaction, list of names, filter, table left from before, and calculator for the texts", "why_tests_cant": "A test has one document; the claim joins the XML queries, the filters and the loading of equations for all documents.", "anchors": ["src/chimp/RuntimeDB.cpp", "src/chimp/RuntimeDB.h", "src/chimp/property/define.h", "src/chimp/property/detail/check.h", "src/chimp/property/DefaultSet.h", "src/chimp/interaction/filter/Base.h", "src/chimp/interaction/Equation.cpp"]}
{"id": "C116", "title": "A model read from a document", "statement": "An element of the document is read as a filter exactly if it has a meaning, and then as this filter: the names of the eight filters, two operands of And, Or and Not, at most one of Section, dir and terms of EqIO with a number that may be left out, text between elements ignored. Every filter can be written and is read back. After addModel every species listed in the model elements of this name is there, nothing is lost, everything new is listed and described by a Particle element, and the filter is what the only equation-filter means; it throws only if a listed species cannot be added, if there is not exactly one equation-filter, or if this has no meaning. After initBinaryInteractions on a new database with this model, the species are exactly those listed, and the entry for two of them holds the equations loaded from exactly the Interaction elements between them that the filter described in the model keeps.", "quantifier": "every document tree, model name, nesting of filters, conversion of text to integers, and way of stripping names", "why_tests_cant": "A test has one document with one model; the claim is about all nestings of filters and all documents.", "anchors": ["src/chimp/RuntimeDB.cpp", "src/chimp/interaction/filter/Base.h", "src/chimp/interaction/filter/Base.cpp", "src/chimp/interaction/filter/EqIO.h", "src/chimp/interaction/filter/And.h", "src/chimp/interaction/filter/Or.h", "src/chimp/interaction/filter/Not.h", "src/chimp/interaction/filter/Section.h", "src/chimp/interaction/filter/Label.h"]}
{"id": "C117", "title": "The masses that the Python module uses", "statement": "getMass and getCharge of the Python module give, for every species that the library adds by name from the same document, the number that the library has, if the property is written as plain text; the names with double colons of the C++ calculator become names with dots. If the property is not written, the library has zero and Python throws. So an elastic interaction that Python writes, for species of a document with positive masses in plain text, loads in every database with this document, for the two particles that were named. A species with two Particle elements is not added by the library, while Python takes the first; of a mass with an element inside Python takes what is before the element.", "quantifier": "every document tree, list of names, dictionaries of reactants and products, and pair of calculators that agree", "why_tests_cant": "The two programs are tested apart, if at all; the claim is about the agreement of both on all documents.", "anchors": ["python/chimp/property/__init__.py", "python/chimp/interaction/__init__.py", "src/chimp/RuntimeDB.cpp", "src/chimp/property/define.h", "src/chimp/interaction/Equation.cpp"]}
{"id": "C118", "title": "From a document to conserved quantities of a simulation", "statement": "A database made from a document by adding one of its models and initialising holds exactly the equations loaded from the Interaction elements that are wanted for two of the species and that the filter described in the model keeps, and is one of the databases reached by histories of public calls. A new database to which species are only added by name holds those in which both sides of the equation have the same text. If all elements that the model keeps are elastic, every run of the collision driver that returns keeps the sum of every function of species, such as mass and charge, the momentum and the kinetic energy. With other elements mass, charge and momentum are kept if the elements kept by the model balance them.", "quantifier": "every document tree, model, set of particles, random generator and completed run", "why_tests_cant": "Joins the reading of the document to the result of a simulation, for all documents and all sequences of random numbers.", "anchors": ["src/chimp/RuntimeDB.cpp", "src/chimp/interaction/Set.h", "src/chimp/interaction/Driver.h", "src/chimp/interaction/model/Elastic.h"]}
{"id": "C119", "title": "Simulations of elastic models finish", "statement": "Take a model of a document whose kept interactions are elastic and have cross sections that are finite at all speeds, such as spheres of constant size, variable hard spheres with positive area and temperature and an exponent below 5/2, inverse laws with a positive threshold, Lotz shells without exponential correction, and tables that end with zero. If addModel and initBinaryInteractions return, then with a valid and fair generator and at least one particle of each species a run of the driver returns; every interaction performed belongs to an element of the document kept by the model, between particles of its two species, at a speed with positive cross section and with its threshold energy; and mass, charge, momentum and kinetic energy are conserved. The same is true of simulations of any number of steps in any number of cells with any motion that keeps velocities, in which cells may lack species; the number of particles does not change. Simulations of models with any kinds of interactions end as well, if the cross sections are finite at all speeds; no call for a cross section or its maximum fails, and at the end all particles are of species listed in the model. Elastic and VSS collisions always have a result; that inelastic ones have is the subject of C72. No hypothesis is made on the run.", "quantifier": "every document tree, model, set of particles with each species present, and valid and fair random generator", "why_tests_cant": "Finishing depends on all draws of the generator, and the claim is about all documents.", "anchors": ["src/chimp/RuntimeDB.cpp", "src/chimp/interaction/Driver.h", "src/chimp/interaction/selectRandomPair.h", "src/chimp/interaction/cross_section/VHS.h", "src/chimp/interaction/model/Elastic.h"]}
