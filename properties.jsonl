{"id": "C01", "title": "Decomposition path counts are the Catalan numbers", "statement": "InterfaceReactionHull.count(n) returns, for every n >= 0, the number of distinct ways in which an interface with n intermediate hull vertices can decompose step by step into its end members (the number of binary trees with n internal nodes), whether n falls in the built-in table or in the recursive branch, and the recursive branch never indexes its cache out of range.", "quantifier": "every natural number n", "why_tests_cant": "Tests sample seven values of n; table and recursion must agree with the counting definition for all n, including the switch-over at the table's end.", "anchors": ["src/rxn_network/reactions/hull.py: InterfaceReactionHull.count", "src/rxn_network/reactions/hull.py: InterfaceReactionHull._count_recursive"]}
{"id": "C02", "title": "Closed-form decomposition energy equals the sum over all decomposition trees", "statement": "get_decomposition_energy(x1,x2) equals the sum, over every binary decomposition tree of the hull coordinates in the range [x1,x2] (the interval ends and the vertices strictly between them), of the altitudes of all steps of that tree, where the altitude is the vertical distance of the chosen vertex from the line joining the ends of its interval.", "quantifier": "every finite list of hull coordinates and every altitude function", "why_tests_cant": "The claim is an identity between a closed combinatorial formula and an exponential-size sum; tests only compare one ten-vertex hull.", "anchors": ["src/rxn_network/reactions/hull.py: get_decomposition_energy", "src/rxn_network/reactions/hull.py: get_decomposition_energy_and_num_paths_recursive", "src/rxn_network/reactions/hull.py: _altitude_multiplicity"]}
{"id": "C03", "title": "Secondary competition is non-negative on a convex hull", "statement": "On a lower convex hull every decomposition step releases energy: each altitude is <= 0, hence get_decomposition_energy(...) <= 0, get_max_decomposition_energy(...) <= 0 and the secondary competition of every reaction on the hull is >= 0. (For coordinates that np.isclose does not take for the coordinate of a different hull vertex; otherwise the claim fails.)", "quantifier": "every strictly increasing sequence of hull coordinates with convex energies", "why_tests_cant": "Sign claim over all hull geometries; a unit test checks finitely many reactions.", "anchors": ["src/rxn_network/reactions/hull.py: get_secondary_competition", "src/rxn_network/reactions/hull.py: get_max_decomposition_energy", "src/rxn_network/reactions/hull.py: _calculate_altitude"]}
{"id": "C04", "title": "Degenerate intervals: a reaction at an end member has a well-defined path count", "statement": "When the interval to the left or right of a reaction contains a single coordinate, the number of decomposition paths used by get_decomposition_energy / get_secondary_competition is 1, consistently with the recursive variant, with or without normalization.", "quantifier": "every hull and every reaction located at x=0 or x=1", "why_tests_cant": "Only arises for reactions at the boundary with zero energy; the suite has no such unnormalized case.", "anchors": ["src/rxn_network/reactions/hull.py: count", "src/rxn_network/reactions/hull.py: get_secondary_competition", "src/rxn_network/reactions/hull.py: get_coords_in_range"]}
{"id": "C05", "title": "Lever rule for interface reactions", "statement": "For every x in [0,1], get_reactions_by_coordinate(x) succeeds and returns hull-vertex reactions with weights that are non-negative and sum to one; their weighted coordinates reproduce x exactly, except that x is snapped to a vertex within the np.isclose tolerance; when x is a vertex it returns just that vertex with weight one; get_hull_energy(x) is the corresponding convex combination of vertex energies.", "quantifier": "every sorted list of hull vertices and every x in [0,1]", "why_tests_cant": "Continuous domain of x and arbitrary hulls.", "anchors": ["src/rxn_network/reactions/hull.py: get_reactions_by_coordinate", "src/rxn_network/reactions/hull.py: get_hull_energy"]}
{"id": "C06", "title": "Primary competition compares against exactly the reactions at other coordinates", "statement": "get_primary_competition(rxn) equals energy_per_atom(rxn) minus the least energy_per_atom among all hull reactions located at a different interface coordinate (including the two zero-energy end members): no such reaction is overlooked and none at the same coordinate is used.", "quantifier": "every finite list of reactions with coordinates, every member reaction", "why_tests_cant": "Relies on sortedness and index slicing; must hold for all duplicates patterns.", "anchors": ["src/rxn_network/reactions/hull.py: get_primary_competition", "src/rxn_network/reactions/hull.py: __init__"]}
{"id": "C07", "title": "Stable/unstable reactions partition the hull's reactions", "statement": "stable_reactions and unstable_reactions are disjoint and together list every reaction exactly once; get_energy_above_hull is >= 0 for every reaction of the hull and is zero for every stable one. (The energies: for reactions whose coordinate np.isclose does not take for that of a different hull vertex; otherwise the claim fails.)", "quantifier": "every set of interface reactions and every lower hull of it", "why_tests_cant": "Universal geometric claim; suite checks one system.", "anchors": ["src/rxn_network/reactions/hull.py: stable_reactions", "src/rxn_network/reactions/hull.py: unstable_reactions", "src/rxn_network/reactions/hull.py: get_energy_above_hull"]}
{"id": "C08", "title": "Interface coordinate is the mixing fraction of the second reactant", "statement": "get_coordinate(rxn) lies in [0,1]; it is 0 iff only the first reactant is consumed and 1 iff only the second is; it does not change when the reaction is rescaled by a positive factor.", "quantifier": "every reaction and every positive scaling factor", "why_tests_cant": "All real coefficients.", "anchors": ["src/rxn_network/reactions/hull.py: get_coordinate", "src/rxn_network/reactions/hull.py: get_x_coordinate"]}
{"id": "C09", "title": "The balanced flag means conservation of every element", "statement": "For a reaction built from compositions and coefficients with pairwise distinct compositions, `balanced` is True iff for every element the amount consumed equals the amount produced within the fixed tolerance.", "quantifier": "all composition lists, coefficient lists and elements", "why_tests_cant": "Universal over chemistries; also must cover the error/duplicate branches.", "anchors": ["src/rxn_network/reactions/basic.py: BasicReaction.__init__"]}
{"id": "C10", "title": "Automatic balancing is sound", "statement": "Whenever balance() reports a finite number of errors, the returned coefficients conserve every element within numpy's allclose tolerance; when it reports zero errors, every stated reactant has a strictly negative and every stated product a strictly positive coefficient, of magnitude at least the tolerance. This holds for whatever the numerical pseudo-inverse returns. The reported count is the number of phases that vanish or change sides, and no conserving candidate that was tried has fewer; the entries of a computed reaction keep the stated order and sides.", "quantifier": "all reactant/product lists and all outputs of the linear-algebra backend", "why_tests_cant": "Backend numerical behaviour is arbitrary; tests sample ~20 reactions.", "anchors": ["src/rxn_network/reactions/basic.py: BasicReaction.balance", "src/rxn_network/reactions/basic.py: BasicReaction._balance_coeffs"]}
{"id": "C11", "title": "Automatic balancing is complete for uniquely balanceable reactions", "statement": "If the given reactants and products admit a balanced reaction with all stated signs that is unique up to scaling, then balance() reports zero errors and returns a positive multiple of it.", "quantifier": "all compositions with a one-dimensional solution space", "why_tests_cant": "Quantifies over all chemistries.", "anchors": ["src/rxn_network/reactions/basic.py: BasicReaction._balance_coeffs"]}
{"id": "C12", "title": "A failed balancing attempt is recognisable", "statement": "If no balanced reaction was found, the returned reaction reports balanced == False (so that PathwaySolver.solve rejects it and enumerators drop it).", "quantifier": "all unbalanceable inputs, for BasicReaction.balance and ComputedReaction.balance", "why_tests_cant": "The failure branch depends on all inputs for which the solver fails.", "anchors": ["src/rxn_network/reactions/basic.py: BasicReaction.balance", "src/rxn_network/reactions/computed.py: ComputedReaction.balance", "src/rxn_network/pathways/solver.py: PathwaySolver.solve"]}
{"id": "C13", "title": "Reversal is an involution that swaps sides and negates energy", "statement": "reverse().reverse() has the same compositions, coefficients and flags; reverse() exchanges reactants and products, preserves `balanced`, and negates energy and (for reactions of different compositions that conserve every element) energy_per_atom.", "quantifier": "every reaction", "why_tests_cant": "Algebraic law over all reactions.", "anchors": ["src/rxn_network/reactions/basic.py: BasicReaction.reverse", "src/rxn_network/reactions/computed.py: ComputedReaction.reverse"]}
{"id": "C14", "title": "Normalization rescales by one positive factor", "statement": "normalize_to(comp, factor) multiplies every coefficient by one common positive number such that |coefficient of comp| = factor; sides, balance and energy_per_atom are unchanged. normalize_to_element makes the element amount equal to factor.", "quantifier": "every reaction, composition in it and factor > 0", "why_tests_cant": "Algebraic law over reals.", "anchors": ["src/rxn_network/reactions/basic.py: BasicReaction.normalize_to", "src/rxn_network/reactions/basic.py: BasicReaction.normalize_to_element"]}
{"id": "C15", "title": "Fractions are a probability distribution", "statement": "reactant/product molar fractions are positive and sum to 1; for balanced reactions reactant/product atomic fractions are positive and sum to 1; for reactions with open elements the same holds with open-element atoms excluded.", "quantifier": "every (balanced) reaction and set of open elements", "why_tests_cant": "All chemistries.", "anchors": ["src/rxn_network/reactions/basic.py: reactant_atomic_fractions", "src/rxn_network/reactions/basic.py: product_atomic_fractions", "src/rxn_network/reactions/basic.py: reactant_molar_fractions", "src/rxn_network/reactions/open.py: OpenComputedReaction.product_atomic_fractions"]}
{"id": "C16", "title": "Reaction equality identifies only equal reactions and respects hashing", "statement": "Two reactions compare equal only if each composition has the same coefficient (within tolerance) in both, and equal reactions have equal hashes, so sets and dictionaries of reactions neither merge different reactions nor keep two equal ones.", "quantifier": "all pairs of reactions", "why_tests_cant": "A pairwise universal property.", "anchors": ["src/rxn_network/reactions/basic.py: BasicReaction.__eq__", "src/rxn_network/reactions/basic.py: BasicReaction.__hash__"]}
{"id": "C17", "title": "Energy per atom is scale invariant", "statement": "energy_per_atom of a computed reaction is unchanged when all coefficients are multiplied by the same positive factor, and does not depend on which balanced side is used to count atoms.", "quantifier": "every computed reaction and positive factor", "why_tests_cant": "Real-valued law.", "anchors": ["src/rxn_network/reactions/computed.py: ComputedReaction.energy", "src/rxn_network/reactions/computed.py: ComputedReaction.energy_per_atom", "src/rxn_network/reactions/basic.py: num_atoms"]}
{"id": "C18", "title": "is_separable means: target made, every other product soluble/gaseous by-product", "statement": "is_separable(target) returns True exactly when every other product is a common gas or matches the salt criterion stated in the documentation, raises a documented ValueError when the target is not a product, and never fails otherwise.", "quantifier": "every reaction and target", "why_tests_cant": "Decision logic over all inputs.", "anchors": ["src/rxn_network/reactions/basic.py: BasicReaction.is_separable"]}
{"id": "C19", "title": "Open-element reaction energy is the grand-potential change", "statement": "The energy of an open reaction equals the closed reaction energy minus the sum over open elements of chemical potential times net change in that element's amount over the non-open phases; for fixed entries it is affine in the chemical potential with slope minus the net uptake.", "quantifier": "all reactions, open elements and chemical potentials", "why_tests_cant": "Real-valued law.", "anchors": ["src/rxn_network/reactions/open.py: OpenComputedReaction.energy", "src/rxn_network/reactions/open.py: OpenComputedReaction"]}
{"id": "C20", "title": "ReactionSet storage is lossless", "statement": "ReactionSet.from_rxns(rxns).get_rxns() yields every input reaction exactly once, with the same entries, coefficients and data, ordered by group of equal size and by input order within each group. When all reactions are closed, or all share one open element and chemical potential, the chemical potentials are preserved too; otherwise all yielded reactions carry the set-wide potential.", "quantifier": "every finite list of reactions over entries with distinct identifiers", "why_tests_cant": "Structural identity over all lists.", "anchors": ["src/rxn_network/reactions/reaction_set.py: ReactionSet.from_rxns", "src/rxn_network/reactions/reaction_set.py: ReactionSet.get_rxns"]}
{"id": "C21", "title": "len() of a reaction set is the number of reactions it yields", "statement": "len(rxn_set) equals the number of reactions produced by iterating over it, for sets constructed with or without per-reaction data.", "quantifier": "every reaction set", "why_tests_cant": "All construction paths.", "anchors": ["src/rxn_network/reactions/reaction_set.py: ReactionSet.__init__", "src/rxn_network/reactions/reaction_set.py: ReactionSet.__len__", "src/rxn_network/reactions/reaction_set.py: ReactionSet.get_rxns"]}
{"id": "C22", "title": "Merging reaction sets is multiset union", "statement": "add_rxn_set yields exactly the reactions of both operands (with multiplicity), leaves both operands unchanged, is associative and commutative up to order, and rejects operands with different entries.", "quantifier": "all pairs/triples of reaction sets", "why_tests_cant": "Algebraic law.", "anchors": ["src/rxn_network/reactions/reaction_set.py: ReactionSet.add_rxn_set", "src/rxn_network/reactions/reaction_set.py: ReactionSet.add_rxns"]}
{"id": "C23", "title": "Query by reactants is exact", "statement": "get_rxns_by_reactants(R) yields exactly the stored reactions all of whose reactants are in R.", "quantifier": "every reaction set and reactant list", "why_tests_cant": "Universal set equality.", "anchors": ["src/rxn_network/reactions/reaction_set.py: ReactionSet.get_rxns_by_reactants"]}
{"id": "C24", "title": "Query by product is exact", "statement": "get_rxns_by_product(f) yields exactly the stored reactions that have an entry with reduced formula f among their products.", "quantifier": "every reaction set and formula", "why_tests_cant": "Universal set equality; position of the entry in the list must not matter.", "anchors": ["src/rxn_network/reactions/reaction_set.py: ReactionSet.get_rxns_by_product"]}
{"id": "C25", "title": "Duplicate filtering keeps exactly one representative per reaction", "statement": "filter_duplicates() never drops a reaction without keeping one that is a positive multiple of it, never keeps two reactions that are positive multiples of each other, keeps a smallest-coefficient representative, never merges a reaction with its reverse, and is idempotent; reactions listed in ensure_rxns are kept.", "quantifier": "every reaction set", "why_tests_cant": "Universal over all coefficient arrays.", "anchors": ["src/rxn_network/reactions/reaction_set.py: ReactionSet.filter_duplicates", "src/rxn_network/reactions/reaction_set.py: ReactionSet._get_idxs_to_keep", "src/rxn_network/reactions/reaction_set.py: _process_duplicates"]}
{"id": "C26", "title": "Parallel duplicate filtering does not depend on the schedule", "statement": "For every number of workers, chunking and completion order, filter_duplicates with parallelize=True keeps the same reactions as the serial computation.", "quantifier": "every chunk size, number of CPUs and completion schedule", "why_tests_cant": "Schedules cannot be enumerated by tests.", "anchors": ["src/rxn_network/reactions/reaction_set.py: ReactionSet.filter_duplicates", "src/rxn_network/utils/funcs.py: grouper", "src/rxn_network/utils/ray.py: to_iterator"]}
{"id": "C27", "title": "Changing temperature keeps each reaction's phases", "statement": "set_new_temperature(T) returns a set with the same number of reactions in which each reaction uses, for each of its entries, that entry re-evaluated at T (polymorphs are not confused).", "quantifier": "every reaction set and temperature", "why_tests_cant": "All entry sets, including those with polymorphs.", "anchors": ["src/rxn_network/reactions/reaction_set.py: ReactionSet.set_new_temperature"]}
{"id": "C28", "title": "Pareto front is exactly the set of non-dominated points", "statement": "get_pareto_front(df, metrics) (minimizing) returns a row iff no other row is at least as good in all metrics and better in one, keeping the first of several identical rows; the result does not change when applied twice. Every row left out is matched by a returned row that is at least as good in every metric, so any non-negatively weighted sum of the metrics has its minimum on the front. The returned metric values do not depend on the order of the rows, and reducing a table in parts gives the same values.", "quantifier": "every finite table and number of metrics", "why_tests_cant": "The pruning loop must be correct for all tables.", "anchors": ["src/rxn_network/costs/pareto.py: get_pareto_front", "src/rxn_network/costs/pareto.py: _is_pareto_efficient"]}
{"id": "C29", "title": "Pareto front with maximize=True maximizes every metric", "statement": "get_pareto_front(df, metrics, maximize=True) returns the rows that are non-dominated when larger values are better in every listed metric.", "quantifier": "every finite table", "why_tests_cant": "Universal.", "anchors": ["src/rxn_network/costs/pareto.py: get_pareto_front"]}
{"id": "C30", "title": "limited_powerset enumerates each non-empty bounded subset once", "statement": "limited_powerset(xs, n) yields every non-empty sub-collection of at most n items of xs exactly once, by increasing size.", "quantifier": "all sequences and bounds", "why_tests_cant": "Universal.", "anchors": ["src/rxn_network/utils/funcs.py: limited_powerset"]}
{"id": "C31", "title": "grouper loses and duplicates nothing", "statement": "Concatenating the chunks of grouper(xs, n) and dropping fill values gives xs; every chunk has exactly n items and only the last contains fill values.", "quantifier": "all sequences and n >= 1", "why_tests_cant": "Universal.", "anchors": ["src/rxn_network/utils/funcs.py: grouper"]}
{"id": "C32", "title": "to_iterator yields every task result exactly once under any schedule", "statement": "For every order in which remote tasks complete, iterating over to_iterator(refs) yields each task's result exactly once and terminates.", "quantifier": "all finite task lists and all completion schedules", "why_tests_cant": "Nondeterministic schedules.", "anchors": ["src/rxn_network/utils/ray.py: to_iterator"]}
{"id": "C33", "title": "Enumeration work distribution is lossless", "statement": "Splitting the candidate pairs into chunks covers every (pair, phase diagram) exactly once and in order, no chunk exceeds chunk_size, and no more chunks than necessary are created.", "quantifier": "all candidate iterables and chunk sizes", "why_tests_cant": "Universal, loop-carried state.", "anchors": ["src/rxn_network/enumerators/basic.py: BasicEnumerator.enumerate"]}
{"id": "C34", "title": "Enumerated reactions satisfy the user's constraints", "statement": "Every reaction returned by an enumerator is balanced (if requested), is not an identity, was balanced without errors and within the constraint limit, uses only allowed precursors (exclusive) or at least one (non-exclusive), and makes only / at least one target accordingly.", "quantifier": "all entry sets, settings and backends", "why_tests_cant": "Universal.", "anchors": ["src/rxn_network/enumerators/basic.py: BasicEnumerator._react_function", "src/rxn_network/enumerators/basic.py: _react"]}
{"id": "C35", "title": "Chemical-system grouping loses no balanced reaction", "statement": "Any balanced reaction between two disjoint non-empty phase combinations of at most n phases is among the candidate pairs considered by the enumerator (before user filters), exactly once as an unordered pair, because both sides span the same elements.", "quantifier": "all entry sets and n", "why_tests_cant": "Universal completeness claim.", "anchors": ["src/rxn_network/enumerators/basic.py: BasicEnumerator._get_combos_dict", "src/rxn_network/enumerators/utils.py: group_by_chemsys"]}
{"id": "C36", "title": "User filters applied early never discard an admissible reaction", "statement": "The early filters on combinations and chemical systems (precursors, targets, exclusivity) only remove candidate pairs that could not produce a reaction accepted by the final filter.", "quantifier": "all precursor/target sets and phase combinations", "why_tests_cant": "Universal relation between two filters.", "anchors": ["src/rxn_network/enumerators/basic.py: _filter_dict_by_elems", "src/rxn_network/enumerators/basic.py: _react"]}
{"id": "C37", "title": "Cached views of an entry set are always current", "statement": "After any history of add/update/discard/remove and reads, min_entries_by_formula, entries_list, chemsys, pd_dict and the other cached attributes equal what a freshly built entry set with the same entries would return.", "quantifier": "every finite history of operations", "why_tests_cant": "Histories are unbounded.", "anchors": ["src/rxn_network/entries/entry_set.py: GibbsEntrySet.add", "src/rxn_network/entries/entry_set.py: GibbsEntrySet.update", "src/rxn_network/entries/entry_set.py: GibbsEntrySet.discard", "src/rxn_network/entries/entry_set.py: GibbsEntrySet._clear_cache"]}
{"id": "C38", "title": "Minimum-energy lookup is minimal", "statement": "get_min_entry_by_formula(f) returns an entry of the set with that reduced formula and no other such entry has lower energy per atom; it raises KeyError iff there is none.", "quantifier": "every entry set and formula", "why_tests_cant": "Universal.", "anchors": ["src/rxn_network/entries/entry_set.py: GibbsEntrySet.get_min_entry_by_formula", "src/rxn_network/entries/entry_set.py: min_entries_by_formula"]}
{"id": "C39", "title": "Stability filter", "statement": "filter_by_stability(cut) returns entries of the set with energy above hull <= cut; without polymorphs it has exactly one entry per reduced formula having any admissible entry, and that one is of minimal energy per atom among them; the result does not depend on the iteration order of entries or phase diagrams when energies are distinct.", "quantifier": "every entry set, cutoff and iteration order", "why_tests_cant": "Universal, order-dependent loop with removals.", "anchors": ["src/rxn_network/entries/entry_set.py: GibbsEntrySet.filter_by_stability"]}
{"id": "C40", "title": "Chemical-system subset is exact", "statement": "get_subset_in_chemsys(chemsys) contains exactly the entries whose elements all belong to chemsys and rejects systems with elements outside the set.", "quantifier": "every entry set and chemsys", "why_tests_cant": "Universal.", "anchors": ["src/rxn_network/entries/entry_set.py: GibbsEntrySet.get_subset_in_chemsys"]}
{"id": "C41", "title": "Stabilizing an entry puts it on or below the hull", "statement": "get_stabilized_entry(e, tol) returns an entry of the same composition whose energy is lower by exactly the energy above hull plus the tolerance (times atoms), so that it is at or below the hull; entries already on the hull are unchanged unless forced; the enumerators' stabilization helper lowers metastable entries onto the hull.", "quantifier": "every entry set, entry and tolerance", "why_tests_cant": "Universal arithmetic.", "anchors": ["src/rxn_network/entries/entry_set.py: GibbsEntrySet.get_stabilized_entry", "src/rxn_network/enumerators/utils.py: stabilize_entries"]}
{"id": "C42", "title": "Temperature changes are path independent", "statement": "For every sequence of temperatures, converting an entry through get_new_temperature step by step gives the same energy as converting the original entry to the last temperature directly; corrections are replaced, never accumulated; temperatures outside the supported range are rejected.", "quantifier": "all finite temperature histories", "why_tests_cant": "Histories.", "anchors": ["src/rxn_network/entries/gibbs.py: GibbsComputedEntry.get_new_temperature", "src/rxn_network/entries/gibbs.py: GibbsComputedEntry.__init__"]}
{"id": "C43", "title": "Tabulated energies are interpolated between neighbouring points", "statement": "For a temperature between two tabulated points the tabulated-data energy is the linear interpolant, hence lies between the two table values, equals the table at its nodes and is continuous; integer and floating-point spellings of the same temperature give the same result.", "quantifier": "every temperature in range", "why_tests_cant": "Continuous domain.", "anchors": ["src/rxn_network/entries/experimental.py: ExperimentalReferenceEntry._get_energy", "src/rxn_network/entries/gibbs.py: GibbsComputedEntry._sum_g_i"]}
{"id": "C44", "title": "Phase-diagram expansion covers all entries with no redundancy", "statement": "expand_pd(entries) returns phase diagrams such that every entry's elements lie inside some diagram's chemical system, no diagram's system is contained in another's, and each diagram contains exactly the entries inside its system.", "quantifier": "every entry collection", "why_tests_cant": "Universal.", "anchors": ["src/rxn_network/thermo/utils.py: expand_pd"]}
{"id": "C45", "title": "Chemical-potential queries do not alter the diagram", "statement": "Computing a metastable domain (successfully or not) leaves the diagram's set of entries unchanged, so later queries give the same answers in any order.", "quantifier": "every sequence of queries and every failure point", "why_tests_cant": "Histories and failure points.", "anchors": ["src/rxn_network/thermo/chempot_diagram.py: ChemicalPotentialDiagram._get_metastable_domain"]}
{"id": "C46", "title": "Domain distance is symmetric and minimal", "statement": "shortest_domain_distance(f1,f2) = shortest_domain_distance(f2,f1) >= 0, it is attained by a pair of domain points and no pair is closer.", "quantifier": "all finite domains", "why_tests_cant": "Universal.", "anchors": ["src/rxn_network/thermo/chempot_diagram.py: ChemicalPotentialDiagram.shortest_domain_distance"]}
{"id": "C47", "title": "Network construction represents every reaction exactly once", "statement": "ReactionNetwork.build() creates one node per distinct reactant set and product set, one edge per reaction from its reactant node to its product node carrying that reaction and its cost, and a zero-cost edge from each product node to the reactant node with the same phases, and nothing else.", "quantifier": "every reaction set and cost function", "why_tests_cant": "Universal.", "anchors": ["src/rxn_network/network/network.py: ReactionNetwork.build", "src/rxn_network/network/network.py: get_rxn_nodes_and_edges", "src/rxn_network/network/network.py: get_loopback_edges"]}
{"id": "C48", "title": "Setting precursors is history independent", "statement": "After any sequence of set_precursors calls, the graph is the one obtained by setting only the last precursors on the freshly built network (no references to previous precursors remain).", "quantifier": "all histories of precursor sets", "why_tests_cant": "Histories.", "anchors": ["src/rxn_network/network/network.py: ReactionNetwork.set_precursors"]}
{"id": "C49", "title": "Setting the target is history independent", "statement": "After any sequence of set_target calls, the graph equals that obtained by setting only the last target: one target node, with zero-cost edges from exactly the product nodes containing it; a rejected call leaves the graph unchanged.", "quantifier": "all histories of targets", "why_tests_cant": "Histories.", "anchors": ["src/rxn_network/network/network.py: ReactionNetwork.set_target"]}
{"id": "C50", "title": "Network graph serialization round-trips", "statement": "Graph.from_dict(graph.as_dict()) has the same nodes and the same weighted edges (up to renumbering), including after nodes were removed.", "quantifier": "every graph reachable by node/edge insertions and removals", "why_tests_cant": "All removal patterns.", "anchors": ["src/rxn_network/network/base.py: Graph.as_dict", "src/rxn_network/network/base.py: Graph.from_dict"]}
{"id": "C51", "title": "k-shortest paths are genuine, distinct paths and the first is optimal", "statement": "Every path returned by the k-shortest-path search starts at the precursors, ends at the target and uses only edges of the network; paths are pairwise distinct and at most max(k,1) many; the first has minimal cost; the graph is left unchanged.", "quantifier": "every graph with non-negative costs and every k", "why_tests_cant": "Universal over graphs.", "anchors": ["src/rxn_network/network/network.py: yens_ksp"]}
{"id": "C52", "title": "k-shortest paths are the k cheapest simple paths in order", "statement": "The paths returned are loop-free, sorted by cost, and no loop-free path outside the result is cheaper than one inside.", "quantifier": "every graph with non-negative costs and every k", "why_tests_cant": "Universal over graphs.", "anchors": ["src/rxn_network/network/network.py: yens_ksp"]}
{"id": "C53", "title": "Pathway cost equals the cost of its graph path", "statement": "The reactions extracted from a graph path are exactly those on its reaction edges, in order, and the summed pathway cost equals the sum of edge weights along the path.", "quantifier": "every path of the network", "why_tests_cant": "Universal.", "anchors": ["src/rxn_network/network/network.py: _path_from_graph"]}
{"id": "C54", "title": "A pathway not flagged as interdependent can be carried out step by step", "statement": "If contains_interdependent_rxns(precursors) is False for a pathway in which every non-precursor reactant is produced by another reaction of the pathway, then its reactions can be ordered so that every reactant is a precursor or was produced earlier.", "quantifier": "every finite pathway and precursor set", "why_tests_cant": "Universal combinatorial claim.", "anchors": ["src/rxn_network/pathways/balanced.py: BalancedPathway.contains_interdependent_rxns"]}
{"id": "C55", "title": "A sequentially executable pathway is never rejected as interdependent", "statement": "If a pathway's reactions can be ordered so that every reactant is a precursor or was produced earlier, contains_interdependent_rxns(precursors) is False.", "quantifier": "every finite pathway and precursor set", "why_tests_cant": "Universal combinatorial claim.", "anchors": ["src/rxn_network/pathways/balanced.py: BalancedPathway.contains_interdependent_rxns"]}
{"id": "C56", "title": "Balanced pathways really sum to the net reaction", "statement": "For every pathway returned by the solver, the multiplicities are all at least the tolerance (strictly positive) and the weighted sum of its reactions equals the net reaction within tolerance, whatever the pseudo-inverse returned.", "quantifier": "all reaction combinations and backend outputs", "why_tests_cant": "Universal.", "anchors": ["src/rxn_network/pathways/solver.py: _balance_path_arrays_cpu", "src/rxn_network/pathways/balanced.py: BalancedPathway.balance"]}
{"id": "C57", "title": "No balanceable combination is missed", "statement": "If a combination of at most max_num_combos candidate reactions admits a unique strictly positive (>= tolerance) exact solution, the combination is enumerated and returned by the solver.", "quantifier": "all reaction sets", "why_tests_cant": "Universal completeness.", "anchors": ["src/rxn_network/pathways/solver.py: PathwaySolver.solve", "src/rxn_network/pathways/solver.py: _create_comp_matrices", "src/rxn_network/pathways/solver.py: _balance_path_arrays_cpu"]}
{"id": "C58", "title": "Pathway equality compares whole pathways", "statement": "Two pathways compare equal only if they consist of the same reactions; equality is transitive.", "quantifier": "all pairs/triples of pathways", "why_tests_cant": "Universal.", "anchors": ["src/rxn_network/pathways/basic.py: BasicPathway.__eq__", "src/rxn_network/pathways/balanced.py: BalancedPathway.__eq__"]}
{"id": "C59", "title": "PathwaySet storage is lossless", "statement": "PathwaySet.from_paths(paths).paths gives back the same pathways: same reactions, coefficients, costs and balanced flags, in order.", "quantifier": "every list of pathways", "why_tests_cant": "Universal.", "anchors": ["src/rxn_network/pathways/pathway_set.py: PathwaySet.from_paths", "src/rxn_network/pathways/pathway_set.py: PathwaySet.get_paths"]}
{"id": "C60", "title": "Pathway compositions are partitioned into reactants, intermediates, products", "statement": "For every pathway, the overall reactants, intermediates and products are pairwise disjoint and together are exactly all compositions occurring in its reactions; a composition is intermediate iff it is both produced and consumed.", "quantifier": "every pathway", "why_tests_cant": "Universal.", "anchors": ["src/rxn_network/pathways/base.py: Pathway", "src/rxn_network/pathways/basic.py: BasicPathway"]}
{"id": "C61", "title": "Softplus costs are positive and monotone", "statement": "Softplus.evaluate(rxn) is strictly positive (so shortest-path search is sound), strictly increasing in each positively weighted parameter, strictly decreasing in temperature, and non-positive temperatures are rejected.", "quantifier": "all real parameter values and temperatures", "why_tests_cant": "Real-valued laws.", "anchors": ["src/rxn_network/costs/functions.py: Softplus.evaluate", "src/rxn_network/costs/functions.py: Softplus._softplus"]}
{"id": "C62", "title": "Cost parameters are read from reaction data first, attributes second, else an error", "statement": "For every cost function the value used for a parameter is rxn.data[param] when present, otherwise the attribute of the reaction, otherwise ValueError; costs are never computed from a partial parameter list.", "quantifier": "all reactions and parameter lists", "why_tests_cant": "Decision logic over all inputs.", "anchors": ["src/rxn_network/costs/functions.py: Softplus.evaluate", "src/rxn_network/costs/functions.py: WeightedSum.evaluate"]}
{"id": "C63", "title": "Competition scores for single-precursor reactions", "statement": "For a reaction with a single precursor, primary competition is its energy minus the lowest energy among competing reactions and doing nothing (up to the 1e-8 eV/atom within which a competing reaction counts as doing nothing), and secondary competition is max(primary, 0); both are rounded to four decimals, stored in the reaction's data next to what was there, and independent of the order of competing reactions.", "quantifier": "all finite lists of competing reactions", "why_tests_cant": "Universal.", "anchors": ["src/rxn_network/jobs/core.py: _get_competition_decorated_rxn"]}
{"id": "C64", "title": "Printed reactions can be parsed back", "statement": "BasicReaction.from_string(str(rxn)) is the same reaction whenever the coefficients need at most four significant digits.", "quantifier": "every reaction with such coefficients", "why_tests_cant": "Universal over all formulas and coefficients.", "anchors": ["src/rxn_network/reactions/basic.py: BasicReaction.from_string", "src/rxn_network/reactions/basic.py: BasicReaction._str_from_formulas"]}
{"id": "C65", "title": "Recursive and closed-form secondary competition agree", "statement": "get_secondary_competition(rxn, recursive=True) returns the same value as with recursive=False, for every reaction, normalization and e_hull option (the docstring promises the same answer).", "quantifier": "every hull, every reaction and every option setting", "why_tests_cant": "Equality of a mutable-flag recursion with a Catalan-weighted triple sum over all hulls cannot be settled by sampling; the one diverging family (a reactant that itself decomposes) is easily missed.", "anchors": ["src/rxn_network/reactions/hull.py:get_secondary_competition", "src/rxn_network/reactions/hull.py:get_decomposition_energy_and_num_paths_recursive"]}
{"id": "C66", "title": "filter_by_chemsys keeps what its documentation says", "statement": "With filter_by_chemsys set, an enumerator returns exactly those otherwise admissible reactions that contain at least one element of the provided system.", "quantifier": "all entry sets, settings and filter strings", "why_tests_cant": "Tests use one filter string on one entry set, for which superset and intersection agree.", "anchors": ["src/rxn_network/enumerators/basic.py: BasicEnumerator.__init__ (documentation)", "src/rxn_network/enumerators/basic.py: BasicEnumerator._filter_dict_by_elems"]}
{"id": "C67", "title": "Experimental data take precedence over computed entries", "statement": "A set built by from_pd / from_computed_entries contains, for every formula, the entry of each selected experimental source that has data for it, and computed entries exactly for those formulas for which no selected source has data.", "quantifier": "every phase diagram, every choice of sources, every availability of data", "why_tests_cant": "The precedence must hold for every combination of source flags and data availability; the default flags hide the failing combination.", "anchors": ["src/rxn_network/entries/entry_set.py: GibbsEntrySet.from_pd", "src/rxn_network/entries/entry_set.py: GibbsEntrySet._check_for_experimental"]}
{"id": "C68", "title": "Rebuilding a network starts afresh", "statement": "After build() is called again on a network whose precursors or target were set, setting precursors gives the same graph as on a freshly built network.", "quantifier": "every network and every history before the rebuild", "why_tests_cant": "Histories of calls.", "anchors": ["src/rxn_network/network/network.py: ReactionNetwork.build", "src/rxn_network/network/network.py: ReactionNetwork.set_precursors"]}
{"id": "C69", "title": "Pathways found in a network can be carried out, and the first is the cheapest", "statement": "Every pathway returned by find_pathways is a chain of network reactions in which each reaction uses only precursors and products of the reaction right before it and the last one makes the target; at most max(k,1) per target; nothing is returned only if no such chain exists; the first pathway to a target costs no more than any such chain.", "quantifier": "every reaction set, non-negative cost function, precursors set, list of targets and k", "why_tests_cant": "Universal over reaction sets; compares against all chains of reactions.", "anchors": ["src/rxn_network/network/network.py: ReactionNetwork.find_pathways", "src/rxn_network/network/network.py: ReactionNetwork.set_precursors", "src/rxn_network/network/network.py: yens_ksp"]}
{"id": "C70", "title": "Absence of a balanced pathway is reported as an empty result", "statement": "If no combination of candidate reactions balances the net reaction, PathwaySolver.solve returns an empty pathway set instead of failing.", "quantifier": "all candidate sets and net reactions", "why_tests_cant": "The failure depends on which phases happen to occur in which candidates and on how many candidates there are.", "anchors": ["src/rxn_network/pathways/solver.py: PathwaySolver.solve"]}
{"id": "C71", "title": "Steps of a solved pathway are distinct candidates, never the net reaction itself", "statement": "Every pathway returned by PathwaySolver.solve consists of between one and max_num_combos steps; each step is one of the reactions of the given pathways or one of the intermediate reactions (up to coefficients of at most 1e-8), the steps are pairwise different, none equals the net reaction, and with filter_interdependent no returned pathway is flagged as interdependent.", "quantifier": "all inputs, schedules and pseudo-inverse results", "why_tests_cant": "Must hold for every combination, chunking, batch and order of completion of the parallel tasks.", "anchors": ["src/rxn_network/pathways/solver.py: Solver.__init__, PathwaySolver.solve"]}
{"id": "C72", "title": "Decorating a reaction adds one value and changes nothing else", "statement": "Calculator.decorate(rxn) returns a reaction whose data holds the calculated value under the calculator's name, with every other data entry and attribute as before; a cost function using that name reads the calculated value; decorate_many keeps order and number; two calculators with different names that ignore each other's value can be applied in either order.", "quantifier": "all reactions, calculators and lists of reactions", "why_tests_cant": "Must hold for every prior content of the data dictionary and every pair of calculators.", "anchors": ["src/rxn_network/costs/base.py: Calculator.decorate", "src/rxn_network/costs/base.py: Calculator.decorate_many"]}
{"id": "C73", "title": "Chemical potential distance counts each interface once, in any order", "statement": "ChempotDistanceCalculator.calculate aggregates over every reactant-product pair and every pair of distinct products, each exactly once, and its result does not depend on the order in which the reaction lists its phases.", "quantifier": "all reactions, all symmetric domain distances, the aggregation functions sum, max and mean", "why_tests_cant": "Permutation invariance over lists of any length.", "anchors": ["src/rxn_network/costs/calculators.py: ChempotDistanceCalculator.calculate"]}
{"id": "C74", "title": "Competition scores do not depend on how reactions are split into chunks", "statement": "CalculateCompetitionMaker decorates every target reaction exactly once with the same scores for every chunk size and every completion order of the workers; a reaction with more than two precursors besides the open species is rejected.", "quantifier": "all reaction lists, chunk sizes and worker schedules", "why_tests_cant": "Schedules and chunkings cannot be enumerated.", "anchors": ["src/rxn_network/jobs/core.py: CalculateCompetitionMaker._get_competition_decorated_rxns", "src/rxn_network/jobs/core.py: _get_competition_decorated_rxns_by_chunk"]}
{"id": "C75", "title": "Chemical potential distances do not depend on chunking", "statement": "The chemical potential distance stored for a reaction is computed in a diagram containing its elements and does not depend on which other reactions were processed in the same chunk.", "quantifier": "all chunks of reactions", "why_tests_cant": "Depends on the whole chunk, not on a single reaction.", "anchors": ["src/rxn_network/jobs/core.py: _get_chempot_decorated_rxns_by_chunk"]}
{"id": "C76", "title": "Dropping unneeded reactions to save memory does not change competition", "statement": "Every reaction that can start from the precursors of a target reaction and the open species is taken into account as a competitor of it, although the job first drops reactions it considers unnecessary.", "quantifier": "all reaction sets, targets and open species", "why_tests_cant": "Quantifies over all reaction networks.", "anchors": ["src/rxn_network/jobs/core.py: CalculateCompetitionMaker.make", "src/rxn_network/jobs/core.py: _get_competition_decorated_rxns_by_chunk"]}
{"id": "C77", "title": "Any aggregation function can be used for chemical potential distances", "statement": "ChempotDistanceCalculator accepts the names max, mean and sum and any function given directly, aggregates with it, and rejects other names.", "quantifier": "all aggregation functions and reactions", "why_tests_cant": "Universal over functions.", "anchors": ["src/rxn_network/costs/calculators.py: ChempotDistanceCalculator.__init__"]}
{"id": "C78", "title": "Chunks fit in memory", "statement": "When memory is short, the chunk size is chosen so that all chunks can be processed at the same time within the available memory; the computation of the chunk size never fails.", "quantifier": "all numbers of reactions, targets, processors and bytes", "why_tests_cant": "Arithmetic law over all numbers.", "anchors": ["src/rxn_network/jobs/core.py: CalculateCompetitionMaker._get_competition_decorated_rxns"]}
{"id": "C79", "title": "Requested formulas survive processing", "statement": "process_entries returns an entry for every formula listed in formulas_to_include, whatever the stability cutoff and the filtering temperature.", "quantifier": "all entry collections, settings and formula lists", "why_tests_cant": "Ranges over all data sets and temperatures; the loss only appears for particular tables.", "anchors": ["src/rxn_network/entries/utils.py: process_entries", "src/rxn_network/entries/entry_set.py: get_entries_with_new_temperature"]}
{"id": "C80", "title": "Processed entries are at the requested temperature", "statement": "Every entry returned by process_entries has its energy at the requested temperature.", "quantifier": "all entry collections and pairs of temperatures", "why_tests_cant": "Universal over entries and temperatures.", "anchors": ["src/rxn_network/entries/utils.py: process_entries", "src/rxn_network/entries/interpolated.py: InterpolatedEntry.get_new_temperature"]}
{"id": "C81", "title": "Contents of a processed entry set", "statement": "Without a change of temperature, process_entries returns exactly the entries passing the stability filter together with the requested ones; with a change, exactly the converted entries whose conversion succeeds.", "quantifier": "all entry collections and settings", "why_tests_cant": "Exact set equality for every input.", "anchors": ["src/rxn_network/entries/utils.py: process_entries"]}
{"id": "C82", "title": "Initializing an entry by formula", "statement": "initialize_entry returns the lowest-energy entry of the formula if there is one; otherwise an interpolated entry of that composition, 1 meV/atom below the hull of the entries in its chemical system and therefore stable among them; a formula with an element outside the set raises ValueError.", "quantifier": "all entry sets and formulas", "why_tests_cant": "Stability ranges over all decompositions.", "anchors": ["src/rxn_network/entries/utils.py: initialize_entry", "src/rxn_network/entries/entry_set.py: get_interpolated_entry"]}
{"id": "C83", "title": "Random shifts keep the entry set", "statement": "get_entries_with_jitter returns one entry per entry of the set, each shifted by its random number times its uncertainty.", "quantifier": "all entry sets and random samples", "why_tests_cant": "Universal over samples and sets.", "anchors": ["src/rxn_network/entries/entry_set.py: get_entries_with_jitter"]}
{"id": "C84", "title": "Building an entry set leaves its inputs alone", "statement": "Constructing a GibbsEntrySet from entries does not change entries that other sets also hold.", "quantifier": "all heaps of entries and all flags", "why_tests_cant": "Aliasing over all sharing patterns.", "anchors": ["src/rxn_network/entries/entry_set.py: GibbsEntrySet.__init__"]}
{"id": "C85", "title": "Large systems are processed like small ones", "statement": "from_computed_entries for more than nine elements gives the same entries and settings as building from a single phase diagram of all entries.", "quantifier": "all collections of computed entries", "why_tests_cant": "Universal over chemical systems of any size.", "anchors": ["src/rxn_network/entries/entry_set.py: from_computed_entries", "src/rxn_network/thermo/utils.py: expand_pd"]}
{"id": "C86", "title": "Enumerators work on all entries plus the requested ones", "statement": "The working set of an enumerator consists of exactly the given entries and the entries of the requested precursors and targets, in whatever order the requested entries are visited.", "quantifier": "all entry sets, requested formulas and iteration orders", "why_tests_cant": "Universal over set iteration orders.", "anchors": ["src/rxn_network/enumerators/basic.py: BasicEnumerator._get_initialized_entries"]}
{"id": "C87", "title": "Running several enumerators collects all reactions", "statement": "run_enumerators returns the reactions of all enumerators without duplicates.", "quantifier": "all lists of enumerators and entry sets", "why_tests_cant": "Universal over enumerator results.", "anchors": ["src/rxn_network/enumerators/utils.py: run_enumerators"]}
{"id": "C88", "title": "Database queries return the chemical system once", "statement": "get_all_entries_in_chemsys_from_entry_db returns each document inside the chemical system exactly once and no other, by either of its two query strategies.", "quantifier": "all databases and element lists", "why_tests_cant": "Universal over databases; the strategies switch at 14 elements.", "anchors": ["src/rxn_network/entries/utils.py: get_all_entries_in_chemsys_from_entry_db"]}
{"id": "C89", "title": "Equal entries have equal hashes", "statement": "Entries comparing equal have equal hashes, and equality is an equivalence relation.", "quantifier": "all pairs and triples of entries", "why_tests_cant": "Universal over energies within tolerance.", "anchors": ["src/rxn_network/entries/gibbs.py: __eq__, __hash__", "src/rxn_network/entries/experimental.py: __eq__, __hash__", "src/rxn_network/entries/interpolated.py: __eq__, __hash__"]}
{"id": "C90", "title": "A minimization run considers every phase and every pair of phases exactly once, each with its own phase diagram", "statement": "Running a Gibbs or grand potential minimization enumerator considers each single phase and each unordered pair of non-open phases exactly once, always with the phase diagram built from exactly the entries of the chemical system of that pair (plus the open elements), for any number of CPUs, any chunk size and any completion order of the parallel tasks; the returned multiset of reactions and the success or failure of the run do not depend on the schedule.", "quantifier": "all entry sets, settings, CPU counts, chunk sizes, job limits, results of the phase diagram and interface calculations (including failures) and completion orders", "why_tests_cant": "a test fixes one entry set and one ray schedule; mixing up phase diagrams between systems shows only for some groupings and completion orders", "anchors": ["src/rxn_network/enumerators/minimize.py:MinimizeGibbsEnumerator", "src/rxn_network/enumerators/basic.py:enumerate", "src/rxn_network/enumerators/basic.py:_get_entries_and_pds"]}
{"id": "C91", "title": "Reactions predicted by minimization are made of the ground state entries of the predicted phases and of the phases asked for", "statement": "Every reaction suggested for a pair of phases by a minimization enumerator has as entries the lowest-energy entries of exactly the phases in the predicted interface reaction, in the same order and on the same sides, is rejected with an error if a predicted phase has no entry, reproduces the predicted stoichiometry up to a positive factor when it is determined by element conservation, carries the chemical potentials of the grand potential diagram if there is one, and has among its reactant entries only the phases of the pair itself. No reaction is suggested when a reactant is the open element.", "quantifier": "all predicted interface reactions, entry sets (including several polymorphs of a formula), chemical potentials and iteration orders of the pair", "why_tests_cant": "tests use a few sets without polymorphs; which entry is substituted depends on all energies in the set", "anchors": ["src/rxn_network/enumerators/utils.py:get_computed_rxn", "src/rxn_network/enumerators/utils.py:react_interface", "src/rxn_network/enumerators/minimize.py:_react_function"]}
{"id": "C92", "title": "Each reaction of an interface hull sits at its own coordinates", "statement": "InterfaceReactionHull(c1, c2, reactions) keeps, for every position i, reactions[i] and coords[i] together: coords[i] is the coordinate and energy per atom of reactions[i]; the given reactions and the two end-member identity reactions at (0,0) and (1,0) appear exactly once each, in order of coordinate. Construction fails with ValueError exactly when the two reactants do not both occur as reactants (in particular when they are the same), or with the error of the coordinate computation. The object so built has the lower convex hull of its points as its vertices.", "quantifier": "every list of reactions, every pair of reactants and every (possibly unstable) sorting routine", "why_tests_cant": "Alignment of two arrays after an unstable sort has to hold for every input including ties; tests look at a handful of hulls.", "anchors": ["src/rxn_network/reactions/hull.py:InterfaceReactionHull.__init__"]}
{"id": "C93", "title": "Points of a chemical potential domain respect every phase", "statement": "Every point of a phase's domain in a chemical potential diagram lies exactly on that phase's hyperplane (its composition-weighted chemical potentials equal its energy per atom) and does not exceed the energy per atom of any entry of the diagram by more than the formation energy tolerance, including entries left out of the half-space intersection because they are not exothermic. Only elements and exothermic compounds have domains. A missing elemental reference is reported as ValueError.", "quantifier": "every set of entries and every half-space intersection meeting its specification", "why_tests_cant": "Omitted constraints must be implied by the elemental ones for all compositions; no finite sample of diagrams shows that.", "anchors": ["src/rxn_network/thermo/chempot_diagram.py:_get_hyperplanes_and_entries", "src/rxn_network/thermo/chempot_diagram.py:_get_domains", "src/rxn_network/thermo/chempot_diagram.py:ChemicalPotentialDiagram.__init__"]}
{"id": "C94", "title": "The offset of a phase is its Euclidean distance to the diagram's surface", "statement": "get_offset(entry) is non-negative, zero for a phase on the hull, and otherwise equals the Euclidean distance in chemical potential space between the entry's hyperplane and the hyperplane it would have on the hull: no point of the one is closer to the other, and from every point that distance is attained.", "quantifier": "every entry, diagram and number of elements", "why_tests_cant": "A metric statement over all points of two hyperplanes in any dimension.", "anchors": ["src/rxn_network/thermo/chempot_diagram.py:get_offset", "src/rxn_network/thermo/chempot_diagram.py:_get_distance_between_parallel_hyperplanes", "src/rxn_network/entries/entry_set.py:get_e_above_hull"]}
{"id": "C95", "title": "Gibbs energies are extensive", "statement": "Writing the same phase with a multiple of its formula unit multiplies its Gibbs energy by the same factor, so the energy per atom does not depend on the chosen formula unit. The reduced mass used for it is an average of the reduced masses of all pairs of elements, hence lies between the smallest and the largest of them, and is the same for all multiples of a formula. Elements get no correction at all.", "quantifier": "every composition, multiple, volume and temperature", "why_tests_cant": "Scale invariance and the averaging bounds are statements about all compositions and all atomic masses.", "anchors": ["src/rxn_network/entries/gibbs.py:gibbs_adjustment", "src/rxn_network/entries/gibbs.py:_reduced_mass", "src/rxn_network/entries/gibbs.py:_g_delta_sisso", "src/rxn_network/entries/gibbs.py:_sum_g_i"]}
{"id": "C96", "title": "Energy uncertainty of a reaction", "statement": "energy_uncertainty is non-negative, is multiplied by |k| when all coefficients are multiplied by k (so reversing a reaction does not change it and the uncertainty per atom is scale invariant), is zero when no entry has an uncertainty (nan counts as none), uses the uncertainty of the lowest-energy entry of each composition, and does not decrease when a single entry's uncertainty grows.", "quantifier": "every reaction, scaling and assignment of uncertainties", "why_tests_cant": "Algebraic laws over all reactions.", "anchors": ["src/rxn_network/reactions/computed.py:energy_uncertainty", "src/rxn_network/reactions/computed.py:energy_uncertainty_per_atom"]}
{"id": "C97", "title": "Which entries get an experimental reference or a carbonate correction", "statement": "An experimental reference entry is used for a formula exactly when the formula is in the chosen table, is not an ignored NIST solid (if these are ignored) and the temperature is within the table; any other class name is rejected. The CO2 pressure correction is attached exactly to CO2 and only if requested. The carbonate correction is given exactly to GGA or GGA+U entries with three oxygen atoms per carbon atom (within tolerance), and is proportional to the number of carbon atoms.", "quantifier": "every formula, temperature, table and combination of options", "why_tests_cant": "Decision logic over all entries and options.", "anchors": ["src/rxn_network/entries/entry_set.py:_check_for_experimental", "src/rxn_network/entries/entry_set.py:_get_carbonate_correction", "src/rxn_network/entries/corrections.py:CarbonateCorrection"]}
{"id": "C98", "title": "Decomposition areas add up", "statement": "The area form of the secondary competition is non-negative, and for a reaction on the hull the areas to its left and right together with the triangle spanned by the reaction and the two reactants make up the whole area of the hull. It is defined for every reaction of the hull.", "quantifier": "every lower hull and every reaction on it", "why_tests_cant": "A geometric identity over all hulls; the failing case (a reaction at an end member) is not in the tests.", "anchors": ["src/rxn_network/reactions/hull.py:get_secondary_competition_area", "src/rxn_network/reactions/hull.py:get_decomposition_area"]}
{"id": "C99", "title": "A copied reaction is independent of the original", "statement": "After r2 = r.copy(), changing r2's data (or r's) does not change the other reaction's data; the same holds for reversed, normalized and open reactions made from r.", "quantifier": "every reaction, every history of data updates", "why_tests_cant": "Aliasing shows only in histories that mutate one object and read the other.", "anchors": ["src/rxn_network/reactions/basic.py:copy", "src/rxn_network/reactions/computed.py:copy", "src/rxn_network/reactions/open.py:copy", "src/rxn_network/reactions/open.py:from_computed_rxn"]}
{"id": "C100", "title": "Identity reactions are recognised exactly", "statement": "is_identity never raises. It is False when some phase is on one side only. For a balanced reaction it is True exactly when every phase is produced in the amount in which it is consumed (to the tolerance of numpy.isclose); for an unbalanced one it is True exactly when both sides hold the same phases. A reaction that is exactly an identity has zero energy, and reversing or rescaling a reaction does not change the answer.", "quantifier": "all compositions, coefficients (including repeated and zero ones) and balanced flags; all positive scale factors", "why_tests_cant": "The answer depends on arbitrary real coefficients near a tolerance and on repeated compositions; tests only try clear-cut cases.", "anchors": ["src/rxn_network/reactions/basic.py: BasicReaction.is_identity, _get_is_identity"]}
{"id": "C101", "title": "The reaction table has one aligned row per reaction", "statement": "to_dataframe returns one row per reaction of the set, ordered by cost; every cell of a row (energy, uncertainty, added elements, separability, hull energies, counts of theoretical phases, data columns, cost) is that of the reaction in the same row. Every data key of every reaction appears as a column (apart from num_constraints), and no data key makes the call fail. Calling the method again returns the same table, whatever the caller did with the previous one.", "quantifier": "all reaction sets, cost functions, optional targets and flags, and all histories of calls and edits of returned tables", "why_tests_cant": "Columns are parallel lists filled in separate places and the result is cached; only arbitrary data dictionaries and call histories can show misalignment or sharing.", "anchors": ["src/rxn_network/reactions/reaction_set.py: ReactionSet.to_dataframe, _get_added_elems, calculate_costs", "src/rxn_network/entries/gibbs.py: GibbsComputedEntry.is_experimental"]}
{"id": "C102", "title": "Recalculating at many temperatures equals recalculating one at a time", "statement": "compute_at_temperatures(temps) maps each requested temperature to the same reaction set that set_new_temperature would give for it, has no other keys, fails exactly when one of these calls fails, and does not depend on order or repetition in the list.", "quantifier": "all reaction sets and all lists of temperatures", "why_tests_cant": "The function repeats the single-temperature code for a list; equality must hold for every list and every set.", "anchors": ["src/rxn_network/reactions/reaction_set.py: ReactionSet.compute_at_temperatures, set_new_temperature"]}
{"id": "C103", "title": "Added elements are the elements outside the target, in canonical order", "statement": "The added elements reported for a reaction (table column) and for a run (task documents) are exactly the elements of the reaction (of the entry set) that are in no target, the string lists them sorted and without repetition, and the string is the same for every iteration order of the sets involved. The chemical system string of a task document is likewise canonical.", "quantifier": "all reactions, entry sets, target lists and all hash orders of sets", "why_tests_cant": "Set iteration order of strings changes between processes; a test sees one order.", "anchors": ["src/rxn_network/reactions/reaction_set.py: ReactionSet._get_added_elems", "src/rxn_network/jobs/utils.py: get_added_elem_data", "src/rxn_network/jobs/core.py: ReactionEnumerationMaker._get_metadata"]}
{"id": "C104", "title": "Table helpers select and plot the right reactions", "statement": "filter_df_by_precursors keeps exactly the rows whose reactants are all among the given precursor formulas (in whatever form these are written), in order and unchanged. plot_reaction_scatter shows every row of the table exactly once: the non-dominated rows as Pareto front, all others as ordinary points.", "quantifier": "all tables (with any index labels), precursor lists and metric columns", "why_tests_cant": "Row labels and formula spellings are user input; tests use freshly built tables with unique labels and reduced formulas.", "anchors": ["src/rxn_network/reactions/plotting.py: filter_df_by_precursors, plot_reaction_scatter"]}
{"id": "C105", "title": "Intermediate reactions come from every enabled enumerator", "statement": "The intermediate reactions added by the pathway solver are exactly the reactions found by all enabled enumerators (basic, basic open, Gibbs minimization, grand potential minimization) on the phases of the pathways, the targets and the elements, that lie below the energy cutoff and use only these phases, one representative per reaction.", "quantifier": "all pathway sets, targets, open elements, cutoffs, enumerator switches and enumerator results", "why_tests_cant": "It quantifies over all switches and enumerator outputs; tests use one small network.", "anchors": ["src/rxn_network/pathways/solver.py: PathwaySolver._find_intermediate_rxns"]}
{"id": "C106", "title": "Saving and loading a network restores it", "statement": "Network.from_dict(network.as_dict()) restores reactions, cost function, graph, precursors and target; it can be done at any time in the life of a network (before build, before or after setting precursors and target) and any number of times from the same dictionary, and the loaded network can be used like the saved one.", "quantifier": "all networks in all states reachable by the API, all numbers of loads", "why_tests_cant": "The states in which serialization happens and repeated loads form an unbounded history.", "anchors": ["src/rxn_network/network/base.py: Network.as_dict, Network.from_dict"]}
{"id": "C107", "title": "Node entries of a network", "statement": "Two node entries are equal exactly when they have the same role and the same set of phases, equal entries have equal hashes, the order and repetition of the given phases do not matter, dim is the number of elements of the phases, and saving and loading gives an equal entry (also for dummy entries).", "quantifier": "all collections of phases, all roles", "why_tests_cant": "Equality, hashing and the reported dimension must be consistent for all phase sets.", "anchors": ["src/rxn_network/network/entry.py: NetworkEntry, DummyEntry, NetworkEntryType"]}
{"id": "C108", "title": "A pathway flow searches between the phases it is given", "statement": "NetworkFlowMaker.make(precursors, targets) produces a flow whose network jobs look for pathways from exactly these precursors to exactly these targets, one job for the closed system and one for each requested chemical potential of the open element, each using the reactions enumerated for that condition, and whose solver jobs receive the pathways of the network job of the same condition. The makers passed by the user are not modified.", "quantifier": "all precursor and target lists, maker settings, open elements and lists of chemical potentials", "why_tests_cant": "The job graph depends on arbitrary settings; tests build a few flows and rarely look inside the jobs.", "anchors": ["src/rxn_network/flows/core.py: NetworkFlowMaker.make, __post_init__", "src/rxn_network/jobs/core.py: NetworkMaker, PathwaySolverMaker"]}
{"id": "C109", "title": "The synthesis job scores every reaction that makes the target", "statement": "CalculateCompetitionMaker.make returns exactly the reactions of the given reaction sets that form the target, each as often as it occurs, at the requested open element and chemical potential, each carrying the requested scores; it raises ValueError exactly when there is none (or when the sets cannot be combined), for every number of sets, chunk size, memory size and completion order of the parallel tasks.", "quantifier": "all lists of reaction sets, targets, settings, cluster resources and schedules of the parallel tasks", "why_tests_cant": "Schedules, chunk sizes and memory sizes are unbounded and not reproducible in a test.", "anchors": ["src/rxn_network/jobs/core.py: CalculateCompetitionMaker.make, _get_competition_decorated_rxns, _get_chempot_decorated_rxns"]}
{"id": "C110", "title": "The network job builds on all reactions of all sets", "statement": "NetworkMaker.make combines all reactions of all given reaction sets at the requested open element and chemical potential, removes duplicates only, builds the network on them, sets precursors and the first target, and returns pathways to every target whenever targets and a number of pathways are given; jobs without precursors but with targets fail rather than returning wrong pathways.", "quantifier": "all lists of reaction sets, precursors, targets, pathway numbers and open elements", "why_tests_cant": "All combinations of settings and reaction sets must behave alike; tests run one example network.", "anchors": ["src/rxn_network/jobs/core.py: NetworkMaker.make"]}
{"id": "C111", "title": "Database searches find the same entries by every strategy", "statement": "Requesting all entries in a chemical system returns exactly the non-deprecated entries all of whose elements are in the system, each once, whether the query goes over all sub-systems in chunks of any size, over one element condition, or over the complement of the elements; neither the order nor the repetition of elements in the request matters. The list of requested properties passed by the caller is honoured and not modified.", "quantifier": "all databases, chemical systems of any size, chunk sizes and property lists", "why_tests_cant": "The strategy switches at 13 or 25 elements and by chunk size; databases cannot be run in unit tests.", "anchors": ["src/rxn_network/entries/utils.py: get_entries, get_all_entries_in_chemsys", "src/rxn_network/jobs/core.py: GetEntrySetMaker.make, _get_exclude_elems"]}
{"id": "C112", "title": "Search strings mean what the documentation says", "statement": "A search string is split at spaces into alternatives; an alternative of the form word-number is a material id, one with dashes is the set of chemical systems obtained by filling its wildcards and braces with pairwise different elements, anything else is a set of formulas; each chemical system is written with sorted symbols so that it matches the stored form.", "quantifier": "all search strings with any number of tokens, wildcards and alternatives", "why_tests_cant": "Strings are unbounded user input with several overlapping token forms.", "anchors": ["src/rxn_network/entries/utils.py: parse_criteria"]}
{"id": "C113", "title": "Saving and loading an entry keeps its thermodynamics", "statement": "from_dict(as_dict(e)) has the same composition, temperature, formation energy, volume, adjustments, id and data as e, up to element keys of nested data becoming their symbols; as_dict leaves the entry unchanged even if it fails, and nested data of different keys are never merged.", "quantifier": "all Gibbs entries and data dictionaries, including failing serialization", "why_tests_cant": "Data dictionaries are arbitrary user input, and failures can happen at any point of the serialization.", "anchors": ["src/rxn_network/entries/gibbs.py: GibbsComputedEntry.as_dict, _sanitize_data, from_dict"]}
{"id": "C114", "title": "An energy cascade never lies below the ground state", "statement": "For a pathway of phase amounts over temperature, the composition at each temperature contains every element in the amount present in the phases, normalised to one atom; the plotted energy is the atom-weighted mean formation energy minus the hull energy at that composition, hence non-negative, and zero exactly when the mixture is a ground state. The result does not depend on how the phase formulas are written.", "quantifier": "all phase amounts, temperatures, formulas and hulls", "why_tests_cant": "It is an inequality over all mixtures and all hulls.", "anchors": ["src/rxn_network/pathways/plotting.py: PathwayPlotter"]}
{"id": "C115", "title": "Setting a chemical potential keeps the reactions", "statement": "set_chempot(element, mu) returns a set that yields the same reactions in the same order with the same phases, coefficients and data, all evaluated at exactly the given element and potential (closed if no element is given, zero if no value is given); only the last of several changes counts, and setting the old potential again restores the set.", "quantifier": "all reaction sets reachable through the API, all elements and potentials, all sequences of changes", "why_tests_cant": "It must hold for every set and every sequence of changes.", "anchors": ["src/rxn_network/reactions/reaction_set.py: ReactionSet.set_chempot"]}
{"id": "C116", "title": "The pathway solver job balances the requested net reaction", "statement": "Creating the job maker succeeds exactly when the given precursors and targets admit a balanced reaction. If that reaction is unique up to scale with precursors consumed and targets formed, the job's net reaction has exactly those phases (as their lowest-energy entries) in those proportions, and every pathway it reports, with its multiplicities, adds up to that reaction within the documented tolerance. The net reaction never consumes a target or forms a precursor. If the net reaction, at the chemical potential asked for, is the only reaction there is to combine, the job fails.", "quantifier": "all precursors, targets, entry sets, pathway sets, schedules and solver settings", "why_tests_cant": "Universally quantified over chemistries, linear-algebra results and task schedules.", "anchors": ["src/rxn_network/jobs/core.py: PathwaySolverMaker.__post_init__, make", "src/rxn_network/enumerators/utils.py: get_computed_rxn"]}
{"id": "C117", "title": "The interdependence filter knows the precursors", "statement": "When pathways are filtered for interdependent steps, the precursors of the net reaction count as available whatever cell size their entries are stored in: the filtered result is the same for entries given per formula unit and per unit cell.", "quantifier": "all entry sets, net reactions and pathways", "why_tests_cant": "It compares all representations of the same phases.", "anchors": ["src/rxn_network/pathways/solver.py: PathwaySolver.solve", "src/rxn_network/pathways/balanced.py: BalancedPathway.contains_interdependent_rxns"]}
{"id": "C118", "title": "Experimental entries are faithful to their tables", "statement": "An experimental entry's energy per atom does not depend on how many formula units its composition contains; loading a table keeps every tabulated value under its numeric temperature; saving an entry to a dictionary and loading it gives an equal entry with the same energy, temperature, name and identifier.", "quantifier": "all compositions, tables, temperatures and corrections", "why_tests_cant": "Universal over compositions, tables and temperatures.", "anchors": ["src/rxn_network/entries/experimental.py: ExperimentalReferenceEntry", "src/rxn_network/data/__init__.py: load_experimental_data, make_float_keys"]}
{"id": "C119", "title": "Coefficient matrix and vector of a balanced pathway", "statement": "get_comp_matrix() has one row per reaction and get_coeff_vector_for_rxn(r) one entry per phase of the pathway; each value is the stoichiometric coefficient of that phase in that reaction and zero if it does not take part. Hence a pathway balances a net reaction exactly when the multiplicities times the matrix equal the net reaction's vector and the net reaction involves no other phase.", "quantifier": "all pathways, reactions and multiplicities", "why_tests_cant": "It is an equivalence over all pathways.", "anchors": ["src/rxn_network/pathways/balanced.py: BalancedPathway.get_comp_matrix, get_coeff_vector_for_rxn"]}
{"id": "C120", "title": "Reactions fetched from the job store are those of the newest matching run", "statement": "get_rxns_from_db returns the reactions of the most recently completed job whose target, open element, chemical potential and (if given) firework id match the request, with unchanged phases, coefficients and data, evaluated at the requested potential; if no run matches it fails.", "quantifier": "all contents of the job store and all requests", "why_tests_cant": "It ranges over all store contents.", "anchors": ["src/rxn_network/utils/database.py: get_rxns_from_db"]}
{"id": "C121", "title": "The cluster is started at most once", "statement": "However often and from wherever initialization is requested, the cluster is started at most once while it is running, an existing multi-node cluster is joined rather than a new one created, and an already running one is left alone; a failed start leaves it startable.", "quantifier": "all sequences of initialization calls, environments and failures", "why_tests_cant": "It quantifies over call histories and environments.", "anchors": ["src/rxn_network/utils/ray.py: initialize_ray"]}
{"id": "C122", "title": "Coefficient vectors refer to the entry list of the network", "statement": "The coefficient vector of a reaction, used to balance pathways, has at the position of every phase in the network's entry list the coefficient of that phase, at any time after the network was built, also after other networks were built, entries were copied, or everything was saved and loaded.", "quantifier": "all reaction sets, set iteration orders, histories of networks, enumerations and copies, reactions and coefficients", "why_tests_cant": "Positions are stored on shared mutable entry objects; whether they are still right depends on the whole history and on hash order in another process, of which a test sees one.", "anchors": ["src/rxn_network/entries/entry_set.py:GibbsEntrySet.build_indices", "src/rxn_network/entries/entry_set.py:GibbsEntrySet.entries_list", "src/rxn_network/network/base.py:Network.__init__", "src/rxn_network/reactions/computed.py:ComputedReaction.get_entry_idx_vector", "src/rxn_network/pathways/solver.py:PathwaySolver.solve"]}
{"id": "C123", "title": "Pathway energies obey Hess's law", "statement": "The energy reported for a balanced reaction pathway is the energy of its net reaction: the energies of the steps, each taken as often as the pathway carries it out, add up to the energy of the net reaction, and energy per atom likewise; for reactions open to elements at fixed chemical potential too.", "quantifier": "all sets of phases with one energy per composition, all pathways and multiplicities, all outputs of the pathway solver under every schedule and pseudo-inverse", "why_tests_cant": "The law ties together arbitrary steps, multiplicities and energies; a test computes one pathway, usually one where every step happens once.", "anchors": ["src/rxn_network/pathways/base.py:Pathway.energy", "src/rxn_network/pathways/base.py:Pathway.energy_per_atom", "src/rxn_network/pathways/balanced.py:BalancedPathway.__init__", "src/rxn_network/pathways/solver.py:PathwaySolver.solve"]}
{"id": "C124", "title": "A reaction enumeration finds every requested reaction, exactly once", "statement": "If the phases on two sides balance in exactly one way with positive amounts, at most n phases on each side (open phases not counted, any number of them on either side), all of them among the given entries, and the settings (precursors, targets, exclusive flags, chemical system filter) admit the reaction, then enumerating over the entries yields that reaction exactly once, with its coefficients up to a positive factor, and the enumeration terminates without an error.", "quantifier": "all entry sets without repeated compositions, all n, all settings, all compositions, all chunk sizes, numbers of parallel jobs and completion orders, all pseudo-inverse routines that solve solvable systems", "why_tests_cant": "It is a completeness claim about a combinatorial search joined to linear algebra and a parallel scheduler; a test compares the number of reactions of a few chemical systems with stored numbers.", "anchors": ["src/rxn_network/enumerators/basic.py:BasicEnumerator.enumerate", "src/rxn_network/enumerators/basic.py:BasicEnumerator._react_function", "src/rxn_network/enumerators/basic.py:BasicEnumerator._get_combos_dict", "src/rxn_network/enumerators/basic.py:BasicEnumerator._filter_dict_by_elems", "src/rxn_network/reactions/computed.py:ComputedReaction.balance", "src/rxn_network/enumerators/basic.py:BasicOpenEnumerator._get_rxn_iterable"]}
{"id": "C125", "title": "Balanced pathways are ranked by the mean cost of their steps", "statement": "The average cost of a balanced pathway is the mean of the costs of its steps weighted with their multiplicities: it lies between the cheapest and the dearest step and does not depend on the overall amount, the order of the steps, or the coefficients a step is written with. The pathway solver returns its pathways in the order of this cost, cheapest first, and every step carries the cost its reaction was given with.", "quantifier": "all lists of multiplicities and costs, all solver inputs, pseudo-inverses and completion orders of the parallel jobs", "why_tests_cant": "Order and mean have to be right for every combination of steps, multiplicities and costs, and for every schedule of the solver; a test looks at the first pathways of one solved system.", "anchors": ["src/rxn_network/pathways/balanced.py:BalancedPathway.average_cost", "src/rxn_network/pathways/solver.py:PathwaySolver.solve"]}
{"id": "C126", "title": "Reaction sets and reactions survive being saved and loaded", "statement": "A reaction set that is saved and loaded again, in memory or through JSON with or without array support, contains exactly the same reactions: same entries, coefficients, data, open element and chemical potential. A reaction saved on its own comes back complete, including its chemical potentials and its number of balancing errors. Loading does not change the saved dictionary.", "quantifier": "all lists of reactions, entry orders, sizes, open elements, transports (memory, JSON with arrays, plain JSON) and constructor arguments with integer or text keys", "why_tests_cant": "A test saves and loads one set; sizes become text and arrays become lists on the way, and that nothing is lost or mixed up has to hold for every combination of sizes and contents.", "anchors": ["src/rxn_network/reactions/reaction_set.py:ReactionSet.__init__", "src/rxn_network/reactions/open.py:OpenComputedReaction.as_dict", "src/rxn_network/reactions/open.py:OpenComputedReaction.from_dict", "src/rxn_network/jobs/core.py:_get_competition_decorated_rxns_by_chunk"]}
{"id": "C127", "title": "Scores on an interface do not depend on the order of the reactions or of the two reactants", "statement": "The primary competition, the secondary competition (all variants) and the energy above the hull of a reaction are the same whichever of the two reactants is called the first one and in whichever order the competing reactions are listed. Exchanging the reactants replaces every coordinate x by 1 - x.", "quantifier": "all interfaces, reaction lists, permutations of them, tie-breaking of the sort, output orders of the convex hull routine, and both orders of the two reactants", "why_tests_cant": "The jobs take the two reactants from a Python set and the reactions from a dictionary, so the order changes from run to run; a test sees one order, and the symmetry must hold for every hull.", "anchors": ["src/rxn_network/reactions/hull.py:InterfaceReactionHull.__init__", "src/rxn_network/reactions/hull.py:InterfaceReactionHull.get_coordinate", "src/rxn_network/reactions/hull.py:InterfaceReactionHull.get_primary_competition", "src/rxn_network/reactions/hull.py:InterfaceReactionHull.get_secondary_competition", "src/rxn_network/reactions/hull.py:InterfaceReactionHull.get_decomposition_energy_and_num_paths_recursive", "src/rxn_network/jobs/core.py:_get_competition_decorated_rxns_by_chunk"]}
{"id": "C128", "title": "A reaction is what it is however it is written", "statement": "Listing the phases of a reaction in another order or multiplying all coefficients by a positive factor changes neither its energy per atom nor its atomic fractions, its place on an interface, nor the points and scores of the interface hull it belongs to; the total energy is multiplied by the factor. Reordering also keeps the balanced flag, equality and hash.", "quantifier": "all reactions between different phases, closed or open, all orders of the phases, all positive factors, all lists of such reactions", "why_tests_cant": "Enumerators and databases list phases in set order and scale coefficients as the balancing happens to; the invariance must hold for every order and factor.", "anchors": ["src/rxn_network/reactions/basic.py:BasicReaction.__init__", "src/rxn_network/reactions/basic.py:BasicReaction.reactant_atomic_fractions", "src/rxn_network/reactions/computed.py:ComputedReaction.energy", "src/rxn_network/reactions/computed.py:ComputedReaction.energy_per_atom", "src/rxn_network/reactions/open.py:OpenComputedReaction.energy", "src/rxn_network/reactions/hull.py:InterfaceReactionHull.get_coordinate", "src/rxn_network/reactions/hull.py:InterfaceReactionHull.__init__"]}
{"id": "C129", "title": "Copies and combinations of entry sets are independent and keep their settings", "statement": "After any history of copies, unions, intersections, differences, symmetric differences and in-place changes, every entry set holds exactly the entries that independent mathematical sets would hold, and a set changes only through its own methods. The settings of a set (store hull distances, small size) are those of the set it was made from. With the first setting on, the stored hull distances are current after a change of temperature and after saving and loading; saving and loading keeps entries, distances and settings.", "quantifier": "all initial sets, all histories of calls on any number of set objects (also with one object on both sides), all temperatures, all hull-distance functions of compositions and energies", "why_tests_cant": "Operators are inherited from the abstract base class and built from a handful of methods; correctness must hold for every sequence of calls including aliasing, which tests sample.", "anchors": ["src/rxn_network/entries/entry_set.py:GibbsEntrySet.__init__", "src/rxn_network/entries/entry_set.py:GibbsEntrySet.copy", "src/rxn_network/entries/entry_set.py:GibbsEntrySet.add", "src/rxn_network/entries/entry_set.py:GibbsEntrySet.discard", "src/rxn_network/entries/entry_set.py:GibbsEntrySet.as_dict", "src/rxn_network/entries/entry_set.py:GibbsEntrySet.get_entries_with_new_temperature", "src/rxn_network/enumerators/basic.py:BasicEnumerator"]}
{"id": "C130", "title": "Solved pathways do not depend on how the work is split and scheduled", "statement": "For the same pathways, entries, net reaction and settings, the pathway solver returns the same balanced pathways with the same list of average costs, and fails in the same cases, whatever the chunk size, the batch size, the number of CPUs and the order in which workers finish.", "quantifier": "all solver inputs, all pairs of chunk sizes, batch sizes, CPU counts and completion orders", "why_tests_cant": "Completion orders and chunk boundaries are not under the control of a test; equality must hold for every pair of schedules.", "anchors": ["src/rxn_network/pathways/solver.py:PathwaySolver.solve", "src/rxn_network/pathways/solver.py:_create_comp_matrices", "src/rxn_network/pathways/solver.py:_balance_path_arrays_cpu_wrapper", "src/rxn_network/utils/funcs.py:grouper", "src/rxn_network/utils/ray.py:to_iterator"]}
{"id": "C131", "title": "Reactions and reaction sets at a new temperature", "statement": "Asking a reaction for a new temperature re-evaluates each of its own entries there and keeps coefficients, data and chemical potentials; it fails exactly when one of its entries cannot be re-evaluated, and this is possible for closed and for open reactions alike. Asking a reaction set (for one or for a list of temperatures) gives exactly its reactions re-evaluated one by one; it fails only if one of its reactions cannot be re-evaluated. Going to a temperature through another one gives the same reactions as going there directly. Stored hull distances are those of the new temperature or absent.", "quantifier": "all reactions, all reaction sets built by any history of the public operations, all temperatures and lists of temperatures, entries of every kind and every way an entry can fail to be re-evaluated", "why_tests_cant": "whether a conversion fails depends on the data range of every entry, and path independence compares all pairs of temperatures; a test sees one set at one or two temperatures where everything converts", "anchors": ["src/rxn_network/reactions/reaction_set.py: set_new_temperature, compute_at_temperatures", "src/rxn_network/reactions/computed.py: get_new_temperature", "src/rxn_network/reactions/open.py: get_new_temperature", "src/rxn_network/entries/gibbs.py: get_new_temperature", "src/rxn_network/entries/experimental.py: get_new_temperature"]}
{"id": "C132", "title": "A BasicEnumerator returns exactly the sought reactions, so its result depends on the set of phases and settings only", "statement": "With default settings (closed system, one constraint, reactions that lose a phase removed), enumerate(entries) returns a reaction between phases r and phases p if and only if r and p are disjoint non-empty sets of at most n given phases that balance in exactly one way with positive amounts and meet the precursor, target and chemical system settings. Each is returned once. Hence the result is the same for every order of the entries, chunk size, number of jobs and order of completion; it contains a reaction iff it contains its reverse when no precursors and targets are set; and it only grows with more phases, larger n or looser settings.", "quantifier": "all sets of phases that are told apart by the balancing tolerance, all orders of them, all settings, chunk sizes, schedules and exact linear algebra backends", "why_tests_cant": "Soundness and completeness together range over all subsets of all entry sets; tests compare counts on one chemical system in one order.", "anchors": ["src/rxn_network/enumerators/basic.py: BasicEnumerator.enumerate, _get_rxns_from_chemsys, _filter_dict_by_elems, _react, _react_function", "src/rxn_network/reactions/basic.py: BasicReaction._balance_coeffs", "src/rxn_network/reactions/computed.py: ComputedReaction.balance"]}
{"id": "C133", "title": "From phases to pathways: enumerating, building a network and searching it finds a route exactly when one exists", "statement": "Enumerate the reactions of a set of phases, build a network of them, set precursors and search for k pathways to a target. The search returns something if and only if the target can be made from the precursors by balanced reactions of the given phases that the settings admit; every returned pathway is such a sequence; at most k are returned and the first is cheapest among all such sequences. Whether one is found and the cost of the first do not depend on the order of phases and precursors, chunking, scheduling or linear algebra; with more phases, precursors or looser settings nothing is lost and the first does not become more expensive.", "quantifier": "all sets of phases that are told apart by the balancing tolerance, all orders, settings, non-negative cost functions, precursors, targets, k, schedules and exact shortest-path routines", "why_tests_cant": "The claim compares the output with all conceivable reaction sequences over all phase sets; tests run one workflow on one chemical system and compare counts.", "anchors": ["src/rxn_network/enumerators/basic.py: BasicEnumerator.enumerate", "src/rxn_network/network/network.py: ReactionNetwork.build, set_precursors, set_target, find_pathways, _shortest_paths, _k_shortest_paths", "src/rxn_network/reactions/basic.py: BasicReaction.balance"]}
{"id": "C134", "title": "An enumeration with open phases returns exactly the reactions that exchange open phases on one side", "statement": "BasicOpenEnumerator returns a reaction if and only if its phases are among the entries, it balances in one way, each side has a phase that is not open and at most n of these, the open phases are on exactly one side, and it meets the precursors, targets and filter; each such reaction is returned once and with its coefficients. The result depends on the sets of phases and open phases only, not on their order, the chunk size, the number of jobs or the schedule; it grows with the entries, n and looser requirements; without precursors and targets it has both directions of each reaction. Together with BasicEnumerator on the same entries it has every reaction with open phases on one side at most. The documented effect of filter_by_chemsys (all output reactions contain an element of the system) does not hold with two open phases.", "quantifier": "all sets of entries and open phases, all settings with one constraint, all chunk sizes, numbers of jobs, completion orders and exact linear algebra backends", "why_tests_cant": "The number of candidate pairs grows with the product of two power sets; a test compares counts for one small chemical system and cannot see a missing reaction for other systems, orders or schedules.", "anchors": ["src/rxn_network/enumerators/basic.py:BasicOpenEnumerator", "src/rxn_network/enumerators/basic.py:BasicEnumerator.enumerate", "src/rxn_network/enumerators/basic.py:_react", "src/rxn_network/reactions/basic.py:BasicReaction._balance_coeffs"]}
{"id": "C135", "title": "The plot of an interface reaction hull shows every reaction at its place and the lower hull", "statement": "InterfaceReactionHull.plot makes a figure with exactly one point for each given reaction, at the reaction's own mixing ratio and energy and labelled with it, and one for each end. The drawn lines are exactly the edges of the lower convex hull that are not on the zero line: wherever the hull energy is negative the point of that energy lies on a drawn line, and every drawn line shows the hull energy. No point is below the visible range, a point is visible exactly when its energy is at most y_max, and for y_max at least zero all lines are visible.", "quantifier": "all lists of interface reactions, all orders in which ties are sorted, all facet lists a planar hull routine may return, all y_max", "why_tests_cant": "A test looks at one picture; the selection of facets by the sign of their energies must be right for every set of points, including points at the two ends and on the zero line.", "anchors": ["src/rxn_network/reactions/hull.py:InterfaceReactionHull.plot", "src/rxn_network/reactions/hull.py:InterfaceReactionHull._get_scatter", "src/rxn_network/reactions/hull.py:InterfaceReactionHull._get_lines", "src/rxn_network/reactions/hull.py:InterfaceReactionHull.__init__"]}
{"id": "C136", "title": "The hull of the enumerated reactions between two phases is the thermodynamic ground state of every mixture of them", "statement": "When a BasicEnumerator run over a set of phases is followed by building an InterfaceReactionHull of the returned reactions that consume only the phases A and B, then get_hull_energy(x) is the lowest energy per atom that any mixture of A and B with the share x of B can reach by turning into any combination of the given phases: no combination of phases, however many, is lower, and the value is reached by one. In particular the hull shows a reaction that releases energy exactly when some mixture of A and B can release energy.", "quantifier": "all sets of phases with any energies, all pairs A and B, all mixing ratios, all decompositions into any number of phases, all runs (order, chunks, scheduling, linear algebra)", "why_tests_cant": "The minimum ranges over all decompositions into any number of phases, while the enumerator only lists reactions with at most n phases on a side; that the convex hull of these covers all of them has to be proved for every set of phases.", "anchors": ["src/rxn_network/enumerators/basic.py:BasicEnumerator.enumerate", "src/rxn_network/reactions/hull.py:InterfaceReactionHull.__init__", "src/rxn_network/reactions/hull.py:InterfaceReactionHull.get_hull_energy", "src/rxn_network/reactions/hull.py:InterfaceReactionHull.get_coordinate", "src/rxn_network/reactions/computed.py:ComputedReaction.energy_per_atom"]}
{"id": "C137", "title": "A solved pathway can be carried out with the amounts of its net reaction", "statement": "Every balanced pathway that the solver returns with filter_interdependent=True can really be carried out: starting with nothing but the reactants of the net reaction, in the amounts of the net reaction, its steps can be performed in portions, each time using no more of a phase than is there, until every step has been performed as often as its multiplicity says. No phase has to be borrowed, not even one that is made again later.", "quantifier": "all net reactions, all candidate reactions and pathways, all solver settings and schedules; the portions range over all finite sequences of steps with arbitrary amounts", "why_tests_cant": "Whether a suitable sequence of portions exists is a question about infinitely many sequences, for every pathway; the sum of the steps and the interdependence flag, which a test can look at, do not say that no intermediate runs out on the way.", "anchors": ["src/rxn_network/pathways/solver.py:PathwaySolver.solve", "src/rxn_network/pathways/balanced.py:BalancedPathway.contains_interdependent_rxns", "src/rxn_network/pathways/solver.py:_balance_path_arrays_cpu"]}
{"id": "C138", "title": "Filtering by stability does not move the hull; filters compose and commute with subsystems", "statement": "For every entry set and every cutoff >= 0, with or without polymorphs: after filter_by_stability the lowest energy of every mixture of entries, and hence every entry's energy above hull, is what it was before. With polymorphs, or if entries of one formula have different energies: filtering with one cutoff and then another is filtering with the smaller one, filtering again changes nothing (this always), and get_subset_in_chemsys followed by filter_by_stability gives the same entries as the other order. The filter succeeds exactly if every element has an elemental entry, and the filtered set still has all elements with elemental entries. get_e_above_hull and the filter use the hull of the whole set although they only look at smaller phase diagrams.", "quantifier": "every entry set, cutoff, choice of polymorphs, chemical subsystem and mixture of entries", "why_tests_cant": "The hull is a minimum over infinitely many mixtures; whether leaving out entries moves it depends on all entries together, and the claims relate different runs of the filter on different sets.", "anchors": ["src/rxn_network/entries/entry_set.py:GibbsEntrySet.filter_by_stability", "src/rxn_network/entries/entry_set.py:GibbsEntrySet.get_subset_in_chemsys", "src/rxn_network/entries/entry_set.py:GibbsEntrySet.get_e_above_hull", "src/rxn_network/entries/entry_set.py:GibbsEntrySet.pd_dict", "src/rxn_network/thermo/utils.py:expand_pd"]}
{"id": "C139", "title": "With an open element, the hull of the enumerated reactions is the grand-potential ground state of the interface", "statement": "Enumerate the reactions of a set of phases, with and without an open element, and build the interface hull of the reactions of two phases A and B at a chemical potential of that element. Then the hull energy at every ratio of A and B is the lowest grand potential that the mixture can reach while it exchanges any amount of the open element with a reservoir: no combination of phases lies below it and it is reached. Some hull point is negative exactly if some mixture can release energy. The potential is counted from the energy per atom of the pure element's entry.", "quantifier": "every set of phases, pair of phases, open element, chemical potential, ratio of the two phases, and combination of product phases with any exchange of the element", "why_tests_cant": "The ground state ranges over all real combinations of phases and all amounts exchanged with the reservoir, not only over the reactions that the enumerators list.", "anchors": ["src/rxn_network/enumerators/basic.py:BasicEnumerator", "src/rxn_network/enumerators/basic.py:BasicOpenEnumerator", "src/rxn_network/reactions/open.py:OpenComputedReaction.from_computed_rxn", "src/rxn_network/reactions/computed.py:ComputedReaction.energy_per_atom", "src/rxn_network/reactions/reaction_set.py:ReactionSet.get_rxns", "src/rxn_network/reactions/hull.py:InterfaceReactionHull.get_hull_energy"]}
{"id": "C140", "title": "The minimization enumerator finds the same interface reactions as the exhaustive one", "statement": "Enumerating the reactions of a set of phases exhaustively and drawing the hull of those between two phases A and B, or asking the Gibbs minimization enumerator for the same phases with the same settings, gives the same answer at the interface: every lower corner of the hull (other than an idle A or B) is the point of a reaction that the minimization enumerator also returns, with the same phases on each side in the same proportions and the same energy per atom; and every reaction it computes from a kink is a lower corner of the hull, whose reaction the exhaustive enumeration returned. The corners are exactly those of the ground state energy of mixtures of A and B.", "quantifier": "all lawful chemistries, sets of phases with distinct reduced compositions, pairs of phases, energies, enumerator settings that admit the pair, iteration orders and ray schedules of both runs, and all lists of kinks with pymatgen's promise", "why_tests_cant": "Relates two different algorithms, one going through every combination of phases and one through a phase diagram, on every set of phases and energies; tests compare counts on fixed data.", "anchors": ["src/rxn_network/enumerators/minimize.py:MinimizeGibbsEnumerator._react_function", "src/rxn_network/enumerators/utils.py:react_interface", "src/rxn_network/enumerators/utils.py:get_computed_rxn", "src/rxn_network/enumerators/basic.py:BasicEnumerator.enumerate", "src/rxn_network/reactions/hull.py:InterfaceReactionHull"]}
{"id": "C141", "title": "Reaction energies do not depend on the reference energies of the elements", "statement": "Measuring the energies of all phases against other reference energies of the elements (absolute energies instead of formation energies, say), or giving phases in larger cells, changes neither the compositions, amounts and balanced flag of a reaction nor, if it conserves the elements, its energy, its energy per atom and the points of the interface hull it belongs to; a reaction that is balanced within the tolerance only changes by at most the tolerance times the change of the references. The same holds for open reactions when the chemical potentials of the open elements are measured against the same references.", "quantifier": "all lawful chemistries, entries (also several polymorphs of one phase), changes of the references of all elements, cell sizes, coefficients, sets of open elements and chemical potentials", "why_tests_cant": "An invariance under arbitrary changes of every energy of the input; tests compute with one set of energies.", "anchors": ["src/rxn_network/reactions/computed.py:ComputedReaction.energy", "src/rxn_network/reactions/computed.py:ComputedReaction.energy_per_atom", "src/rxn_network/reactions/open.py:OpenComputedReaction.__init__", "src/rxn_network/reactions/open.py:OpenComputedReaction.energy", "src/rxn_network/reactions/hull.py:InterfaceReactionHull"]}
{"id": "C142", "title": "More competition never improves the competition scores of a reaction", "statement": "Take a reaction on an interface reaction hull and make its competition tougher, by adding further reactions or by lowering the energies of the others. Then its primary competition does not decrease, its energy above the hull does not decrease, and if it is stable afterwards it was stable before. Lowering the energy of the reaction itself by d lowers its primary competition by exactly d. The secondary competition should not decrease either while the reaction stays stable.", "quantifier": "every two lists of reaction points on the interface where the second has, at the coordinate of each point of the first, a point with the same or a lower energy; every hull object made from them with any tie breaking and any order of the corners; every reaction present in both", "why_tests_cant": "The claim compares two arbitrary hulls; the existing tests evaluate the scores on one hull with fixed phases. The failure of the secondary competition needs a new competitor that removes others from the hull, which a fixed example does not show.", "anchors": ["src/rxn_network/reactions/hull.py: InterfaceReactionHull.get_primary_competition, get_energy_above_hull, get_secondary_competition, get_secondary_competition_max_energy, stable_reactions, hull_vertices"]}
{"id": "C143", "title": "A wider pathway search loses nothing", "statement": "Asking for more pathways keeps the pathways already found, in their places, target by target. Offering more reactions, more precursors or lower costs never loses a target that was found and never makes the first pathway to it more expensive. Multiplying all costs by one positive factor changes the cost of the first pathway by that factor only.", "quantifier": "all networks and all histories of calls for the number of pathways; all freshly built networks, sets of reactions, precursors, non-negative costs and targets for the comparison of two searches; every shortest path routine meeting its specification", "why_tests_cant": "The claim compares two runs on arbitrary networks; the tests search one network with one k and one cost function.", "anchors": ["src/rxn_network/network/network.py: ReactionNetwork.find_pathways, ReactionNetwork._k_shortest_paths, yens_ksp"]}
{"id": "C144", "title": "Competition scores do not depend on the unit of energy", "statement": "Giving the energies of all reactions on an interface in another unit, that is, multiplied by one positive factor, leaves the same reactions stable and multiplies the primary competition, the energy above the hull and the secondary competition in all its variants by that factor. So rankings of reactions by these scores do not depend on the unit.", "quantifier": "all lists of reaction points on the interface, positive factors, hull objects made from the points with any tie breaking and any order of the corners, and reactions on them", "why_tests_cant": "The scores are compared for arbitrary factors and energies, tests use energies in eV per atom. The hidden absolute tolerances of numpy.isclose show only for particular factors.", "anchors": ["src/rxn_network/reactions/hull.py: InterfaceReactionHull.get_primary_competition, get_secondary_competition, get_secondary_competition_max_energy, get_secondary_competition_area, get_energy_above_hull, hull_vertices, get_coords_in_range"]}
{"id": "C145", "title": "No sequence of reactions at an interface lies below its hull", "statement": "Take a mixture of two phases A and B and carry out any exactly balanced reactions of the available phases, one after the other, in any order and in any portions that the material allows. The energies that the reactions report add up to no less, per atom, than the energy of the interface hull of the enumerated reactions between A and B at that mixture. The hull energy itself is released by at most two of the enumerated reactions, and if no reaction on the hull releases energy, no sequence of reactions does. The same holds with an open element, whose pure phase is available and accepted in any amount, for the hull of the open reactions at a chemical potential.", "quantifier": "all phase sets, pairs of phases, mixtures, enumeration runs, and all finite sequences of balanced reactions with portions", "why_tests_cant": "The claim ranges over every multi-step route from every mixture; a test can only compare a hull with a few given routes.", "anchors": ["src/rxn_network/enumerators/basic.py: BasicEnumerator.enumerate", "src/rxn_network/reactions/hull.py: InterfaceReactionHull.__init__, get_hull_energy, hull_vertices", "src/rxn_network/reactions/computed.py: ComputedReaction.energy, energy_per_atom"]}
{"id": "C146", "title": "The reported chemical potential distance is the distance between the domains", "statement": "shortest_domain_distance(f1, f2) is the shortest Euclidean distance between the two phases' domains as regions of chemical potential space, as documented (\"shortest distance between domain boundaries in the full space\"): it is attained by points of the domains, it is zero exactly for phases whose domains meet, and no two points of the domains are closer.", "quantifier": "every diagram (any number of elements, phases, energies, limits), every pair of phases with a domain, every pair of points of their domains", "why_tests_cant": "The claim is about all points of two polytopes in every diagram; tests compare a few numbers, and the corners happen to be the closest points in every binary diagram.", "anchors": ["src/rxn_network/thermo/chempot_diagram.py:ChemicalPotentialDiagram.shortest_domain_distance", "src/rxn_network/thermo/chempot_diagram.py:ChemicalPotentialDiagram._get_domains"]}
{"id": "C147", "title": "Phases that touch in the chemical potential diagram do not react with each other", "statement": "If the reported shortest distance between two phases of a chemical potential diagram is zero, no element-conserving reaction whose reactants are only these two phases has a negative energy, whatever the products and polymorphs. Equivalently, two phases with a reaction that releases energy have a positive reported distance; and a phase that has a domain at all has no reaction that decomposes it and releases energy. More generally the energy released per atom by a reaction between two phases is at most half of their reported distance. The first part extends to any number of reactants whose domains have a common point (touching pairwise is not enough).", "quantifier": "every chemical system with any number of elements, every set of entries with their ground states, every diagram built from them, every pair of phases with domains, every conserving reaction between them with any products and coefficients", "why_tests_cant": "The claim ties the geometry of every diagram to the energy of every reaction among its phases; a test compares a few reactions in a few systems.", "anchors": ["src/rxn_network/thermo/chempot_diagram.py: shortest_domain_distance, _get_domains", "src/rxn_network/reactions/computed.py: ComputedReaction.energy, _calculate_energies", "src/rxn_network/costs/calculators.py: ChempotDistanceCalculator.calculate"]}
{"id": "C148", "title": "The chemical potential distance of a reaction bounds what can still react at its interfaces", "statement": "Let v be the chemical potential distance of a reaction between phases with domains. At every interface the reaction creates, a reactant with a product or two products, no conserving reaction between the two phases releases more energy per atom than v/2 (up to the rounding of v to five digits and the float error). If the reaction has metastable phases or polymorphs, for which metastable domains and offsets are used, the bound is v (up to the padding used to stabilize phases). In particular a reaction of distance zero leaves no reactive interface.", "quantifier": "every chemical system, every diagram, every reaction of phases with stable or metastable domains, every aggregation offered by name, every interface of the reaction and every further reaction at it, with any products", "why_tests_cant": "The guarantee concerns all further reactions at all interfaces, including ones nobody enumerated; tests compare single values.", "anchors": ["src/rxn_network/costs/calculators.py: ChempotDistanceCalculator.calculate", "src/rxn_network/thermo/chempot_diagram.py: shortest_domain_distance, get_offset", "src/rxn_network/reactions/computed.py: ComputedReaction.energy_per_atom"]}
{"id": "C149", "title": "The phases with a domain in the chemical potential diagram are the stable ones", "statement": "In a chemical potential diagram the formulas that have a domain are exactly those of the thermodynamically stable phases: no mixture of entries with the composition of such a phase is lower in energy, and conversely every phase that is strictly lower in energy than all mixtures of the other phases has a domain with at least one point.", "quantifier": "every number of elements, every set of entries and energies, every mixture (real-valued shares) of entries, every half-space intersection that meets its specification", "why_tests_cant": "tests check the domains of one chemical system; that stability and having a domain coincide is a duality statement over all energies and compositions and over all mixtures, including the limits of the chemical potentials", "anchors": ["src/rxn_network/thermo/chempot_diagram.py:ChemicalPotentialDiagram.__init__", "src/rxn_network/thermo/chempot_diagram.py:ChemicalPotentialDiagram.domains", "src/rxn_network/thermo/chempot_diagram.py:ChemicalPotentialDiagram._get_halfspace_intersection", "src/rxn_network/thermo/chempot_diagram.py:ChemicalPotentialDiagram._get_hyperplanes_and_entries"]}
{"id": "C150", "title": "The dictionary of metastable domains covers exactly the phases without a stable domain", "statement": "Accessing metastable_domains lists, each once, exactly the ground-state formulas that have no stable domain, with the domain a diagram that was never asked anything gives for that formula; the access does not change the diagram, whatever was asked before; repeating it gives the same dictionary, and a distance query afterwards uses the listed domains.", "quantifier": "every diagram, every list of ground states, every history of earlier queries, every outcome of the stabilizations and of the constructed diagrams", "why_tests_cant": "the access runs a sequence of queries, each of which temporarily changes the shared entry set; whether they interfere depends on the history and on which of them fail, tests see one diagram in one state", "anchors": ["src/rxn_network/thermo/chempot_diagram.py:ChemicalPotentialDiagram.metastable_domains", "src/rxn_network/thermo/chempot_diagram.py:ChemicalPotentialDiagram.domains", "src/rxn_network/thermo/chempot_diagram.py:ChemicalPotentialDiagram.shortest_domain_distance"]}
{"id": "C151", "title": "Network plots colour nodes by chemical system", "statement": "Plotting a network gives every node, in node order, a colour; two nodes have the same colour exactly when their chemical systems are the same (also for the dummy node, whose system is empty); the colours are numbered in alphabetical order of the systems and fill the palette; asking the colour of a system that is not in the network is an error.", "quantifier": "every list of nodes, every assignment of chemical systems, every palette whose entries differ", "why_tests_cant": "the colour of a node depends on the systems of all other nodes through sorting, deduplication and a lookup table; tests draw one network and look at no colours", "anchors": ["src/rxn_network/network/visualize.py:plot_network", "src/rxn_network/network/visualize.py:_get_cmap_string"]}
{"id": "C152", "title": "Chemical potential domains do not depend on reference energies, energy unit or order of the phases", "statement": "Give the energies per atom in another unit and relative to other element references, move the limits of the diagram along, and list the phases in any other order: the same phases have a domain, the corners of each domain are the moved corners of before, and the reported distance between any two phases with a domain is the old one times the ratio of the units. (With the limits left where they are this fails: phases can lose their domain.)", "quantifier": "every set of elements, every phase list with any energies, every shift of the element references, every positive ratio of units, every reordering of phases and limits", "why_tests_cant": "tests build one diagram from one set of energies; the statement compares two diagrams for all shifts, units and orders", "anchors": ["src/rxn_network/thermo/chempot_diagram.py:ChemicalPotentialDiagram._get_hyperplanes_and_entries", "src/rxn_network/thermo/chempot_diagram.py:ChemicalPotentialDiagram._get_border_hyperplanes", "src/rxn_network/thermo/chempot_diagram.py:ChemicalPotentialDiagram._get_domains", "src/rxn_network/thermo/chempot_diagram.py:ChemicalPotentialDiagram.shortest_domain_distance"]}
{"id": "C153", "title": "A wider solver run loses no pathway and its best pathway is not more expensive", "statement": "If a solver run is repeated with further candidate reactions (given after the previous ones, or equal to none of them), a larger maximal number of reactions per pathway, or without the interdependence filter, then every pathway returned before is returned again with the same multiplicities, equal steps and the same costs, and the first pathway returned is not more expensive on average than any returned before.", "quantifier": "all pairs of solver inputs of which the second is wider, all chunk and batch sizes, CPU counts and completion orders of both runs", "why_tests_cant": "It compares runs on different inputs whose sets of combinations, chunk boundaries and completion orders all differ; a test compares single pairs of runs only.", "anchors": ["src/rxn_network/pathways/solver.py:PathwaySolver.solve", "src/rxn_network/pathways/solver.py:_create_comp_matrices", "src/rxn_network/pathways/pathway_set.py:PathwaySet.get_paths"]}
{"id": "C154", "title": "Enumerating and solving finds every plan", "statement": "Enumerate the reactions of a set of phases and give them to the pathway solver as intermediate reactions. For every plan that splits the net reaction into sought reactions with one choice of multiplicities only, with at least two and at most max_num_combos steps, the solver returns a pathway of exactly these reactions, each carried out to the extent of the plan. It holds for convergent routes that the path search misses. Conversely every step of a returned pathway made of enumerated reactions is a sought reaction, and the steps add up to the net reaction within tolerance.", "quantifier": "all sets of phases told apart by the balancing tolerance, enumeration settings, orders, schedules, pathways given besides, net reactions and plans", "why_tests_cant": "The claim joins a combinatorial search over all sets of phases with another one over all combinations of reactions; a test compares a few known routes and cannot show that no plan is lost between the two.", "anchors": ["src/rxn_network/enumerators/basic.py:BasicEnumerator.enumerate", "src/rxn_network/pathways/solver.py:PathwaySolver.solve", "src/rxn_network/pathways/solver.py:PathwaySolver._clean_reactions"]}
{"id": "C155", "title": "Enumerate once, evaluate at any temperature", "statement": "The reactions that an enumeration returns do not depend on the energies of the entries: running it on the entries converted to another temperature (with precursors, targets and open phases converted too) returns the same reactions as before, each with the same coefficients up to a positive factor, and its energy per atom (at any chemical potential, with an open element) is the one obtained by asking the reaction of the first run for the new temperature. This holds for the exhaustive enumerator and for the one with open phases.", "quantifier": "all sets of phases with distinct reduced formulas that are told apart by the balancing tolerance, all energies before and after, all settings with default constraints, all orders, schedules and exact linear algebra backends of both runs", "why_tests_cant": "Two complete searches over all combinations of phases must agree for every pair of energy tables; a test compares one system at two temperatures.", "anchors": ["src/rxn_network/enumerators/basic.py:BasicEnumerator.enumerate", "src/rxn_network/reactions/computed.py:ComputedReaction.get_new_temperature", "src/rxn_network/reactions/computed.py:ComputedReaction.energy_per_atom"]}
{"id": "C156", "title": "Operations on a reaction set can be done in any order", "statement": "Setting the chemical potential of a reaction set commutes with merging, with both queries, with removing duplicates and with setting the temperature: in either order the same set, the same reactions or the same failure results. Asking a merged set gives what asking its parts gives. Setting the temperature commutes with merging and with both queries up to the order of the reactions.", "quantifier": "all reaction sets (built by the operations of the class where temperature or queries of merged sets are concerned), all potentials, temperatures, formulas asked for, reactions to be kept, and all iteration orders", "why_tests_cant": "Each law compares two orders of operations for every set, every content and every iteration order; a test compares the two orders on one set.", "anchors": ["src/rxn_network/reactions/reaction_set.py:ReactionSet.set_chempot", "src/rxn_network/reactions/reaction_set.py:ReactionSet.add_rxn_set", "src/rxn_network/reactions/reaction_set.py:ReactionSet.set_new_temperature", "src/rxn_network/reactions/reaction_set.py:ReactionSet.get_rxns_by_reactants", "src/rxn_network/reactions/reaction_set.py:ReactionSet.get_rxns_by_product", "src/rxn_network/reactions/reaction_set.py:ReactionSet.filter_duplicates"]}
{"id": "C157", "title": "How an interface responds to the chemical potential of an open element", "statement": "The energy per atom of a reaction open to an element is a straight line in the chemical potential of that element, with the slope of what the reaction binds of it per atom not exchanged; a reaction that binds or frees the element changes sign at exactly one potential. Whether the hull of an interface can be built does not depend on the potential. The lower envelope of the hull is a concave function of the potential at every mixing ratio, does not rise with the potential if all reactions bind the element, and the potentials at which no reaction releases energy form an interval. If no mixture of the two phases in contact with the reservoir can release energy at two potentials, none can at any potential between.", "quantifier": "all reactions, all lists of reactions, all pairs of phases, all potentials, all ways of sorting ties; for mixtures, all phases, entries and enumerations in the setting of C139", "why_tests_cant": "A test evaluates a hull at finitely many potentials; the claims compare hulls at all potentials of a continuous range, for all sets of reactions.", "anchors": ["src/rxn_network/reactions/open.py:OpenComputedReaction.energy", "src/rxn_network/reactions/computed.py:ComputedReaction.energy_per_atom", "src/rxn_network/reactions/hull.py:InterfaceReactionHull.__init__", "src/rxn_network/reactions/hull.py:InterfaceReactionHull.get_hull_energy"]}
{"id": "C158", "title": "Errors of the phase energies are amplified at most by a fixed factor", "statement": "If the energies per atom of all phases are wrong by at most d, then the energy per atom of a reaction is wrong by at most 2d, the hull of an interface and the energies of its points are wrong by at most 2d, primary competition and energy above the hull are wrong by at most 4d, secondary competition is wrong by a bounded multiple of d; a reaction further above the hull than the error is unstable, and an interface whose hull lies deeper than the error reacts.", "quantifier": "all entries and errors, all conserving reactions between different phases, all lists of reactions, all interfaces, all tie breaking and orders of hull corners, all mixing ratios", "why_tests_cant": "The bound must hold for every error of every phase, in any combination; a test perturbs one data set in one way. The jump of the default secondary competition appears only when a reaction crosses the hull.", "anchors": ["src/rxn_network/reactions/computed.py:ComputedReaction.energy_per_atom", "src/rxn_network/reactions/open.py:OpenComputedReaction.energy", "src/rxn_network/reactions/hull.py:InterfaceReactionHull.get_primary_competition", "src/rxn_network/reactions/hull.py:InterfaceReactionHull.get_energy_above_hull", "src/rxn_network/reactions/hull.py:InterfaceReactionHull.get_secondary_competition", "src/rxn_network/reactions/hull.py:InterfaceReactionHull.get_secondary_competition_max_energy"]}
{"id": "C159", "title": "Stability of entries under more data, wrong energies and other references", "statement": "For every entry set with elemental entries: adding entries never reports an entry closer to the hull, and an entry kept by filter_by_stability of a larger set is kept of every smaller set containing it. If no energy is wrong by more than delta per atom, no reported energy above hull is wrong by more than 2 delta, whatever the number of entries, and with polymorphs included the filter with the wrong energies keeps only what the filter with a cutoff larger by 2 delta keeps with the right ones. Lowering competitors or raising an entry never brings it closer to the hull. Shifting energies by a fixed amount per atom of each element changes no energy above hull, other units scale them, and the filter returns the same entries for the cutoff in these units. Filtering a set in parts, or filtering, adding entries and filtering again, returns the entries that filtering everything at once returns (if polymorphs are dropped, these comparisons of filters assume that entries of one formula have different energies).", "quantifier": "every entry set, every partition or extension of it, every pair of energy assignments, every error bound, every cutoff that is not negative, with and without polymorphs", "why_tests_cant": "the laws range over all sets of phases and all assignments of energies, and compare runs on different data; tests fix one data set and one result", "anchors": ["src/rxn_network/entries/entry_set.py:GibbsEntrySet.filter_by_stability", "src/rxn_network/entries/entry_set.py:GibbsEntrySet.get_subset_in_chemsys", "src/rxn_network/entries/entry_set.py:GibbsEntrySet.get_e_above_hull", "src/rxn_network/entries/entry_set.py:GibbsEntrySet.pd_dict", "src/rxn_network/thermo/utils.py:expand_pd"]}
{"id": "C160", "title": "Costs and the pathways chosen by them are robust against errors of the parameters", "statement": "If every parameter of a reaction is wrong by at most a given amount, WeightedSum and Softplus costs are wrong by at most the sum of these amounts weighted with the sizes of the weights; Softplus amplifies nothing. Which of two reactions is cheaper is the same for Softplus at every temperature and for the weighted sum; raising the Softplus temperature from t to t' lowers every cost by at most log(t'/t), and the cost lies within log 2 above max(0, weighted sum + log(273/t)). If no cost is wrong by more than delta: find_pathways finds a target exactly if it does with the right costs, reports the cost of the first pathway within delta per step, and the pathway chosen really costs at most delta per step of both pathways more than the best; the pathway solver returns the same pathways, their average costs are wrong by at most delta, and the first one is really at most 2 delta above the best average cost.", "quantifier": "all real parameter values, weights and temperatures; all networks, precursors and targets; all solver inputs, schedules, chunk and batch sizes; all pairs of cost assignments", "why_tests_cant": "the bounds compare pairs of runs on all possible data; a test fixes one set of costs and can only see that a result is plausible for it", "anchors": ["src/rxn_network/costs/functions.py:Softplus", "src/rxn_network/costs/functions.py:WeightedSum", "src/rxn_network/network/network.py:ReactionNetwork.find_pathways", "src/rxn_network/pathways/solver.py:PathwaySolver.solve", "src/rxn_network/pathways/balanced.py:BalancedPathway.average_cost"]}
{"id": "C161", "title": "Chemical potential domains and distances respond predictably to more phases and wrong energies", "statement": "When phases are added to a chemical potential diagram, or the energies of some phases are lowered, the domain of every phase whose energy did not change only shrinks, a phase that had no domain does not gain one, domains that touch afterwards touched before, and the reported distance between two such phases never decreases. If the energies per atom are wrong by at most d, every listed point is, after lowering all potentials by d, a point where no phase gains energy and the phase is within 2d of equilibrium; every phase with a domain is at most 2d above any mixture of phases; and a phase more than 2d below all mixtures of the others keeps its domain.", "quantifier": "all pairs of diagrams over the same elements where the second has, for each phase of the first, one of the same composition and no higher energy; all energy errors up to any bound; all phases, mixtures and points", "why_tests_cant": "Tests compare distances in one stored diagram; a user who adds entries, updates energies or applies corrections relies on how all diagrams change.", "anchors": ["src/rxn_network/thermo/chempot_diagram.py:ChemicalPotentialDiagram.shortest_domain_distance", "src/rxn_network/thermo/chempot_diagram.py:ChemicalPotentialDiagram._get_domains", "src/rxn_network/thermo/chempot_diagram.py:ChemicalPotentialDiagram._get_hyperplanes_and_entries", "src/rxn_network/thermo/chempot_diagram.py:ChemicalPotentialDiagram._get_hyperplane"]}
{"id": "C162", "title": "Reaction energies between computed compounds are straight lines in temperature", "statement": "Take a balanced reaction whose participants are different computed compounds, and move all their entries to one temperature. The energy of the reaction, in total and per atom, is on a straight line as a function of that temperature: the values at two temperatures give the value at every third. So the energy between two temperatures lies between its values there, a reaction changes from favourable to unfavourable at most once, the result does not depend on the tabulated chemical potentials of the elements, and the hull of an interface between two temperatures is nowhere below the interpolated hulls: an interface that does not react at either temperature does not react in between. With elemental phases the energy is not linear, but between neighbouring nodes of the elemental table a reaction that consumes elements is nowhere below the line between the nodes, and one that releases elements nowhere above. With entries of any kind (computed, elemental, experimental, interpolated) the energy per atom differs between two temperatures of one interval of the tables from its interpolation by at most the bend of the logarithmic correction, one bound for all reactions. The hull of an interface is at most that far below the interpolated hulls. Where several polymorphs of a composition are listed, the energy is nowhere below the line if no consumed composition is listed more than once, and nowhere above if no produced one is.", "quantifier": "every composition arithmetic, every table of chemical potentials, every logarithm and set of atomic masses, every list of computed entries and coefficients that conserve the elements, every three temperatures at which the entries can be made, every mixture of kinds of entries, every interface built from such reactions", "why_tests_cant": "A test compares energies at a handful of temperatures for a handful of reactions; the claim is about all temperatures between and beyond, for all compounds and all reference tables.", "anchors": ["src/rxn_network/entries/gibbs.py:GibbsComputedEntry.gibbs_adjustment", "src/rxn_network/entries/gibbs.py:GibbsComputedEntry.get_new_temperature", "src/rxn_network/entries/gibbs.py:GibbsComputedEntry._g_delta_sisso", "src/rxn_network/entries/gibbs.py:GibbsComputedEntry._sum_g_i", "src/rxn_network/reactions/computed.py:ComputedReaction.energy", "src/rxn_network/reactions/computed.py:ComputedReaction.energy_per_atom", "src/rxn_network/reactions/hull.py:InterfaceReactionHull", "src/rxn_network/entries/experimental.py:ExperimentalReferenceEntry.get_new_temperature", "src/rxn_network/entries/interpolated.py:InterpolatedEntry.get_new_temperature"]}
{"id": "C163", "title": "Which reaction or pathway is cheaper follows the phase energies, up to their errors, and changes at most once with temperature", "statement": "The default cost of a computed reaction is Softplus of its energy per atom, so of two reactions the one with the lower energy per atom is cheaper, at every temperature of the cost function. If the energies per atom of all phases are wrong by at most d, the cost of a balanced reaction is wrong by at most 2d; of two reactions whose costs differ by more than 4d the cheaper one is recognised; a pathway search finds a pathway exactly if it does with the right energies, and the pathway chosen really costs at most 2d per step of both pathways more than the best. Of two reactions between computed compounds, one that is cheaper at two temperatures is cheaper at all temperatures in between, and a change of which is cheaper is never undone at a higher temperature.", "quantifier": "all composition arithmetics, entries, errors, coefficients and conserving reactions between different phases; all pairs of reactions; all networks, precursors and targets; all cost functions of the energy per atom that amplify nothing; all temperatures of entries and cost functions", "why_tests_cant": "It relates results of separate runs with different, unknown errors and at every temperature of an interval; no finite set of runs settles it.", "anchors": ["src/rxn_network/costs/functions.py:Softplus.evaluate", "src/rxn_network/reactions/computed.py:ComputedReaction.energy_per_atom", "src/rxn_network/entries/gibbs.py:GibbsComputedEntry.get_new_temperature", "src/rxn_network/network/network.py:ReactionNetwork.find_pathways"]}
{"id": "C164", "title": "Stability between two temperatures is bounded by the stability at both", "statement": "If the energy of every entry is at least a weighted mean of two sets of energies, an entry whose energy is at most J per atom above the mean lies at most J further above the hull than the weighted mean of its two distances; what the stability filter keeps with both sets, it keeps with their mean at a cutoff larger by J (polymorphs included). So between two neighbouring temperatures of the tables a computed compound is at most the bend of 0.181 ln T (eV/atom) further above the hull than interpolation of its distances says, an elemental, experimental or interpolated entry not at all; in particular an entry stable at both temperatures is within this bound of the hull at every temperature in between. The bound is reached: such an entry can be unstable in between.", "quantifier": "all entry sets with a reference for each element, all compositions, energies, masses, volumes and corrections; all weights between 0 and 1; all temperatures between two nodes; all cutoffs", "why_tests_cant": "It relates the hulls of separate entry sets at every temperature of an interval and all competing mixtures; no finite set of runs settles it.", "anchors": ["src/rxn_network/entries/entry_set.py:GibbsEntrySet.get_e_above_hull", "src/rxn_network/entries/entry_set.py:GibbsEntrySet.filter_by_stability", "src/rxn_network/entries/entry_set.py:GibbsEntrySet.get_entries_with_new_temperature", "src/rxn_network/entries/gibbs.py:GibbsComputedEntry.get_new_temperature", "src/rxn_network/entries/gibbs.py:GibbsComputedEntry.gibbs_adjustment"]}
{"id": "C165", "title": "A reaction that is selective at two temperatures is selective in between", "statement": "For the reactions of an interface between computed compounds, at a temperature between two others: the primary competition of a reaction and its energy above the hull are at most the interpolation of their values at the two temperatures, a reaction that is stable at both is stable in between, and the secondary competition is at most the interpolation. So a score below a threshold at both ends of a temperature window stays below it inside.", "quantifier": "all sets of conserving reactions between different computed compounds, all volumes, masses and corrections of the entries, all element potentials, all triples of temperatures, all reactions of the set, all outputs of the hull routine", "why_tests_cant": "It concerns every temperature of an interval and hulls whose corners change in between; no finite set of runs settles it.", "anchors": ["src/rxn_network/reactions/hull.py:InterfaceReactionHull.get_primary_competition", "src/rxn_network/reactions/hull.py:InterfaceReactionHull.get_energy_above_hull", "src/rxn_network/reactions/hull.py:InterfaceReactionHull.get_secondary_competition", "src/rxn_network/reactions/hull.py:InterfaceReactionHull.stable_reactions", "src/rxn_network/entries/gibbs.py:GibbsComputedEntry.get_new_temperature"]}
{"id": "C166", "title": "A reaction that is selective at two chemical potentials of an open element is selective in between", "statement": "For the reactions of an interface in contact with a reservoir of one element, at a chemical potential between two others: the primary competition of a reaction and its energy above the hull are at most the interpolation of their values at the two potentials, a reaction that is stable at both is stable in between, and for a reaction that is stable at both, the secondary competition computed with maximum energies is at most the interpolation if neither phase of the interface reacts on its own at the two potentials. So scores below a threshold at both ends of a window of potentials stay below it inside.", "quantifier": "all interfaces, all lists of reactions, all reactions of the list, all open elements, all triples of potentials, all ways of sorting ties and all outputs of the hull routine", "why_tests_cant": "Tests evaluate scores at a few potentials; the claim is about the continuum of potentials between any two and all sets of reactions.", "anchors": ["src/rxn_network/reactions/open.py:OpenComputedReaction.energy", "src/rxn_network/reactions/hull.py:InterfaceReactionHull.get_primary_competition", "src/rxn_network/reactions/hull.py:InterfaceReactionHull.get_energy_above_hull", "src/rxn_network/reactions/hull.py:InterfaceReactionHull.get_secondary_competition_max_energy", "src/rxn_network/reactions/hull.py:InterfaceReactionHull.stable_reactions"]}
{"id": "C167", "title": "A reaction or pathway that is cheap at two conditions is cheap in between", "statement": "If each parameter of a reaction between two conditions (temperatures or chemical potentials) is the interpolation of its values at both, or at most that where its weight is not negative, the weighted sum and the Softplus cost are at most the interpolation of the costs at both, even if the temperature of the cost function changes along. In particular the default cost of a reaction between computed compounds is a convex function of the temperature. The average cost of a balanced pathway with positive multiplicities is at most the interpolation, and for every pathway found at one condition, the search in between finds a pathway and reports a cheapest one that costs at most the interpolation of what the given one costs at both.", "quantifier": "all parameter lists, weights, reactions and cost function temperatures; all conserving reactions between different computed compounds and all triples of temperatures; all multiplicities and costs; all networks, precursors, targets and numbers of pathways", "why_tests_cant": "It concerns every condition of an interval, every cost function and every network; no finite set of runs settles it.", "anchors": ["src/rxn_network/costs/functions.py:Softplus.evaluate", "src/rxn_network/costs/functions.py:WeightedSum.evaluate", "src/rxn_network/pathways/balanced.py:BalancedPathway.average_cost", "src/rxn_network/network/network.py:ReactionNetwork.find_pathways", "src/rxn_network/entries/gibbs.py:GibbsComputedEntry.get_new_temperature"]}
