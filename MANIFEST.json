{
 "claims": [
  {
   "property": "C01",
   "status": "proved",
   "theorems": [
    "Verif.Props.Hull.C01_count_is_number_of_trees",
    "Verif.Props.Hull.C01_recursive_branch"
   ],
   "note": "Table and recursive branch both equal the number of binary trees."
  },
  {
   "property": "C02",
   "status": "proved",
   "theorems": [
    "Verif.Props.Hull.C02_triple_loop_is_tree_sum",
    "Verif.Props.Hull.C02_altitude_is_vertical_distance",
    "Verif.Props.Hull.C02_any_range",
    "Verif.Props.Hull.C02_decomposition_energy",
    "Verif.Props.HullScore.C02_secondary_value"
   ],
   "note": "Any points, any altitude function; instantiated at the hull API. Exact rationals."
  },
  {
   "property": "C03",
   "status": "proved",
   "theorems": [
    "Verif.Props.Hull.C03_decomposition_nonpos",
    "Verif.Props.Hull.C03_secondary_competition_nonneg",
    "Verif.Props.Hull.C03_max_is_extremal",
    "Verif.Props.HullTol.C03_tolerance_violated"
   ],
   "note": "ConvexHull output is a hypothesis (GoodHull): filtered vertices form the lower hull and are separated by more than the isclose tolerance."
  },
  {
   "property": "C04",
   "status": "partial",
   "theorems": [
    "Verif.Props.Hull.C04_degenerate_counterexample",
    "Verif.Props.Hull.C04_degenerate_normalized_partial"
   ],
   "note": "Refuted for normalize=False (count(-1) wraps around); proved for normalize=True."
  },
  {
   "property": "C05",
   "status": "proved",
   "theorems": [
    "Verif.Props.Hull.C05_lever_rule",
    "Verif.Props.Hull.C05_vertex",
    "Verif.Props.HullConvex.C05_lower_hull"
   ],
   "note": "C05_lower_hull derives GoodHull, the hypothesis of the other two, from the specification of scipy's ConvexHull."
  },
  {
   "property": "C06",
   "status": "proved",
   "theorems": [
    "Verif.Props.Hull.C06_primary_competition"
   ],
   "note": "argsort modelled as a stable sort; coordinate equality exact."
  },
  {
   "property": "C07",
   "status": "proved",
   "theorems": [
    "Verif.Props.Hull.C07_energy_above_hull",
    "Verif.Props.Hull.C07_partition",
    "Verif.Props.Hull.C07_disjoint",
    "Verif.Props.HullConvex.C07_stable_iff",
    "Verif.Props.HullConvex.C07_envelope",
    "Verif.Props.HullTol.C07_tolerance_violated"
   ],
   "note": "Reactions identified by position. The last two need only the specification of scipy's ConvexHull and that no two different points are confused by isclose."
  },
  {
   "property": "C08",
   "status": "partial",
   "theorems": [
    "Verif.Props.Reaction.C08_coordinate_partial",
    "Verif.Props.Reaction.C08_scale_invariant",
    "Verif.Props.Reaction.C08_trace_violated"
   ],
   "note": "Coordinate in [0,1], ends and scale invariance for balanced reactions with distinct phases. Because of the rounding to 12 digits a coordinate of 0 only means a share of at most 5e-13 (C08_trace_violated); the end 1 follows by exchanging the reactants (C127_coordinate)."
  },
  {
   "property": "C09",
   "status": "proved",
   "theorems": [
    "Verif.Props.Reaction.C09_balanced_iff_conserved",
    "Verif.Props.Reaction.C09_computed",
    "Verif.Props.Reaction.C09_duplicate_counterexample"
   ],
   "note": "Iff for pairwise distinct compositions; the duplicate-composition case is shown to fail."
  },
  {
   "property": "C10",
   "status": "proved",
   "theorems": [
    "Verif.Props.Balance.C10_sound",
    "Verif.Props.Balance.C10_sides",
    "Verif.Props.BalanceBest.C10_fewest_errors",
    "Verif.Props.BalanceBest.C10_computed"
   ],
   "note": "For an arbitrary linear-algebra backend; only the shape of its output is assumed."
  },
  {
   "property": "C11",
   "status": "proved",
   "theorems": [
    "Verif.Props.Balance.C11_complete",
    "Verif.Props.BalanceLinear.C11_complete_linear"
   ],
   "note": "Backend assumed to return a solution of every consistent constrained system and the true matrix rank (exact arithmetic)."
  },
  {
   "property": "C12",
   "status": "partial",
   "theorems": [
    "Verif.Props.Balance.C12_basic_partial",
    "Verif.Props.Balance.C12_basic_exact_partial",
    "Verif.Props.Balance.C12_computed_counterexample",
    "Verif.Props.Balance.C12_computed_identity_partial",
    "Verif.Props.BalanceLinear.C12_basic_linear_partial"
   ],
   "note": "True for BasicReaction.balance; false for ComputedReaction.balance, where every failed attempt is flagged balanced (only the identity test or the error count reveals it)."
  },
  {
   "property": "C13",
   "status": "proved",
   "theorems": [
    "Verif.Props.Reaction.C13_involution",
    "Verif.Props.Reaction.C13_swaps",
    "Verif.Props.Reaction.C13_computed",
    "Verif.Props.Reaction.C13_energy_per_atom",
    "Verif.Props.Reaction.C13_open"
   ],
   "note": "Energy per atom is negated when elements are exactly conserved (num_atoms counts one side)."
  },
  {
   "property": "C14",
   "status": "partial",
   "theorems": [
    "Verif.Props.Reaction.C14_normalize_to_partial",
    "Verif.Props.Reaction.C14_computed_partial",
    "Verif.Props.Reaction.C14_normalize_to_element",
    "Verif.Props.Reaction.C14_element_amount",
    "Verif.Props.Reaction.C14_missing_phase",
    "Verif.Props.Reaction.C14_tolerance_counterexample",
    "Verif.Props.Reaction.C14_open_counterexample"
   ],
   "note": "Proved for BasicReaction/ComputedReaction. The balanced flag can flip at the tolerance, and an open reaction loses its chemical potentials through the inherited normalize_to; both shown by counterexample."
  },
  {
   "property": "C15",
   "status": "partial",
   "theorems": [
    "Verif.Props.Reaction.C15_molar",
    "Verif.Props.Reaction.C15_unbalanced",
    "Verif.Props.Reaction.C15_atomic",
    "Verif.Props.Reaction.C15_open_reactants_partial",
    "Verif.Props.Reaction.C15_open_products_counterexample",
    "Verif.Props.Reaction.C15_proportional_counterexample"
   ],
   "note": "Closed reactions and open reactants proved; open products are divided by the reactant atom count, shown by counterexample not to sum to 1."
  },
  {
   "property": "C16",
   "status": "partial",
   "theorems": [
    "Verif.Props.Reaction.C16_same_reaction_equal",
    "Verif.Props.Reaction.C16_equal_implies_phases_partial",
    "Verif.Props.Reaction.C16_integer_hash_partial",
    "Verif.Props.Reaction.C16_unique_stoichiometry_partial",
    "Verif.Props.Reaction.C16_different_reactions_counterexample",
    "Verif.Props.Reaction.C16_hash_counterexample",
    "Verif.Props.Reaction.C16_not_symmetric_counterexample",
    "Verif.Props.Reaction.C16_raises_counterexample",
    "Verif.Props.Reaction.C16_computed"
   ],
   "note": "The statement is false of the code (four counterexamples); what remains true is proved."
  },
  {
   "property": "C17",
   "status": "proved",
   "theorems": [
    "Verif.Props.Reaction.C17_scale_invariant",
    "Verif.Props.Reaction.C17_scale_invariant_open",
    "Verif.Props.Reaction.C17_either_side",
    "Verif.Props.Reaction.C17_energy_formula",
    "Verif.Props.Reaction.C17_energy_distinct"
   ],
   "note": "Also gives the closed formula for the energy."
  },
  {
   "property": "C18",
   "status": "partial",
   "theorems": [
    "Verif.Props.Reaction.C18_decision_partial",
    "Verif.Props.Reaction.C18_keyError_counterexample",
    "Verif.Props.Reaction.C18_polymorph_counterexample"
   ],
   "note": "Decision logic proved for targets that are products; KeyError instead of ValueError otherwise."
  },
  {
   "property": "C19",
   "status": "proved",
   "theorems": [
    "Verif.Props.Reaction.C19_grand_potential",
    "Verif.Props.Reaction.C19_affine"
   ],
   "note": "Exact grand-potential formula and slope."
  },
  {
   "property": "C20",
   "status": "proved",
   "theorems": [
    "Verif.Props.RxnSet.C20_lossless",
    "Verif.Props.RxnSet.C20_given_entries",
    "Verif.Props.RxnSet.C20_foreign_entry",
    "Verif.Props.RxnSet.C20_chempots",
    "Verif.Props.RxnSet.C20_mixed_chempot_counterexample"
   ],
   "note": "Storage round trip for every list of reactions, every set iteration order and every identifier function that separates the entries. The mixed closed/open case loses the potentials (counterexample)."
  },
  {
   "property": "C21",
   "status": "partial",
   "theorems": [
    "Verif.Props.RxnSet.C21_len_partial",
    "Verif.Props.RxnSet.C21_no_data_counterexample"
   ],
   "note": "Proved for every set reachable from from_rxns by merging, selecting and changing the chemical potential. Violated for a set constructed without all_data: it reports its length but yields nothing."
  },
  {
   "property": "C22",
   "status": "partial",
   "theorems": [
    "Verif.Props.RxnSet.C22_union_partial",
    "Verif.Props.RxnSet.C22_comm_partial",
    "Verif.Props.RxnSet.C22_assoc_partial",
    "Verif.Props.RxnSet.C22_rejects",
    "Verif.Props.RxnSet.C22_chempot_counterexample"
   ],
   "note": "Multiset union, commutativity and associativity for sets at the same chemical potential; different entries are rejected. Sets at different potentials are merged silently (counterexample)."
  },
  {
   "property": "C23",
   "status": "partial",
   "theorems": [
    "Verif.Props.RxnSet.C23_exact_partial",
    "Verif.Props.RxnSet.C23_zero_coefficient_counterexample"
   ],
   "note": "Exact, in storage order, when every reaction consumes something and no coefficient lies in [0, 1e-12). A zero coefficient counts as a reactant (counterexample)."
  },
  {
   "property": "C24",
   "status": "partial",
   "theorems": [
    "Verif.Props.RxnSet.C24_exact_partial",
    "Verif.Props.RxnSet.C24_first_entry_counterexample",
    "Verif.Props.RxnSet.C24_polymorph_counterexample",
    "Verif.Props.RxnSet.C24_zero_coefficient_counterexample"
   ],
   "note": "Exact when a single entry matches, it is not the first entry and no coefficient lies in (-1e-12, 0]. Violated for the first entry, for polymorphs and for zero coefficients."
  },
  {
   "property": "C25",
   "status": "partial",
   "theorems": [
    "Verif.Props.RxnFilter.C25_filter_partial",
    "Verif.Props.RxnFilter.C25_idempotent_partial",
    "Verif.Props.RxnFilter.C25_reverse",
    "Verif.Props.RxnFilter.C25_tolerance_counterexample",
    "Verif.Props.RxnFilter.C25_zero_coefficient_counterexample"
   ],
   "note": "Full statement for sets of reactions with non-zero coefficients whose ratios are separated by more than the comparison tolerance; counterexamples show near-multiples are kept twice and zero coefficients raise IndexError."
  },
  {
   "property": "C26",
   "status": "partial",
   "theorems": [
    "Verif.Props.RxnFilter.C26_rows_partial",
    "Verif.Props.RxnFilter.C26_parallel_partial",
    "Verif.Props.RxnFilter.C26_one_cpu_counterexample"
   ],
   "note": "Every schedule and chunking for two or more CPUs; with one CPU the code divides by zero (counterexample)."
  },
  {
   "property": "C27",
   "status": "partial",
   "theorems": [
    "Verif.Props.RxnSet.C27_partial",
    "Verif.Props.RxnSet.C27_polymorph_counterexample"
   ],
   "note": "Proved when no two entries have the same composition. Polymorphs are confused (counterexample)."
  },
  {
   "property": "C28",
   "status": "proved",
   "theorems": [
    "Verif.Props.Pareto.C28_pareto_front",
    "Verif.Props.Pareto.C28_idempotent",
    "Verif.Props.ParetoLaws.C28_values",
    "Verif.Props.ParetoLaws.C28_covers",
    "Verif.Props.ParetoLaws.C28_weighted",
    "Verif.Props.ParetoLaws.C28_order",
    "Verif.Props.ParetoLaws.C28_merge"
   ],
   "note": "Exact rationals, no NaN."
  },
  {
   "property": "C29",
   "status": "partial",
   "theorems": [
    "Verif.Props.Pareto.C29_maximize_counterexample",
    "Verif.Props.Pareto.C29_maximize_partial"
   ],
   "note": "Refuted: the first metric is not negated. Proved: minimizes the first metric and maximizes the rest."
  },
  {
   "property": "C30",
   "status": "proved",
   "theorems": [
    "Verif.Props.Utils.C30_mem",
    "Verif.Props.Utils.C30_once",
    "Verif.Props.Utils.C30_increasing_size",
    "Verif.Props.Utils.C30_one_shot_counterexample"
   ],
   "note": "For re-iterable inputs; one-shot iterators only yield singletons (counterexample recorded)."
  },
  {
   "property": "C31",
   "status": "proved",
   "theorems": [
    "Verif.Props.Utils.C31_grouper",
    "Verif.Props.Utils.C31_drop_fill",
    "Verif.Props.Utils.C31_only_last_padded",
    "Verif.Props.Utils.C31_fuel_irrelevant",
    "Verif.Props.Utils.C31_zero_counterexample"
   ],
   "note": "n = 0 drops everything (outside the quantifier n >= 1)."
  },
  {
   "property": "C32",
   "status": "proved",
   "theorems": [
    "Verif.Props.Utils.C32_all_results_once",
    "Verif.Props.Utils.C32_failure"
   ],
   "note": "ray.wait is a parameter assumed to return one finished reference and the rest (num_returns=1)."
  },
  {
   "property": "C33",
   "status": "partial",
   "theorems": [
    "Verif.Props.Enum.C33_lossless",
    "Verif.Props.Enum.C33_sizes",
    "Verif.Props.Enum.C33_count_partial",
    "Verif.Props.Enum.C33_extra_chunk_counterexample",
    "Verif.Props.Enum.C33_job_limit",
    "Verif.Props.Enum.C33_open_total",
    "Verif.Props.Enum.C33_schedule"
   ],
   "note": "Lossless, ordered, size-bounded, job limit, schedule independence proved. 'No more chunks than necessary' is refuted (one empty chunk can be created); number of chunks with work is exact."
  },
  {
   "property": "C34",
   "status": "proved",
   "theorems": [
    "Verif.Props.Enum.C34_admissible",
    "Verif.Props.EnumGroup.C34_basic"
   ],
   "note": "For all enumerators (reacting function is a parameter) the filter facts; for BasicEnumerator additionally conservation within 1e-8 and exact sides, for every backend."
  },
  {
   "property": "C35",
   "status": "proved",
   "theorems": [
    "Verif.Props.EnumGroup.C35_complete",
    "Verif.Props.EnumGroup.C35_open"
   ],
   "note": "Positive-coefficient balance; element lists are the supports of non-negative compositions."
  },
  {
   "property": "C36",
   "status": "partial",
   "theorems": [
    "Verif.Props.EnumGroup.C36_pair_filter",
    "Verif.Props.EnumGroup.C36_system_filter",
    "Verif.Props.EnumGroup.C36_basic_partial",
    "Verif.Props.EnumGroup.C36_open_partial",
    "Verif.Props.EnumGroup.C36_found_partial",
    "Verif.Props.EnumGroup.C36_ten_elements_counterexample"
   ],
   "note": "Lossless for reactions using exactly the two sides of a pair in systems of 2-9 elements; refuted for ten or more elements."
  },
  {
   "property": "C37",
   "status": "partial",
   "theorems": [
    "Verif.Props.EntrySet.C37_current_partial",
    "Verif.Props.EntrySet.C37_new",
    "Verif.Props.EntrySet.C37_violated"
   ],
   "note": "Every history without a half-failing update is proved; update with an iterable that raises midway leaves stale views (negation proved). Mutating the .entries attribute or a returned cached object directly is outside the model."
  },
  {
   "property": "C38",
   "status": "proved",
   "theorems": [
    "Verif.Props.EntrySet.C38_ground",
    "Verif.Props.EntrySet.C38_keyError"
   ],
   "note": "Ground state returned or KeyError iff none, for every set and iteration order."
  },
  {
   "property": "C39",
   "status": "proved",
   "theorems": [
    "Verif.Props.EntrySet.C39_filter",
    "Verif.Props.EntrySet.C39_order",
    "Verif.Props.EntrySet.C39_polymorphs"
   ],
   "note": "Phase diagrams enter as their entry lists and hull-distance functions (pymatgen, parameters)."
  },
  {
   "property": "C40",
   "status": "proved",
   "theorems": [
    "Verif.Props.EntrySet.C40_subset",
    "Verif.Props.EntrySet.C40_string"
   ],
   "note": "Exact subset, rejection of foreign elements, string form."
  },
  {
   "property": "C41",
   "status": "partial",
   "theorems": [
    "Verif.Props.EntryTemp.C41_stabilized_partial",
    "Verif.Props.EntryTemp.stable_of_below",
    "Verif.Props.EntryTemp.C41_stale_violated",
    "Verif.Props.EntryTemp.C41_helper_violated",
    "Verif.Props.EntryTemp.C41_helper_once"
   ],
   "note": "Energy is exactly hull minus tol (total, not per atom) and the entry is stable, when the stored or computed hull distance is current. False for out-of-date stored distances and for enumerators.utils.stabilize_entries, which adds the distance (negations proved)."
  },
  {
   "property": "C42",
   "status": "partial",
   "theorems": [
    "Verif.Props.EntryTemp.C42_path",
    "Verif.Props.EntryTemp.C42_own",
    "Verif.Props.EntryTemp.C42_round",
    "Verif.Props.EntryTemp.C42_single",
    "Verif.Props.EntryTemp.C42_range",
    "Verif.Props.EntryTemp.C42_fresh",
    "Verif.Props.EntryTemp.C42_set",
    "Verif.Props.EntryTemp.C42_co2_stale",
    "Verif.Props.EntryTemp.C42_experimental_path",
    "Verif.Props.EntryTemp.C42_experimental_fresh",
    "Verif.Props.EntryTemp.C42_experimental_range_partial",
    "Verif.Props.EntryTemp.C42_experimental_adjusted_violated",
    "Verif.Props.EntryTemp.C42_deprecated_violated"
   ],
   "note": "Path independence, replacement and the range check are proved for computed entries in full and path independence for experimental ones. Deprecated experimental compounds skip the range check, and experimental entries with a constant adjustment cannot change temperature at all (negations proved)."
  },
  {
   "property": "C43",
   "status": "partial",
   "theorems": [
    "Verif.Props.EntryTable.C43_node",
    "Verif.Props.EntryTable.C43_linear",
    "Verif.Props.EntryTable.C43_total",
    "Verif.Props.EntryTable.C43_between",
    "Verif.Props.EntryTable.C43_lipschitz",
    "Verif.Props.EntryTable.C43_element_node_partial",
    "Verif.Props.EntryTable.C43_element_linear",
    "Verif.Props.EntryTable.C43_float_violated"
   ],
   "note": "Experimental tables: complete for every table with nodes at consecutive multiples of 100 K (the shape of all shipped data). Elemental potentials: a float temperature on the grid raises KeyError for every table (negation proved)."
  },
  {
   "property": "C44",
   "status": "proved",
   "theorems": [
    "Verif.Props.Thermo.C44_expand",
    "Verif.Props.Thermo.C44_error"
   ],
   "note": "Coverage, antichain and exact contents whenever the division succeeds; failures only come from a phase diagram construction. The collection must be traversable more than once."
  },
  {
   "property": "C45",
   "status": "partial",
   "theorems": [
    "Verif.Props.Thermo.C45_unchanged_partial",
    "Verif.Props.Thermo.C45_failure_violated",
    "Verif.Props.Thermo.C45_exception_violated",
    "Verif.Props.Thermo.C45_success_violated",
    "Verif.Props.Thermo.C45_deletes"
   ],
   "note": "Proved for all sequences of queries that succeed with a new stabilized entry or fail early; false for the other failure points and for entries returned unchanged by stabilization (negations proved)."
  },
  {
   "property": "C46",
   "status": "proved",
   "theorems": [
    "Verif.Props.Thermo.C46_minimal",
    "Verif.Props.Thermo.C46_symmetric",
    "Verif.Props.Thermo.C46_nonneg",
    "Verif.Props.Thermo.C46_empty",
    "Verif.Props.Thermo.C46_formulas"
   ],
   "note": "Distance abstract (symmetric, linearly ordered values); nearest-neighbour query is a parameterised minimum (KDTree exact). For formulas, queries must be harmless in the sense of C45."
  },
  {
   "property": "C47",
   "status": "proved",
   "theorems": [
    "Verif.Props.Network.C47_build",
    "Verif.Props.Network.C47_weight"
   ],
   "note": "Exact multiset of nodes and edges of the built graph for every list of reactions."
  },
  {
   "property": "C48",
   "status": "partial",
   "theorems": [
    "Verif.Props.Network.C48_history_partial",
    "Verif.Props.Network.C48_first",
    "Verif.Props.Network.C48_stale_violated",
    "Verif.Props.Network.C48_parallel_violated",
    "Verif.Props.Network.C48_empty_violated"
   ],
   "note": "Violated: return edges of earlier precursors stay, can be doubled, and an empty precursors set leaves a second precursors node. Proved: exact graph after any history without empty sets; the first call is exact."
  },
  {
   "property": "C49",
   "status": "proved",
   "theorems": [
    "Verif.Props.Network.C49_history",
    "Verif.Props.Network.C49_last",
    "Verif.Props.Network.C49_rejected",
    "Verif.Props.Network.C49_mixed"
   ],
   "note": "Any history of set_target calls; also mixed with set_precursors calls."
  },
  {
   "property": "C50",
   "status": "partial",
   "theorems": [
    "Verif.Props.Network.C50_roundtrip_partial",
    "Verif.Props.Network.C50_network",
    "Verif.Props.Network.C50_equal_payloads_violated"
   ],
   "note": "Round trip proved for graphs whose node payloads are distinct, which every network reached without empty precursors sets satisfies; violated for equal payloads (reachable with empty precursors sets)."
  },
  {
   "property": "C51",
   "status": "proved",
   "theorems": [
    "Verif.Props.Yen.C51_paths"
   ],
   "note": "For every shortest-path routine meeting its specification (shown satisfiable by shortest_dijkstra)."
  },
  {
   "property": "C52",
   "status": "partial",
   "theorems": [
    "Verif.Props.Yen.C52_second_partial",
    "Verif.Props.Yen.C52_order_violated",
    "Verif.Props.Yen.C52_parallel_violated",
    "Verif.Props.YenLayered.C52_layered_partial",
    "Verif.Props.YenLayered.C52_acyclic_violated",
    "Verif.Props.Pathfinding.C52_pathways_violated",
    "Verif.Props.Pathfinding.C52_missed_violated"
   ],
   "note": "Violated: results unsorted, with loops, incomplete with parallel edges, and incomplete even on acyclic graphs without parallel edges; also on networks reached through the public calls. Proved: on graphs whose edges all lead from one layer to the next the result is exactly right for every k; on every graph without parallel edges the second path is the cheapest alternative."
  },
  {
   "property": "C53",
   "status": "proved",
   "theorems": [
    "Verif.Props.Pathfinding.C53_extract"
   ],
   "note": "For every path of every network reachable by any history of calls."
  },
  {
   "property": "C54",
   "status": "proved",
   "theorems": [
    "Verif.Props.Pathway.C54_executable",
    "Verif.Props.Pathway.C54_balanced",
    "Verif.Props.Pathway.interdependent_iff",
    "Verif.Props.Pathway.C54_unsupplied_counterexample"
   ],
   "note": "Unflagged pathways whose non-precursor reactants are produced by another reaction have an executable order; the premise follows from mass balance (C54_balanced) and cannot be dropped (counterexample). The always-true clause 'set not in set of compositions' is taken as true."
  },
  {
   "property": "C55",
   "status": "partial",
   "theorems": [
    "Verif.Props.Pathway.C55_unique_producer_partial",
    "Verif.Props.Pathway.C55_second_producer_violated"
   ],
   "note": "The code violates the property: a phase with two producers makes an executable pathway be flagged. Proved when each non-precursor phase has one producer."
  },
  {
   "property": "C56",
   "status": "proved",
   "theorems": [
    "Verif.Props.Solver.C56_sum",
    "Verif.Props.Solver.solve_sound"
   ],
   "note": "End to end through solve, for any pseudo-inverse result and any schedule. The bound has an extra 1e-8 per unit of multiplicity because coefficients below 1e-8 are dropped when reactions are rebuilt. The final conversion into a PathwaySet is C59."
  },
  {
   "property": "C57",
   "status": "partial",
   "theorems": [
    "Verif.Props.Solver.C57_found_partial",
    "Verif.Props.Solver.C57_few_candidates_violated",
    "Verif.Props.Solver.C57_single_cpu_violated",
    "Verif.Props.Solver.exactPinv_spec"
   ],
   "note": "The code violates the property: it always fails with fewer candidates than max_num_combos and on a single CPU without batch size. Otherwise proved end to end, for a pseudo-inverse that returns unique exact solutions."
  },
  {
   "property": "C58",
   "status": "partial",
   "theorems": [
    "Verif.Props.PathHash.C58_hash_partial",
    "Verif.Props.PathHash.C58_hash_violated",
    "Verif.Props.PathHash.C58_set",
    "Verif.Props.PathHash.C58_set_total",
    "Verif.Props.PathHash.C58_pick",
    "Verif.Props.Pathway.C58_same_length_partial",
    "Verif.Props.Pathway.C58_transitive_partial",
    "Verif.Props.Pathway.C58_prefix_violated",
    "Verif.Props.Pathway.C58_balanced_violated",
    "Verif.Props.Pathway.C58_costs_partial"
   ],
   "note": "The code violates the property (zip stops at the shorter pathway; coefficients ignored; ValueError for different numbers of costs; equal pathways can have different hashes). Proved for equally long pathways. Sets of pathways are modelled with hash and equality (64-bit collisions excluded): they keep exactly one representative per pathway, which discharges the assumption PickSpec of the solver theorems."
  },
  {
   "property": "C59",
   "status": "partial",
   "theorems": [
    "Verif.Props.Pathway.C59_round_partial",
    "Verif.Props.Pathway.C59_library_partial",
    "Verif.Props.Pathway.C59_balanced_violated",
    "Verif.Props.Pathway.C59_merged_violated"
   ],
   "note": "Order, costs, coefficients and reactions (up to ==) are kept; the balanced flag is lost and reactions that compare equal are merged."
  },
  {
   "property": "C60",
   "status": "proved",
   "theorems": [
    "Verif.Props.Pathway.C60_partition"
   ],
   "note": "Set algebra of the base class."
  },
  {
   "property": "C61",
   "status": "proved",
   "theorems": [
    "Verif.Props.Costs.C61_positive",
    "Verif.Props.Costs.C61_increasing",
    "Verif.Props.Costs.C61_decreasing",
    "Verif.Props.Costs.C61_temperature"
   ],
   "note": "Over the reals; in floating point the value underflows to 0 for very negative arguments and overflows for very large ones."
  },
  {
   "property": "C62",
   "status": "proved",
   "theorems": [
    "Verif.Props.Costs.C62_weighted_sum",
    "Verif.Props.Costs.C62_softplus",
    "Verif.Props.Costs.C62_never_partial",
    "Verif.Props.Costs.lookup_spec"
   ],
   "note": "Both cost functions; numeric values only."
  },
  {
   "property": "C63",
   "status": "proved",
   "theorems": [
    "Verif.Props.Jobs.C63_scores",
    "Verif.Props.Jobs.C63_order_independent",
    "Verif.Props.Jobs.C63_secondary_is_positive_part",
    "Verif.Props.Jobs.C63_decorated",
    "Verif.Props.Jobs.C63_no_data",
    "Verif.Props.Jobs.C63_tolerance_visible"
   ],
   "note": "Equality of reactions is a key. A reaction whose data is None raises TypeError (C63_no_data)."
  },
  {
   "property": "C64",
   "status": "partial",
   "theorems": [
    "Verif.Props.Parser.C64_round_trip_partial",
    "Verif.Props.Parser.C64_str_partial",
    "Verif.Props.Parser.C64_arrow",
    "Verif.Props.Parser.C64_empty_side",
    "Verif.Props.Parser.C64_large_violated",
    "Verif.Props.Parser.C64_unreduced",
    "Verif.Props.Parser.C64_no_reactants"
   ],
   "note": "Round trip proved for coefficients with at most four significant digits, above the tolerance and below 10000. The claim is false for coefficients of 10000 and more (printed as 1e+04, read as 04), for unreduced compositions (coefficients are rescaled) and for one-sided reactions (ValueError)."
  },
  {
   "property": "C65",
   "status": "partial",
   "theorems": [
    "Verif.Props.Hull.C65_recursive_counterexample",
    "Verif.Props.Hull.C65_secondary_recursive_partial"
   ],
   "note": "Refuted when a reactant decomposes (negative vertex at x=0); proved for hulls with flat ends at interior coordinates, all options; end points normalized by C04."
  },
  {
   "property": "C66",
   "status": "partial",
   "theorems": [
    "Verif.Props.EnumGroup.C66_filter_partial",
    "Verif.Props.EnumGroup.C66_superset_counterexample"
   ],
   "note": "Returned reactions come from systems with all given elements; the documented 'at least one element' is refuted (the code requires a superset)."
  },
  {
   "property": "C67",
   "status": "partial",
   "theorems": [
    "Verif.Props.EntryTable.C67_precedence_partial",
    "Verif.Props.EntryTable.C67_experimental",
    "Verif.Props.EntryTable.mem_fromPd",
    "Verif.Props.EntryTable.C67_violated"
   ],
   "note": "Proved for at most one experimental source; with both sources a formula known to NIST but not FREED gets NIST and computed entries (negation proved)."
  },
  {
   "property": "C68",
   "status": "partial",
   "theorems": [
    "Verif.Props.Network.C68_rebuild_same_violated",
    "Verif.Props.Network.C68_rebuild_other_violated"
   ],
   "note": "Violated on every network with precursors."
  },
  {
   "property": "C69",
   "status": "partial",
   "theorems": [
    "Verif.Props.Pathfinding.C69_find",
    "Verif.Props.Pathfinding.C69_history_partial",
    "Verif.Props.Pathfinding.C69_stale_violated",
    "Verif.Props.Pathfinding.C69_parallel_violated"
   ],
   "note": "Proved for a network with one precursors set, end to end; the comparison with the cheapest chain needs equal costs for reactions between the same phases. Violated after precursors were changed and for parallel reactions of different cost."
  },
  {
   "property": "C70",
   "status": "partial",
   "theorems": [
    "Verif.Props.Solver.C70_empty_partial",
    "Verif.Props.Solver.C70_no_cover_violated"
   ],
   "note": "ValueError when no combination covers the phases of the net reaction; otherwise an empty result."
  },
  {
   "property": "C71",
   "status": "proved",
   "theorems": [
    "Verif.Props.Solver.C71_steps"
   ],
   "note": "Steps agree with the candidates up to coefficients of at most 1e-8."
  },
  {
   "property": "C72",
   "status": "proved",
   "theorems": [
    "Verif.Props.Costs.C72_decorate",
    "Verif.Props.Costs.C72_sees",
    "Verif.Props.Costs.C72_cost_uses_value",
    "Verif.Props.Costs.C72_many",
    "Verif.Props.Costs.C72_commute"
   ],
   "note": "deepcopy is modelled by pure functions."
  },
  {
   "property": "C73",
   "status": "proved",
   "theorems": [
    "Verif.Props.Costs.C73_interfaces",
    "Verif.Props.Costs.C73_order_independent",
    "Verif.Props.Costs.C73_sum_nonneg",
    "Verif.Props.Costs.C73_signs"
   ],
   "note": "Symmetry of the domain distance is a hypothesis, proved for the diagram model under C46."
  },
  {
   "property": "C74",
   "status": "partial",
   "theorems": [
    "Verif.Props.Jobs.C74_chunk_independent",
    "Verif.Props.Jobs.C74_total",
    "Verif.Props.Jobs.C74_precursors_partial",
    "Verif.Props.Jobs.C74_third_precursor_violated"
   ],
   "note": "Chunk independence proved in full. The rejection part is violated: with an open species, three precursors none of which is open are accepted and the third is ignored."
  },
  {
   "property": "C75",
   "status": "partial",
   "theorems": [
    "Verif.Props.Jobs.C75_covering",
    "Verif.Props.Jobs.C75_own_system_partial",
    "Verif.Props.Jobs.C75_chunking_violated"
   ],
   "note": "Covering diagrams proved; independence of the chunk is violated because a cached diagram of a larger system is reused."
  },
  {
   "property": "C76",
   "status": "partial",
   "theorems": [
    "Verif.Props.Jobs.C76_competing_partial",
    "Verif.Props.Jobs.C76_closed",
    "Verif.Props.Jobs.C76_open_violated",
    "Verif.Props.Jobs.C76_decorated"
   ],
   "note": "Exact characterisation; holds in closed systems, violated in open ones when no target reaction consumes the open species."
  },
  {
   "property": "C77",
   "status": "partial",
   "theorems": [
    "Verif.Props.Costs.C77_names_partial",
    "Verif.Props.Costs.C77_callable_violated"
   ],
   "note": "Violated: callables are accepted by the constructor but never stored, so every calculation fails with AttributeError."
  },
  {
   "property": "C78",
   "status": "partial",
   "theorems": [
    "Verif.Props.Jobs.C78_fits_partial",
    "Verif.Props.Jobs.C78_small_memory_violated"
   ],
   "note": "Violated when memory is smaller than one copy of the reactions: ZeroDivisionError."
  },
  {
   "property": "C79",
   "status": "partial",
   "theorems": [
    "Verif.Props.EntryFlow.C79_included_partial",
    "Verif.Props.EntryFlow.C79_dropped_violated"
   ],
   "note": "Violated: requested experimental entries whose table ends below the requested temperature are dropped by the temperature change. Proved when the conversion of the requested entry succeeds or no change happens."
  },
  {
   "property": "C80",
   "status": "partial",
   "theorems": [
    "Verif.Props.EntryFlow.C80_temperature_partial",
    "Verif.Props.EntryFlow.C80_interpolated_violated"
   ],
   "note": "Violated: interpolated entries keep the energy of the filtering temperature. Proved for all other entries."
  },
  {
   "property": "C81",
   "status": "proved",
   "theorems": [
    "Verif.Props.EntryFlow.C81_contents"
   ],
   "note": "Exact contents against the filter specification of C39, for every setting; hull distances and phase diagrams are parameters."
  },
  {
   "property": "C82",
   "status": "proved",
   "theorems": [
    "Verif.Props.EntryFlow.C82_known",
    "Verif.Props.EntryFlow.C82_interpolated",
    "Verif.Props.EntryFlow.C82_errors"
   ],
   "note": "The hull energy is a parameter assumed to be at most the energy of every decomposition."
  },
  {
   "property": "C83",
   "status": "partial",
   "theorems": [
    "Verif.Props.EntrySets.C83_jitter_partial",
    "Verif.Props.EntrySets.C83_elements_violated"
   ],
   "note": "Violated: entries of single elements are dropped. Proved for all other entries."
  },
  {
   "property": "C84",
   "status": "partial",
   "theorems": [
    "Verif.Props.EntrySets.C84_frame_partial",
    "Verif.Props.EntrySets.C84_shared_violated"
   ],
   "note": "Violated: minimizing or storing hull distances writes to entry objects shared with other sets. Proved for entries outside the new set, for both options off, and for all items other than the hull distance without minimization."
  },
  {
   "property": "C85",
   "status": "partial",
   "theorems": [
    "Verif.Props.LargeSets.C85_entries_partial",
    "Verif.Props.LargeSets.C85_flags_violated",
    "Verif.Props.LargeSets.C85_flags_small",
    "Verif.Props.LargeSets.C85_formation"
   ],
   "note": "Violated for the settings: with ten or more elements the hull and size options are not passed on. Entries and failures proved equal for every size."
  },
  {
   "property": "C86",
   "status": "proved",
   "theorems": [
    "Verif.Props.EntrySets.C86_working_set",
    "Verif.Props.EntrySets.C86_replace"
   ],
   "note": "Any iteration order of the requested entries."
  },
  {
   "property": "C87",
   "status": "partial",
   "theorems": [
    "Verif.Props.LargeSets.C87_run_partial",
    "Verif.Props.LargeSets.C87_sets_violated",
    "Verif.Props.LargeSets.C87_chempot_violated"
   ],
   "note": "Violated: enumerators with different working sets make the run fail, and reactions found at another chemical potential lose it. Proved for equal working sets and potentials, with the tolerance hypothesis of C25."
  },
  {
   "property": "C88",
   "status": "partial",
   "theorems": [
    "Verif.Props.EntryDb.C88_query_partial",
    "Verif.Props.EntryDb.C88_choice",
    "Verif.Props.EntryDb.C88_string",
    "Verif.Props.EntryDb.C88_repeated_violated"
   ],
   "note": "Violated for requests with a repeated element (ten or more symbols): a document is returned twice. Proved for all databases and requests without repetition, both strategies."
  },
  {
   "property": "C89",
   "status": "partial",
   "theorems": [
    "Verif.Props.EntryDb.C89_fields_partial",
    "Verif.Props.EntryDb.C89_exper_partial",
    "Verif.Props.EntryDb.C89_hash_violated",
    "Verif.Props.EntryDb.C89_equivalence_violated",
    "Verif.Props.EntryDb.C89_exper_violated"
   ],
   "note": "Violated: comparison uses tolerances or reduced formulas while hashes use exact fields; equality is neither symmetric nor transitive. Proved: reflexivity, equal hashed fields imply equality, and the converse for exact fields."
  },
  {
   "property": "C90",
   "status": "partial",
   "theorems": [
    "Verif.Props.Minimize.C90_run_partial",
    "Verif.Props.Minimize.C90_pds",
    "Verif.Props.Minimize.C90_entries",
    "Verif.Props.Minimize.C90_skipped_violated"
   ],
   "note": "Proved for every schedule: the run equals the candidates processed one at a time, each once, with the diagram of its own system; errors agree. Missing: systems of one element or of ten and more elements are skipped."
  },
  {
   "property": "C91",
   "status": "partial",
   "theorems": [
    "Verif.Props.Minimize.C91_entries_partial",
    "Verif.Props.Minimize.C91_stoichiometry",
    "Verif.Props.Minimize.C91_pairs",
    "Verif.Props.Minimize.C91_grand",
    "Verif.Props.Minimize.C91_polymorph_violated",
    "Verif.Props.Minimize.C91_no_diagram"
   ],
   "note": "Proved: ground state entries of the predicted phases, errors, stoichiometry, chemical potentials, open reactants. Violated: a metastable phase is replaced by its stable polymorph, so it is not a reactant of its own reaction."
  },
  {
   "property": "C92",
   "status": "proved",
   "theorems": [
    "Verif.Props.HullInit.C92_aligned",
    "Verif.Props.HullInit.C92_raises",
    "Verif.Props.HullInit.C92_lower_hull"
   ],
   "note": "For every sorting routine, tie breaking included. numpy's argsort and scipy's ConvexHull are parameters with their specification."
  },
  {
   "property": "C93",
   "status": "partial",
   "theorems": [
    "Verif.Props.Chempot.C93_points",
    "Verif.Props.Chempot.C93_contents",
    "Verif.Props.Chempot.C93_built",
    "Verif.Props.Chempot.C93_missing_violated"
   ],
   "note": "Proved for every half-space intersection that meets its specification: contents, points, tolerance for entries left out, no failure when all references exist. Violated: a missing elemental reference gives KeyError, the ValueError that names it is unreachable."
  },
  {
   "property": "C94",
   "status": "proved",
   "theorems": [
    "Verif.Props.Chempot.C94_distance",
    "Verif.Props.Chempot.C94_stable",
    "Verif.Props.Chempot.C94_e_above_hull",
    "Verif.Props.Chempot.C94_foreign"
   ],
   "note": "Distance in Euclidean space of any dimension. The energy above hull itself is pymatgen's."
  },
  {
   "property": "C95",
   "status": "partial",
   "theorems": [
    "Verif.Props.Gibbs.C95_reduced_mass",
    "Verif.Props.Gibbs.C95_average",
    "Verif.Props.Gibbs.C95_adjustment",
    "Verif.Props.Gibbs.C95_element",
    "Verif.Props.Gibbs.C95_energy_partial",
    "Verif.Props.Gibbs.C95_order",
    "Verif.Props.Gibbs.C95_experimental_violated",
    "Verif.Props.Gibbs.C95_formula"
   ],
   "note": "Proved for computed (Gibbs) entries. Experimental entries violate it: their energy is that of the reduced formula whatever multiple is requested (C95_experimental_violated)."
  },
  {
   "property": "C96",
   "status": "proved",
   "theorems": [
    "Verif.Props.Uncertainty.C96_formula",
    "Verif.Props.Uncertainty.C96_scale",
    "Verif.Props.Uncertainty.C96_reverse",
    "Verif.Props.Uncertainty.C96_per_atom",
    "Verif.Props.Uncertainty.C96_zero",
    "Verif.Props.Uncertainty.C96_monotone",
    "Verif.Props.Uncertainty.C96_empty"
   ],
   "note": "The uncertainties package is modelled by its behaviour on linear combinations of independent variables. A reaction without entries raises AttributeError (C96_empty)."
  },
  {
   "property": "C97",
   "status": "proved",
   "theorems": [
    "Verif.Props.Gibbs.C97_class",
    "Verif.Props.Gibbs.C97_experimental",
    "Verif.Props.Gibbs.C97_co2_energy",
    "Verif.Props.Gibbs.C97_carbonate",
    "Verif.Props.Gibbs.C97_carbonate_exact",
    "Verif.Props.Gibbs.C97_carbonate_scale"
   ],
   "note": "For the tables shipped with the package (keys are reduced formulas, none deprecated, nodes at consecutive multiples of 100 K); the shape of the data files was checked by reading them."
  },
  {
   "property": "C98",
   "status": "partial",
   "theorems": [
    "Verif.Props.HullInit.C98_area",
    "Verif.Props.HullInit.C98_fan",
    "Verif.Props.HullInit.C98_violated"
   ],
   "note": "Proved for reactions strictly between the end members. Violated: a reaction at an end member (every hull contains two) raises QhullError instead of having an area. ConvexHull.volume is modelled as the area of the polygon through the points, which are in convex position."
  },
  {
   "property": "C99",
   "status": "partial",
   "theorems": [
    "Verif.Props.Alias.C99_fresh",
    "Verif.Props.Alias.C99_bare",
    "Verif.Props.Alias.C99_copy_partial",
    "Verif.Props.Alias.C99_copy_violated",
    "Verif.Props.Alias.C99_balance_violated"
   ],
   "note": "Holds for from_computed_rxn, decorate and normalized basic reactions, and for copies made while the data is empty. Violated otherwise: a non-empty data dictionary is shared between a reaction and its copy, reverse, normalized or re-tempered version (C99_copy_violated), and balance changes and keeps the caller's dictionary (C99_balance_violated)."
  },
  {
   "property": "C100",
   "status": "partial",
   "theorems": [
    "Verif.Props.Identity.C100_total",
    "Verif.Props.Identity.C100_amounts",
    "Verif.Props.Identity.C100_energy",
    "Verif.Props.Identity.C100_scale_partial",
    "Verif.Props.Identity.C100_reverse_partial",
    "Verif.Props.Identity.C100_scale_violated",
    "Verif.Props.Identity.C100_reverse_violated"
   ],
   "note": "Never raises, exact meaning of the answer, zero energy: proved. Invariance under reversal and scaling fails near the tolerance (numpy.isclose is asymmetric and has an absolute part): negations proved; the _partial theorems give the cases where it holds."
  },
  {
   "property": "C101",
   "status": "partial",
   "theorems": [
    "Verif.Props.Table.C101_rows",
    "Verif.Props.Table.C101_succeeds",
    "Verif.Props.Table.C101_costs",
    "Verif.Props.Table.C101_cache_partial",
    "Verif.Props.Table.C101_experimental",
    "Verif.Props.Table.C101_lost_violated",
    "Verif.Props.Table.C101_clash_violated",
    "Verif.Props.Table.C101_cache_violated",
    "Verif.Props.Table.C101_cells",
    "Verif.Props.Table.C101_flags"
   ],
   "note": "Alignment of rows and columns, order by cost and success are proved for all sets whose first reaction has no data key with a fixed column name. Violated: data keys missing from the first reaction are lost, keys named like a fixed column make the call fail, and the cached table object itself is handed out, so edits show up in later calls."
  },
  {
   "property": "C102",
   "status": "proved",
   "theorems": [
    "Verif.Props.RxnSetTemps.C102_each",
    "Verif.Props.RxnSetTemps.C102_fails",
    "Verif.Props.RxnSetTemps.C102_order"
   ],
   "note": "For all reaction sets and temperature lists. Whether each single recalculation is right is C27."
  },
  {
   "property": "C103",
   "status": "partial",
   "theorems": [
    "Verif.Props.Symbols.C103_canonical",
    "Verif.Props.Symbols.C103_reaction",
    "Verif.Props.Symbols.C103_open_partial",
    "Verif.Props.Symbols.C103_open_violated",
    "Verif.Props.Symbols.C103_document",
    "Verif.Props.Symbols.C103_order",
    "Verif.Props.Symbols.C103_metadata_partial",
    "Verif.Props.Symbols.C103_metadata_violated"
   ],
   "note": "For ordinary reactions and for runs the added elements are exactly those outside the targets and the string is canonical for every set order. Open reactions are credited with the open element even if they do not contain it, and the system string of a task document follows the set order; both are proved with witnesses."
  },
  {
   "property": "C104",
   "status": "partial",
   "theorems": [
    "Verif.Props.DfTools.C104_filter_partial",
    "Verif.Props.DfTools.C104_filter_compose",
    "Verif.Props.DfTools.C104_spelling_violated",
    "Verif.Props.DfTools.C104_empty_violated",
    "Verif.Props.DfTools.C104_column_violated",
    "Verif.Props.DfTools.C104_plot_partial",
    "Verif.Props.DfTools.C104_plot_plain",
    "Verif.Props.DfTools.C104_plot_violated"
   ],
   "note": "Holds for tables with rows, unique labels, precursors written as reduced formulas and no column named precursors (identical rows: the first is in the front). Violated otherwise: an unreduced spelling never matches, a table without rows raises KeyError, a column named precursors is lost, and rows sharing a label with a front row vanish from the plot."
  },
  {
   "property": "C105",
   "status": "partial",
   "theorems": [
    "Verif.Props.Intermediates.C105_phases",
    "Verif.Props.Intermediates.C105_intermediates_partial",
    "Verif.Props.Intermediates.C105_all_enabled",
    "Verif.Props.Intermediates.C105_grand_ignored",
    "Verif.Props.Intermediates.C105_order_error",
    "Verif.Props.Intermediates.C105_failure",
    "Verif.Props.Intermediates.C105_grand_violated"
   ],
   "note": "Proved for every enumerator result over the same phase list; the grand potential enumerator's result is discarded by the code (C105_grand_ignored, C105_grand_violated) and enumerators listing the phases in another order raise ValueError (C105_order_error)."
  },
  {
   "property": "C106",
   "status": "partial",
   "theorems": [
    "Verif.Props.NetDict.C106_load_partial",
    "Verif.Props.NetDict.C106_history_partial",
    "Verif.Props.NetDict.C106_find",
    "Verif.Props.NetDict.C106_unbuilt_violated",
    "Verif.Props.NetDict.C106_second_load_violated",
    "Verif.Props.NetDict.C106_json_violated",
    "Verif.Props.NetDict.C106_reset_violated",
    "Verif.Props.NetDict.C106_empty_violated"
   ],
   "note": "For every history of calls interleaved with saving and loading: everything but the multiplicity of return edges is as if the network had never been saved, and a loaded network is searched like the network it shows. Violated: an unbuilt network cannot be saved; the second load from one dictionary loses graph, precursors and target; after JSON the precursors stay plain dictionaries and every search raises; setting the same precursors again after loading doubles return edges. Monty's encoding and decoding are assumptions (Model/NetDict)."
  },
  {
   "property": "C107",
   "status": "partial",
   "theorems": [
    "Verif.Props.NetEntry.C107_order",
    "Verif.Props.NetEntry.C107_equal",
    "Verif.Props.NetEntry.C107_hash",
    "Verif.Props.NetEntry.C107_elements",
    "Verif.Props.NetEntry.C107_dim_partial",
    "Verif.Props.NetEntry.C107_roundtrip_partial",
    "Verif.Props.NetEntry.C107_unknown_role",
    "Verif.Props.NetEntry.C107_dim_violated",
    "Verif.Props.NetEntry.C107_dummy_violated",
    "Verif.Props.NetEntry.C107_dummies_violated"
   ],
   "note": "Equality, hash, order independence, elements and round trip hold for all node entries with phases (entries are assumed to have a lawful equality; see C89 for where they do not). Violated: dim is the length of the system string (C107_dim_partial says exactly when it is right), dummy entries cannot be loaded, and two dummies are never equal."
  },
  {
   "property": "C108",
   "status": "partial",
   "theorems": [
    "Verif.Props.Flow.C108_flow_partial",
    "Verif.Props.Flow.C108_configured_partial",
    "Verif.Props.Flow.C108_entries",
    "Verif.Props.Flow.C108_ignored",
    "Verif.Props.Flow.C108_default_violated",
    "Verif.Props.Flow.C108_potentials_violated",
    "Verif.Props.Flow.C108_unparsable"
   ],
   "note": "Jobs, conditions, references and settings of every flow proved; entries are fetched for exactly the given elements; the network and solver jobs do not depend on the precursors and targets given (C108_ignored, C108_default_violated), and potentials are ignored without the minimizing enumerators (C108_potentials_violated)."
  },
  {
   "property": "C109",
   "status": "partial",
   "theorems": [
    "Verif.Props.SynthJob.C109_scored_partial",
    "Verif.Props.SynthJob.C109_none_partial",
    "Verif.Props.SynthJob.C109_mismatch",
    "Verif.Props.SynthJob.C109_no_sets",
    "Verif.Props.SynthJob.C109_closed_violated",
    "Verif.Props.SynthJob.C109_first_entry_violated",
    "Verif.Props.SynthJob.C109_memory_violated"
   ],
   "note": "Proved for sets over the same entries with a unique target entry that is not stored first, clear coefficients and enough memory; a closed request keeps the potential of the first set (C109_closed_violated), reactions to the first stored phase are not found (C109_first_entry_violated), too little memory divides by zero (C109_memory_violated)."
  },
  {
   "property": "C110",
   "status": "partial",
   "theorems": [
    "Verif.Props.NetJob.C110_network_partial",
    "Verif.Props.NetJob.C110_pathways_partial",
    "Verif.Props.NetJob.C110_no_precursors",
    "Verif.Props.NetJob.C110_unknown_precursor",
    "Verif.Props.NetJob.C110_closed_violated"
   ],
   "note": "Proved for well-behaved inputs: network on representatives of all reactions at the requested potential, precursors and first target set, pathways for every target optimal among all reactions given; searches without precursors fail. Violated: a closed request on open reactions only keeps their potential (C110_closed_violated)."
  },
  {
   "property": "C111",
   "status": "partial",
   "theorems": [
    "Verif.Props.MpDb.C111_system_partial",
    "Verif.Props.MpDb.C111_order",
    "Verif.Props.MpDb.C111_missing",
    "Verif.Props.MpDb.C111_property_list_partial",
    "Verif.Props.MpDb.C111_sorted",
    "Verif.Props.MpDb.C111_property_list_violated",
    "Verif.Props.MpDb.C111_premade_violated",
    "Verif.Props.MpDb.C111_chunk_violated",
    "Verif.Props.MpDb.C111_repeated_violated",
    "Verif.Props.MpDb.C111_choice_violated",
    "Verif.Props.MpDb.C111_maker",
    "Verif.Props.MpDb.C111_maker_element",
    "Verif.Props.MpDb.C111_maker_property_violated",
    "Verif.Props.MpDb.C111_maker_db"
   ],
   "note": "Successful searches give exactly the non-deprecated documents of the system, each once, with the properties asked for, for all sizes and positive chunk sizes; sorted searches and the job's two strategies proved. Violated: repeated elements, negative chunk sizes, premade entries ignore the properties, sorting and the job modify the caller's list, the job never uses it, GGA and GGA+U are preferred differently."
  },
  {
   "property": "C112",
   "status": "partial",
   "theorems": [
    "Verif.Props.Criteria.C112_id",
    "Verif.Props.Criteria.C112_chemsys",
    "Verif.Props.Criteria.C112_chemsys_error",
    "Verif.Props.Criteria.C112_formula_partial",
    "Verif.Props.Criteria.C112_or_partial",
    "Verif.Props.Criteria.C112_empty_violated",
    "Verif.Props.Criteria.C112_prefix_violated",
    "Verif.Props.Criteria.C112_groups_violated"
   ],
   "note": "Ids, chemical systems (with errors), formulas with wildcards and at most one group of alternatives, and alternatives by spaces proved for all tokens. Violated: two groups of alternatives, the empty string, ids are recognised by their start only."
  },
  {
   "property": "C113",
   "status": "partial",
   "theorems": [
    "Verif.Props.GibbsDict.C113_roundtrip_partial",
    "Verif.Props.GibbsDict.C113_stable_partial",
    "Verif.Props.GibbsDict.C113_thermodynamics",
    "Verif.Props.GibbsDict.C113_failure",
    "Verif.Props.GibbsDict.C113_failure_violated",
    "Verif.Props.GibbsDict.C113_merged_violated",
    "Verif.Props.GibbsDict.C113_keys_violated"
   ],
   "note": "Saving and loading returns the entry with element keys written as symbols, whenever JSON can keep the data; a second round trip changes nothing; composition, volume, formation energy, temperature, adjustments and id survive whenever saving succeeds. Violated by the code: a failing as_dict leaves changed data on the entry, an element and its symbol are merged, numeric keys become strings. pymatgen's JSON conversions are parameters."
  },
  {
   "property": "C114",
   "status": "partial",
   "theorems": [
    "Verif.Props.Cascade.C114_series",
    "Verif.Props.Cascade.C114_value",
    "Verif.Props.Cascade.C114_above_ground_partial",
    "Verif.Props.Cascade.C114_smoothing",
    "Verif.Props.Cascade.C114_smoothing_monotone",
    "Verif.Props.Cascade.C114_formula_violated",
    "Verif.Props.Cascade.C114_reference_violated",
    "Verif.Props.Cascade.C114_smoothing_violated",
    "Verif.Props.Cascade.C114_repeated_violated"
   ],
   "note": "One value per temperature; each is the phases' energy relative to the elements minus the ground state at the composition shown; for reduced formulas and elements of zero energy it is the energy above the ground state, never negative and zero exactly for ground states, for every lawful phase diagram; smoothing is a median of three and keeps growing amounts. Violated by the code: unreduced formulas, references that are not zero, compositions changed by smoothing, repeated temperatures. pymatgen's phase diagram is a parameter."
  },
  {
   "property": "C115",
   "status": "proved",
   "theorems": [
    "Verif.Props.RxnSetChempot.C115_set_chempot",
    "Verif.Props.RxnSetChempot.C115_last"
   ],
   "note": "For all sets built through the API."
  },
  {
   "property": "C116",
   "status": "partial",
   "theorems": [
    "Verif.Props.SolverJob.C116_guard",
    "Verif.Props.SolverJob.C116_net",
    "Verif.Props.SolverJob.C116_not_net",
    "Verif.Props.SolverJob.C116_pathways",
    "Verif.Props.SolverJob.C116_misplaced_violated"
   ],
   "note": "The check accepts exactly what can be balanced (up to 1e-8) for least-squares solutions; the net reaction and the pathways are proved when the net reaction is unique. Violated as stated: a precursor may end up as a product or unused."
  },
  {
   "property": "C117",
   "status": "partial",
   "theorems": [
    "Verif.Props.SolverJob.C117_reduced_partial",
    "Verif.Props.SolverJob.C117_unrecognized",
    "Verif.Props.SolverJob.C117_cell_violated"
   ],
   "note": "Holds for entries stored per reduced formula unit; violated otherwise (precursors compared by unreduced composition)."
  },
  {
   "property": "C118",
   "status": "partial",
   "theorems": [
    "Verif.Props.ExperData.C118_keys",
    "Verif.Props.ExperData.C118_tabulated",
    "Verif.Props.ExperData.C118_roundtrip",
    "Verif.Props.ExperData.C118_per_atom_partial",
    "Verif.Props.ExperData.C118_per_atom_violated",
    "Verif.Props.ExperData.C118_identifier",
    "Verif.Props.ExperData.C118_name"
   ],
   "note": "Loading keeps every value of a table whose keys are different numbers, tabulated energies are exact, and saving and loading returns the entry (pymatgen's JSON forms are parameters). Violated as stated: the energy is that of one reduced formula unit, so the energy per atom is wrong for compositions with several units; two spellings of one temperature lose a value."
  },
  {
   "property": "C119",
   "status": "partial",
   "theorems": [
    "Verif.Props.PathMatrix.C119_vector",
    "Verif.Props.PathMatrix.C119_balance_partial",
    "Verif.Props.PathMatrix.C119_matrix_violated",
    "Verif.Props.PathMatrix.C119_twice_violated"
   ],
   "note": "Vectors and the balancing criterion hold for reactions with different phases, using the vectors as rows. Violated as stated: get_comp_matrix raises AttributeError for every pathway with a reaction and a phase; a phase occurring twice counts with its first coefficient only."
  },
  {
   "property": "C120",
   "status": "proved",
   "theorems": [
    "Verif.Props.JobStore.C120_newest",
    "Verif.Props.JobStore.C120_encoded"
   ],
   "note": "For stores that keep the open element as text (jobflow's encoding is external; C120_encoded says what happens otherwise), for stored sets built by the class's operations, with identifiers that tell entries apart."
  },
  {
   "property": "C121",
   "status": "partial",
   "theorems": [
    "Verif.Props.Cluster.C121_running",
    "Verif.Props.Cluster.C121_history",
    "Verif.Props.Cluster.C121_start_partial",
    "Verif.Props.Cluster.C121_names_violated"
   ],
   "note": "Holds for one process, whose calls are sequential. Missing: the documented variable ip_head in lower case is not read, and an empty or non-numeric PBS_NNODES makes the call fail (C121_names_violated)."
  },
  {
   "property": "C122",
   "status": "partial",
   "theorems": [
    "Verif.Props.Indices.C122_history_partial",
    "Verif.Props.Indices.C122_vector",
    "Verif.Props.Indices.C122_copies",
    "Verif.Props.Indices.C122_solver",
    "Verif.Props.Indices.C122_reload_partial",
    "Verif.Props.Indices.C122_two_networks_violated",
    "Verif.Props.Indices.C122_wrong_pathway_violated",
    "Verif.Props.Indices.C122_polymorphs_violated",
    "Verif.Props.Indices.C122_twice_violated",
    "Verif.Props.Indices.C122_unindexed"
   ],
   "note": "Holds for every history in which the network's objects are not indexed at other positions and no copy is made onto them, for deep copies, and for loading when compositions differ; supplies the well-indexedness hypothesis of C56 and C57. Violated in general: a second network sharing entries moves them (the solver then offers a wrong pathway), polymorphs can change places on loading, a phase listed twice loses a coefficient."
  },
  {
   "property": "C123",
   "status": "partial",
   "theorems": [
    "Verif.Props.PathEnergy.C123_hess_partial",
    "Verif.Props.PathEnergy.C123_hess_open_partial",
    "Verif.Props.PathEnergy.C123_energy_partial",
    "Verif.Props.PathEnergy.C123_solver_partial",
    "Verif.Props.PathEnergy.C123_multiplicity_violated",
    "Verif.Props.PathEnergy.C123_per_atom_violated"
   ],
   "note": "The energies weighted with the multiplicities obey Hess's law, for closed and open reactions and for every output of the solver up to numpy's closeness; energy is that of the net reaction if every step happens once. energy itself ignores the multiplicities, and energy_per_atom adds quotients with different denominators: both proved to differ from the net reaction's."
  },
  {
   "property": "C124",
   "status": "partial",
   "theorems": [
    "Verif.Props.EnumComplete.C124_runs",
    "Verif.Props.EnumComplete.C124_found_once_partial",
    "Verif.Props.EnumComplete.C124_open_found_once_partial",
    "Verif.Props.EnumComplete.C124_open_one_side",
    "Verif.Props.EnumComplete.C124_both_sides_violated"
   ],
   "note": "Every uniquely balanceable admissible reaction is found exactly once with its coefficients, closed and with open phases on one side, and the enumeration terminates. Missing: systems of ten or more elements (C36_ten_elements_counterexample) and of a single element are skipped; reactions with open phases on both sides are never found (violated)."
  },
  {
   "property": "C125",
   "status": "partial",
   "theorems": [
    "Verif.Props.PathRank.C125_mean",
    "Verif.Props.PathRank.C125_error",
    "Verif.Props.PathRank.C125_between",
    "Verif.Props.PathRank.C125_scale",
    "Verif.Props.PathRank.C125_order",
    "Verif.Props.PathRank.C125_ranked",
    "Verif.Props.PathRank.C125_written_violated"
   ],
   "note": "The weighted mean, its bounds and invariances, the order of the solver output and the costs of the steps are proved. Violated: the mean depends on how a step is written, so the ranking of the same pathways changes when a candidate is given with doubled coefficients."
  },
  {
   "property": "C126",
   "status": "partial",
   "theorems": [
    "Verif.Props.SetDict.C126_constructed",
    "Verif.Props.SetDict.C126_reload",
    "Verif.Props.SetDict.C126_reactions",
    "Verif.Props.SetDict.C126_single",
    "Verif.Props.SetDict.C126_twice",
    "Verif.Props.SetDict.C126_argument_violated",
    "Verif.Props.SetDict.C126_errors",
    "Verif.Props.SetDict.C126_errors_violated"
   ],
   "note": "Round trips of sets (every transport) and of single reactions are proved, given that entries and data survive their own encoding (C113 treats Gibbs entries). Violated: loading an open reaction changes the dictionary it is loaded from, and sets drop the number of balancing errors."
  },
  {
   "property": "C127",
   "status": "partial",
   "theorems": [
    "Verif.Props.HullMirror.C127_primary",
    "Verif.Props.HullMirror.C127_order",
    "Verif.Props.HullMirror.C127_exchange_partial",
    "Verif.Props.HullMirror.C127_coordinate",
    "Verif.Props.HullMirror.C127_constructed",
    "Verif.Props.HullMirror.C127_recursive_violated",
    "Verif.Props.HullMirror.C127_tolerance_violated"
   ],
   "note": "Primary competition: full. Order of the reactions: full, all variants, for coordinates not confused by the tolerance. Exchange of the reactants: all non-recursive variants under the same condition; the recursive variant and coordinates within the tolerance violate it (witnesses proved)."
  },
  {
   "property": "C128",
   "status": "partial",
   "theorems": [
    "Verif.Props.Written.C128_energy",
    "Verif.Props.Written.C128_energy_per_atom",
    "Verif.Props.Written.C128_flag",
    "Verif.Props.Written.C128_fractions",
    "Verif.Props.Written.C128_coordinate",
    "Verif.Props.Written.C128_hull",
    "Verif.Props.Written.C128_twice_violated",
    "Verif.Props.Written.C128_tolerance_violated"
   ],
   "note": "Energies, energies per atom, fractions, places on an interface and hull points are proved invariant for reactions between different phases (the energy without that condition); flags, equality and hash under reordering. Violated: a phase listed twice, and factors that carry a reaction across the balance tolerance."
  },
  {
   "property": "C129",
   "status": "partial",
   "theorems": [
    "Verif.Props.SetOps.C129_contents",
    "Verif.Props.SetOps.C129_independent",
    "Verif.Props.SetOps.C129_settings_partial",
    "Verif.Props.SetOps.C129_temperature",
    "Verif.Props.SetOps.C129_saved",
    "Verif.Props.SetOps.C129_refreshed",
    "Verif.Props.SetOps.C129_settings_violated",
    "Verif.Props.SetOps.C129_minimize_violated"
   ],
   "note": "Contents, independence, distances after a change of temperature and saving are proved for every history and set. Violated: copies and operators forget both settings, a change of temperature forgets the second."
  },
  {
   "property": "C130",
   "status": "partial",
   "theorems": [
    "Verif.Props.SolverChunks.C130_same_partial",
    "Verif.Props.SolverChunks.C130_fails_partial",
    "Verif.Props.SolverChunks.C130_represented_partial",
    "Verif.Props.SolverChunks.C130_one_cpu_violated"
   ],
   "note": "Same pathways, costs and failures for every usable configuration (positive chunk size, and a batch size or a second CPU); for an arbitrary choice of representatives by Python's set, up to equality. Violated on one CPU without batch size."
  },
  {
   "property": "C131",
   "status": "partial",
   "theorems": [
    "Verif.Props.RxnTemp.C131_reaction",
    "Verif.Props.RxnTemp.C131_reaction_fails",
    "Verif.Props.RxnTemp.C131_open_violated",
    "Verif.Props.RxnTemp.C131_table_partial",
    "Verif.Props.RxnTemp.C131_set_partial",
    "Verif.Props.RxnTemp.C131_path_partial",
    "Verif.Props.RxnTemp.C131_temps",
    "Verif.Props.RxnTemp.C131_entries",
    "Verif.Props.RxnTemp.C131_hull_kept",
    "Verif.Props.RxnTemp.C131_unused_violated",
    "Verif.Props.RxnTemp.C131_path_violated",
    "Verif.Props.RxnTemp.C131_hull_violated"
   ],
   "note": "proved for sets without two entries of one composition (C27 has the polymorph violation): success iff every entry of the set converts, the reactions are the originals converted one by one, path independence, lists of temperatures. Violated and proved: open reactions need the second argument, an unused entry blocks the whole set, a detour can succeed where the direct conversion fails, stored hull distances go stale."
  },
  {
   "property": "C132",
   "status": "partial",
   "theorems": [
    "Verif.Props.EnumExact.C132_sound_partial",
    "Verif.Props.EnumExact.C132_exact_partial",
    "Verif.Props.EnumExact.C132_once",
    "Verif.Props.EnumExact.C132_monotone",
    "Verif.Props.EnumExact.C132_same",
    "Verif.Props.EnumExact.C132_reverse",
    "Verif.Props.EnumExact.C132_ten_violated"
   ],
   "note": "Exactly the sought reactions, once each; same result for all orders, schedules and backends; growth; reversal. Partial: systems of ten or more elements are left out by the code (C132_ten_violated), and phases must be told apart by the balancing tolerance (Sharp)."
  },
  {
   "property": "C133",
   "status": "partial",
   "theorems": [
    "Verif.Props.EndToEnd.C133_find_partial",
    "Verif.Props.EndToEnd.C133_runs",
    "Verif.Props.EndToEnd.C133_same",
    "Verif.Props.EndToEnd.C133_monotone",
    "Verif.Props.EndToEnd.C133_convergent_violated"
   ],
   "note": "Composition of C132 (enumeration) and C69 (search). Proved for routes in which each step uses precursors and products of the step before. The full claim, with any executable sequence of steps, fails: a target made from two separately made halves is not found (C133_convergent_violated)."
  },
  {
   "property": "C134",
   "status": "partial",
   "theorems": [
    "Verif.Props.EnumOpenExact.C134_sound_partial",
    "Verif.Props.EnumOpenExact.C134_exact_partial",
    "Verif.Props.EnumOpenExact.C134_once",
    "Verif.Props.EnumOpenExact.C134_monotone",
    "Verif.Props.EnumOpenExact.C134_same",
    "Verif.Props.EnumOpenExact.C134_reverse",
    "Verif.Props.EnumOpenExact.C134_together",
    "Verif.Props.EnumOpenExact.C134_filter_violated"
   ],
   "note": "Exact for open phases on one side and fewer than ten elements. Open phases on both sides are never found (C124_both_sides_violated); filter_by_chemsys is met by open phases that do not take part (C134_filter_violated)."
  },
  {
   "property": "C135",
   "status": "partial",
   "theorems": [
    "Verif.Props.HullPlot.C135_runs",
    "Verif.Props.HullPlot.C135_lines",
    "Verif.Props.HullPlot.C135_lower_partial",
    "Verif.Props.HullPlot.C135_hull_energy",
    "Verif.Props.HullPlot.C135_points",
    "Verif.Props.HullPlot.C135_visible",
    "Verif.Props.HullPlot.C135_vertical_violated"
   ],
   "note": "Points, range and lines are proved for all inputs; the drawn lines are the lower hull and, as proved exactly, also a vertical line at an end that has a reaction of negative energy (C135_vertical_violated). The facets of scipy's ConvexHull are specified by HullEdges."
  },
  {
   "property": "C136",
   "status": "partial",
   "theorems": [
    "Verif.Props.GroundState.C136_between",
    "Verif.Props.GroundState.C136_builds",
    "Verif.Props.GroundState.C136_no_lower_partial",
    "Verif.Props.GroundState.C136_attained",
    "Verif.Props.GroundState.C136_ground_state",
    "Verif.Props.GroundState.C136_inert",
    "Verif.Props.GroundState.C136_one_each",
    "Verif.Props.GroundState.C136_small_n_violated"
   ],
   "note": "Proved for every run with at least two phases per side and at least as many as A and B have elements (at most nine), one phase per pure element (which follows from distinct formulas, C136_one_each), phases told apart by the balancing tolerance, and no filters that exclude A, B or products: nothing lower is missed and the hull energy is reached, up to the rounding of coordinates to 12 digits, and exactly (IsLeast) where rounding changes nothing; whether anything reacts is exact in any case. With fewer phases per side the claim is false (C136_small_n_violated)."
  },
  {
   "property": "C137",
   "status": "partial",
   "theorems": [
    "Verif.Props.Carry.C137_realisable_iff",
    "Verif.Props.Carry.C137_complete_iff",
    "Verif.Props.Carry.C137_carried_out_partial",
    "Verif.Props.Carry.C137_yield",
    "Verif.Props.Carry.C137_unfinished_violated",
    "Verif.Props.Carry.C137_unfiltered_violated",
    "Verif.Props.Carry.C137_rejected_violated",
    "Verif.Props.Carry.C137_tolerance_violated"
   ],
   "note": "Proved: with positive multiplicities that make at least what the net reaction says, an unflagged pathway can be carried out from the net reactants up to an arbitrarily small rest; exact criteria for this and for complete conversion; yield bound. Missing (violated by the code, witnesses proved): complete conversion, multiplicities accepted within tolerance, carry-out of unfiltered pathways, and pathways withheld although they can be carried out."
  },
  {
   "property": "C138",
   "status": "proved",
   "theorems": [
    "Verif.Props.StabilityFilter.C138_hull",
    "Verif.Props.StabilityFilter.C138_distances",
    "Verif.Props.StabilityFilter.C138_members",
    "Verif.Props.StabilityFilter.C138_ground_states",
    "Verif.Props.StabilityFilter.C138_again",
    "Verif.Props.StabilityFilter.C138_twice",
    "Verif.Props.StabilityFilter.C138_subsystem",
    "Verif.Props.StabilityFilter.C138_succeeds",
    "Verif.Props.StabilityFilter.C138_succeeds_again",
    "Verif.Props.StabilityFilter.C138_reported",
    "Verif.Props.StabilityFilter.C138_negative"
   ],
   "note": "Phase diagrams (pymatgen) are a parameter assumed to report the exact distance from the hull of the entries given and to be constructible exactly if all elements have an elemental entry; such diagrams are proved to exist for every chemistry (diagrams_exist). Statements about filters without polymorphs assume that entries of one formula have different energies per atom (as in C39); C138_hull and C138_again do not."
  },
  {
   "property": "C139",
   "status": "partial",
   "theorems": [
    "Verif.Props.GroundStateOpen.C139_between",
    "Verif.Props.GroundStateOpen.C139_builds",
    "Verif.Props.GroundStateOpen.C139_no_lower_partial",
    "Verif.Props.GroundStateOpen.C139_attained",
    "Verif.Props.GroundStateOpen.C139_ground_state",
    "Verif.Props.GroundStateOpen.C139_inert",
    "Verif.Props.GroundStateOpen.C139_reference_violated"
   ],
   "note": "The lower bound, the attainment, the exact ground state and the test for inert interfaces are proved for one open element with a single entry of the pure element, at the potential of the reservoir counted from that entry's energy. With a nonzero energy of that entry the hull is not the ground state at the given potential itself (C139_reference_violated). The lower bound needs as many phases per side as A and B have elements."
  },
  {
   "property": "C140",
   "status": "partial",
   "theorems": [
    "Verif.Props.MinHull.C140_corners",
    "Verif.Props.MinHull.C140_sound_partial",
    "Verif.Props.MinHull.C140_pair_partial",
    "Verif.Props.MinHull.C140_run_partial"
   ],
   "note": "Missing: the corners are exact only if rounding the coordinate to 12 digits changes none of them (otherwise C140_sound_partial gives the coordinate to 1/(2*10^12)); the list of kinks is pymatgen's, assumed to consist of ground-state simplices at the corners and to miss none; one entry per reduced composition; only the pair's own candidate is compared."
  },
  {
   "property": "C141",
   "status": "partial",
   "theorems": [
    "Verif.Props.Reference.C141_energy",
    "Verif.Props.Reference.C141_conserving",
    "Verif.Props.Reference.C141_flagged",
    "Verif.Props.Reference.C141_hull",
    "Verif.Props.Reference.C141_open",
    "Verif.Props.Reference.C141_open_partial",
    "Verif.Props.Reference.C141_open_violated",
    "Verif.Props.Reference.C141_tolerance_violated"
   ],
   "note": "Closed reactions and hulls as stated, with the exact formula and the tolerance bound. Missing: open reactions that name a pure open element as a phase; there the property is violated (C141_open_violated), C141_open gives the exact dependence."
  },
  {
   "property": "C142",
   "status": "partial",
   "theorems": [
    "Verif.Props.HullGrow.C142_primary",
    "Verif.Props.HullGrow.C142_above_hull",
    "Verif.Props.HullGrow.C142_stable",
    "Verif.Props.HullGrow.C142_secondary_max_partial",
    "Verif.Props.HullGrow.C142_secondary_violated",
    "Verif.Props.HullGrow.C142_secondary_max_violated"
   ],
   "note": "Proved for the primary competition, the energy above the hull and stability. The default secondary competition, averaged or not, falls when a new competitor pushes others off the hull (C142_secondary_violated). The maximum-energy variant does not fall for a reaction that stays stable, when no reactant decomposes (C142_secondary_max_partial); for an unstable reaction it falls (C142_secondary_max_violated). Coordinates and energies of different hull points are assumed to differ by more than the isclose tolerance."
  },
  {
   "property": "C143",
   "status": "partial",
   "theorems": [
    "Verif.Props.Search.C143_more_pathways",
    "Verif.Props.Search.C143_monotone_partial",
    "Verif.Props.Search.C143_unit_partial",
    "Verif.Props.Search.C143_rivals_violated"
   ],
   "note": "The number of pathways: proved for any network, history and routine. The comparison of costs is proved when reactions between the same phases cost the same; otherwise a further, more expensive reaction between the same phases makes the first pathway more expensive (C143_rivals_violated)."
  },
  {
   "property": "C144",
   "status": "partial",
   "theorems": [
    "Verif.Props.HullUnit.C144_primary",
    "Verif.Props.HullUnit.C144_scores_partial",
    "Verif.Props.HullUnit.C144_tolerance_violated",
    "Verif.Props.HullUnitRec.C144_recursive_partial"
   ],
   "note": "Primary competition without restriction; the other scores (also the recursive variant of the secondary competition) and stability as long as the tolerances of numpy.isclose confuse no two hull points and no decomposition energy of an end member with zero, in either unit. With a factor of 1e-9 the decomposition of a reactant counts as zero and the secondary competition changes (C144_tolerance_violated)."
  },
  {
   "property": "C145",
   "status": "partial",
   "theorems": [
    "Verif.Props.PathHull.C145_energy",
    "Verif.Props.PathHull.C145_never_below_partial",
    "Verif.Props.PathHull.C145_two_reactions",
    "Verif.Props.PathHull.C145_best",
    "Verif.Props.PathHull.C145_inert",
    "Verif.Props.PathHull.C145_small_n_violated",
    "Verif.Props.PathHullOpen.C145_open_energy",
    "Verif.Props.PathHullOpen.C145_open_never_below_partial",
    "Verif.Props.PathHullOpen.C145_open_two_reactions",
    "Verif.Props.PathHullOpen.C145_open_best",
    "Verif.Props.PathHullOpen.C145_open_inert"
   ],
   "note": "Proved for exactly balanced reactions of phases with distinct reduced formulas, in the setting of C136 (C139 with an open element): one phase per element at most, as many phases per side as A and B have elements, no restriction of precursors or targets. The mixture agrees up to the rounding of the coordinates to 12 digits (5e-13). Violated with fewer phases per side: with n = 2 the two reactions PQR -> PQ + R and PQ -> P + Q, both on the hull, release energy one after the other although the hull shows none for PQR."
  },
  {
   "property": "C146",
   "status": "partial",
   "theorems": [
    "Verif.Props.DomainDistance.C146_attained_partial",
    "Verif.Props.DomainDistance.C146_neighbours",
    "Verif.Props.DomainDistance.C146_two_elements",
    "Verif.Props.DomainDistance.C146_three_elements_violated"
   ],
   "note": "Proved for any number of elements: attained by points of the domains, and zero exactly when the domains meet; exact (least distance) for two elements. With three elements it is false: only corners are compared, witness with compounds AC and ABC (C146_three_elements_violated). The half-space intersection is assumed to list the corners of each facet (Corners); phases with a metastable domain are not covered."
  },
  {
   "property": "C147",
   "status": "proved",
   "theorems": [
    "Verif.Props.Coexist.C147_no_reaction",
    "Verif.Props.Coexist.C147_apart",
    "Verif.Props.Coexist.C147_bound",
    "Verif.Props.Coexist.C147_stable",
    "Verif.Props.CoexistMany.C147_common_point",
    "Verif.Props.CoexistMany.C147_three_violated"
   ],
   "note": "For any number of elements. Uses the C146 assumptions on the half-space intersection (vertices are exactly the corners). C147_common_point is for any number of reactants; C147_three_violated shows that three phases may touch pairwise and still react, so the two-reactant form cannot be extended. C147_bound is for reactions whose phases have different reduced formulas."
  },
  {
   "property": "C148",
   "status": "partial",
   "theorems": [
    "Verif.Props.Residual.C148_interfaces",
    "Verif.Props.Residual.C148_mean_violated",
    "Verif.Props.ResidualAny.C148_any_phase"
   ],
   "note": "Proved for sum and max: half of the distance for phases with stable domains (C148_interfaces), the whole distance for all phases, with metastable domains and offsets (C148_any_phase, after any harmless use of the diagram). Violated for mean: averaging over the interfaces hides the reactive one (C148_mean_violated). Floats enter as a rounding function with error bound; scipy as in C146; the energy above hull of pymatgen enters as the amount by which the stabilized entry was lowered."
  },
  {
   "property": "C149",
   "status": "partial",
   "theorems": [
    "Verif.Props.StableDomains.C149_sound",
    "Verif.Props.StableDomains.C149_complete_partial",
    "Verif.Props.StableDomains.C149_limit_violated",
    "Verif.Props.StableDomains.C149_zero_reference_violated"
   ],
   "note": "Only stable phases: proved for all mixtures up to the formation energy tolerance. Every stable phase: proved (separating hyperplane) for limits that are low enough, elements with energy below 0 and compounds with a formation energy below the tolerance. Violated: the fixed default limits can cut off the whole domain of a stable phase; an element at energy 0 (formation energies) shares its half-space with the upper border, so whether it has a domain depends on which duplicate Qhull lists."
  },
  {
   "property": "C150",
   "status": "partial",
   "theorems": [
    "Verif.Props.MetaDomains.C150_keys",
    "Verif.Props.MetaDomains.C150_answers_partial",
    "Verif.Props.MetaDomains.C150_agrees_partial",
    "Verif.Props.MetaDomains.C150_poisoned_violated"
   ],
   "note": "The listed formulas: proved without conditions. The listed domains, unchanged entries, agreement with later queries: proved for histories of queries that do no harm (see C45). Violated when the query of one phase fails after its stabilized entry was added."
  },
  {
   "property": "C151",
   "status": "proved",
   "theorems": [
    "Verif.Props.NetPlot.C151_colors",
    "Verif.Props.NetPlot.C151_same_color",
    "Verif.Props.NetPlot.C151_unknown"
   ],
   "note": "The palette (matplotlib get_cmap) is a parameter with different entries per index; mpl_draw is not modelled."
  },
  {
   "property": "C152",
   "status": "partial",
   "theorems": [
    "Verif.Props.DomainShift.C152_domains_partial",
    "Verif.Props.DomainShift.C152_stable_partial",
    "Verif.Props.DomainShift.C152_distance_partial",
    "Verif.Props.DomainShift.C152_limits_violated"
   ],
   "note": "The half-space intersection must list exactly the corners and, for a half-space, a point exactly if it bounds a facet (no two half-spaces coincide, e.g. an element at energy 0 with upper limit 0). Formation energies are at most the numerical tolerance or clearly above it in both units. Distances are those between phases with a domain; metastable phases are not covered. C152_limits_violated: with the fixed default limits the claim fails."
  },
  {
   "property": "C153",
   "status": "partial",
   "theorems": [
    "Verif.Props.SolverGrow.C153_kept_partial",
    "Verif.Props.SolverGrow.C153_costs_partial",
    "Verif.Props.SolverGrow.C153_best_partial",
    "Verif.Props.SolverGrow.C153_more_combos_violated"
   ],
   "note": "Two successful runs; schedules, chunk and batch sizes may differ. Assumes the duplicate filter keeps the earlier candidates as before, and for the costs that equality of reactions is an equivalence and the pseudo-inverse returns one number per row. C153_more_combos_violated: raising max_num_combos above the number of candidates makes the run fail, so success of the wider run is a hypothesis."
  },
  {
   "property": "C154",
   "status": "partial",
   "theorems": [
    "Verif.Props.SolverEnum.C154_found_partial",
    "Verif.Props.SolverEnum.C154_sound"
   ],
   "note": "Partial: the limits of C132 (systems of ten or more elements, tolerance) and of C57 (fewer candidates than max_num_combos, one CPU without batch size, multiplicities below 1e-6). A plan of a single step is the net reaction itself and is removed (C71)."
  },
  {
   "property": "C155",
   "status": "partial",
   "theorems": [
    "Verif.Props.EnumTemp.C155_same_partial",
    "Verif.Props.EnumTemp.C155_open_same_partial",
    "Verif.Props.EnumTemp.C155_energy_partial",
    "Verif.Props.EnumTemp.C155_open_energy_partial"
   ],
   "note": "Proved for both the exhaustive enumerator and the one with open phases, in the setting of C132 and C134: distinct reduced formulas, phases told apart by the balancing tolerance. Missing: polymorphs (their conversion inside a set is confused, C27)."
  },
  {
   "property": "C156",
   "status": "partial",
   "theorems": [
    "Verif.Props.SetAlgebra.C156_chempot_merge",
    "Verif.Props.SetAlgebra.C156_merge_potential",
    "Verif.Props.SetAlgebra.C156_chempot_queries",
    "Verif.Props.SetAlgebra.C156_chempot_duplicates",
    "Verif.Props.SetAlgebra.C156_chempot_temperature",
    "Verif.Props.SetAlgebra.C156_queries_merge",
    "Verif.Props.SetAlgebra.C156_temperature_merge_partial",
    "Verif.Props.SetAlgebra.C156_temperature_merge_accepted",
    "Verif.Props.SetAlgebra.C156_temperature_reactants_partial",
    "Verif.Props.SetAlgebra.C156_temperature_merge_violated",
    "Verif.Props.SetAlgebra.C156_temperature_product_violated"
   ],
   "note": "Proved without conditions on the set: changing the potential commutes with merging, queries, duplicate removal and temperature. Proved: queries of merged sets at one potential; temperature and reactant query (phases of different composition, no tiny coefficients); temperature and merging when the converted sets have the same entries, which is exactly when the merge is accepted. Missing because the code violates it: merging converted sets that use different phases, and product queries on converted sets."
  },
  {
   "property": "C157",
   "status": "proved",
   "theorems": [
    "Verif.Props.OpenWindow.C157_reaction",
    "Verif.Props.OpenWindow.C157_crossover",
    "Verif.Props.OpenWindow.C157_builds",
    "Verif.Props.OpenWindow.C157_concave",
    "Verif.Props.OpenWindow.C157_window",
    "Verif.Props.OpenWindow.C157_monotone",
    "Verif.Props.OpenWindow.C157_hull_energy",
    "Verif.Props.OpenWindow.C157_stability_window"
   ],
   "note": "All parts proved for one open element. The statement about mixtures is in the setting of C139 (its assumptions on phases and enumeration); C157_hull_energy transfers concavity to the reported value under the separation conditions of C139_attained."
  },
  {
   "property": "C158",
   "status": "partial",
   "theorems": [
    "Verif.Props.EnergyError.C158_reaction",
    "Verif.Props.EnergyError.C158_open",
    "Verif.Props.EnergyError.C158_points",
    "Verif.Props.EnergyError.C158_envelope",
    "Verif.Props.EnergyError.C158_primary",
    "Verif.Props.EnergyError.C158_above_hull",
    "Verif.Props.EnergyError.C158_secondary_max_partial",
    "Verif.Props.EnergyError.C158_open_violated",
    "Verif.Props.EnergyError.C158_secondary_violated"
   ],
   "note": "Proved for closed reactions, hulls, primary competition and energy above the hull (the latter with hull corners told apart by numpy's tolerance). Secondary competition: proved for the maximum-energy variant of a reaction stable in both hulls when no reactant decomposes; the default one jumps when another reaction crosses the hull (C158_secondary_violated). Open reactions count only atoms that are not exchanged: C158_open has the exact bound, C158_open_violated a case off by 4d."
  },
  {
   "property": "C159",
   "status": "proved",
   "theorems": [
    "Verif.Props.StabilityError.C159_add",
    "Verif.Props.StabilityError.C159_add_filter",
    "Verif.Props.StabilityError.C159_error",
    "Verif.Props.StabilityError.C159_error_filter",
    "Verif.Props.StabilityError.C159_competitors",
    "Verif.Props.StabilityError.C159_reference",
    "Verif.Props.StabilityError.C159_reference_filter",
    "Verif.Props.StabilityError.C159_parts",
    "Verif.Props.StabilityError.C159_later",
    "Verif.Props.StabilityError.C159_later_succeeds",
    "Verif.Props.StabilityError.C159_error_tight",
    "Verif.Props.StabilityError.C159_error_polymorph_violated"
   ],
   "note": "Distances and filters compared between sets and between energy assignments, over the stated assumptions on compositions and phase diagrams. The factor 2 is attained (C159_error_tight). The bound for the filter is stated with polymorphs included; without them it fails (C159_error_polymorph_violated), since a small error changes which polymorph is kept."
  },
  {
   "property": "C160",
   "status": "partial",
   "theorems": [
    "Verif.Props.CostError.C160_weighted",
    "Verif.Props.CostError.C160_softplus",
    "Verif.Props.CostError.C160_order",
    "Verif.Props.CostError.C160_temperature",
    "Verif.Props.CostError.C160_size",
    "Verif.Props.CostError.C160_pathway_partial",
    "Verif.Props.CostError.C160_mean",
    "Verif.Props.CostError.C160_solver",
    "Verif.Props.CostError.C160_solver_best"
   ],
   "note": "Costs, mean costs and the solver: proved as stated (the solver for two successful runs with a lawful duplicate filter, an equivalence of reactions and a pseudo-inverse returning one number per row). Network pathways: proved when reactions between the same phases cost the same in both assignments, since otherwise the pathway reported need not be the one searched (C69_parallel_violated, C143_rivals_violated)."
  },
  {
   "property": "C161",
   "status": "partial",
   "theorems": [
    "Verif.Props.DomainGrow.C161_domain",
    "Verif.Props.DomainGrow.C161_stays",
    "Verif.Props.DomainGrow.C161_distance_partial",
    "Verif.Props.DomainGrow.C161_two_elements",
    "Verif.Props.DomainGrow.C161_neighbours",
    "Verif.Props.DomainGrow.C161_error",
    "Verif.Props.DomainGrow.C161_error_sound",
    "Verif.Props.DomainGrow.C161_error_complete_partial",
    "Verif.Props.DomainGrow.C161_three_elements_violated"
   ],
   "note": "Proved: domains shrink, no phase gains a domain, touching domains touched before (any number of elements), distances never decrease with two elements, bounds for wrong energies. Violated with three or more elements: the reported distance compares corners only, and one more phase can reduce it (AC and B from the square root of 8 to that of 6). Stated for a half-space intersection that returns the corners of the region, and for low enough limits where a domain is claimed to exist."
  },
  {
   "property": "C162",
   "status": "partial",
   "theorems": [
    "Verif.Props.TempLine.C162_line",
    "Verif.Props.TempLine.C162_between",
    "Verif.Props.TempLine.C162_once",
    "Verif.Props.TempLine.C162_references",
    "Verif.Props.TempLine.C162_hull",
    "Verif.Props.TempLine.C162_points",
    "Verif.Props.TempLine.C162_elements",
    "Verif.Props.TempLine.C162_elements_violated",
    "Verif.Props.TempAny.C162_any",
    "Verif.Props.TempAny.C162_any_interface",
    "Verif.Props.TempAny.C162_any_reached",
    "Verif.Props.TempPoly.C162_polymorphs",
    "Verif.Props.TempPoly.C162_polymorphs_violated"
   ],
   "note": "Proved for reactions between different computed compounds. With elemental phases the line bends (C162_elements_violated): their entries carry no correction while the tabulated potentials are not linear; between neighbouring nodes of the table the bend has a known sign (C162_elements, for a concave logarithm). With entries of all kinds (computed, elemental, experimental, interpolated) the energy per atom between two temperatures of one interval of the tables is within one bound of the interpolation (C162_any), which is reached (C162_any_reached), and the hull of an interface at most that far below (C162_any_interface). Where a reaction lists several polymorphs of one composition the lowest counts, so the line bends too (C162_polymorphs_violated), in a known direction (C162_polymorphs)."
  },
  {
   "property": "C163",
   "status": "partial",
   "theorems": [
    "Verif.Props.CostChoice.C163_reads",
    "Verif.Props.CostChoice.C163_order",
    "Verif.Props.CostChoice.C163_error",
    "Verif.Props.CostChoice.C163_temperature",
    "Verif.Props.CostChoice.C163_pathway_partial"
   ],
   "note": "Reactions: proved as stated (data of the reaction empty, so energy_per_atom is the attribute). Pathways: proved when reactions between the same phases cost the same in both assignments, since otherwise the pathway reported need not be the one searched (C69_parallel_violated, C143_rivals_violated)."
  },
  {
   "property": "C164",
   "status": "proved",
   "theorems": [
    "Verif.Props.StabilityTemp.C164_mix",
    "Verif.Props.StabilityTemp.C164_mix_filter",
    "Verif.Props.StabilityTemp.C164_temperature",
    "Verif.Props.StabilityTemp.C164_entries",
    "Verif.Props.StabilityTemp.C164_between_violated"
   ],
   "note": "Proved for entry sets whose phase diagrams are the hulls of their entries (assumption on pymatgen) and element potentials on a line between the temperatures, as between neighbouring nodes of the tables; that stability at both ends does not imply stability inside is shown by a witness."
  },
  {
   "property": "C165",
   "status": "partial",
   "theorems": [
    "Verif.Props.ScoreTemp.C165_primary",
    "Verif.Props.ScoreTemp.C165_above_hull",
    "Verif.Props.ScoreTemp.C165_stable",
    "Verif.Props.ScoreTemp.C165_secondary_max_partial",
    "Verif.Props.ScoreTemp.C165_temperature",
    "Verif.Props.ScoreTemp.C165_secondary_violated"
   ],
   "note": "Primary competition, energy above the hull (hull corners told apart by numpy's tolerance) and stability: proved. Secondary competition: proved for the maximum-energy variant of a reaction that is stable at both temperatures when no reactant decomposes; the default variant jumps when another reaction leaves the hull and can exceed the interpolation (C165_secondary_violated)."
  },
  {
   "property": "C166",
   "status": "proved",
   "theorems": [
    "Verif.Props.OpenScore.C166_primary",
    "Verif.Props.OpenScore.C166_stable",
    "Verif.Props.OpenScore.C166_above_hull",
    "Verif.Props.OpenScore.C166_secondary_max"
   ],
   "note": "All parts proved for one open element. Energy above the hull and secondary competition: for reactions placed between 0 and 1 and hull corners told apart by numpy's tolerance. The default secondary competition jumps when another reaction leaves the hull (C165_secondary_violated) and is not claimed."
  },
  {
   "property": "C167",
   "status": "partial",
   "theorems": [
    "Verif.Props.CostBetween.C167_weighted",
    "Verif.Props.CostBetween.C167_softplus",
    "Verif.Props.CostBetween.C167_temperature",
    "Verif.Props.CostBetween.C167_pathway_partial",
    "Verif.Props.CostBetween.C167_best_violated",
    "Verif.Props.CostBetween.C167_mean"
   ],
   "note": "Costs, average costs and computed compounds: proved as stated (reaction data empty for the default cost). Pathway search: proved when reactions between the same phases cost the same in between, since otherwise the pathway reported need not be the one searched (C69_parallel_violated, C143_rivals_violated). The claim is about a given pathway: the cheapest one in between can cost more than the cheapest at either condition (C167_best_violated)."
  }
 ]
}
