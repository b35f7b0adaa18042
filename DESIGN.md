# Formal model of reaction-network: design

The code under study is `materialsproject/reaction-network`, pinned in `/repo` (Python). It is read as text
and never executed. This directory contains a Lean 4 model of its decision logic, loops, data structures and
arithmetic, together with kernel-checked proofs of the properties in `properties.jsonl`.

## Trusted base

* Lean 4.33.0's kernel, and Mathlib compiled against it. Allowed axioms: `propext`, `Classical.choice`,
  `Quot.sound`. No own axioms, no `sorry`/`admit`, no `native_decide`/`bv_decide`. The axioms of every claimed
  theorem are listed in the results section (P, C, Q for the three above).
* The hand transcription Python -> Lean. Every model definition cites the file and lines it models and states
  what it simplifies.
* Everything external is a *parameter* of the model, with any assumed behaviour as an explicit hypothesis
  (never an axiom): see "External code".
* Floating point: numbers are exact (`ℚ`, or `ℝ` where `log/exp` occur). numpy tolerances (`isclose`, `allclose`,
  `1e-6`, `1e-12` ...) are kept as explicit rational comparisons. Rounding error, NaN and overflow are not modelled
  unless a definition says so.

## Layout

* `lean/Verif/Model/*.lean`  : models of the code, function by function.
* `lean/Verif/Spec/*.lean`   : small, independent specifications (what a user means), not using model helpers. Where a
  specification is one or two lines it stands in the theorem itself.
* `lean/Verif/Lemmas/*.lean` : helper lemmas.
* `lean/Verif/Props/*.lean`  : property theorems `Cxx_*`, each with concrete examples meeting its hypotheses.
* `tools/claim.py`           : keeps `MANIFEST.json`, `properties.jsonl` and the results section below.
* `seeded/LOG.jsonl`         : mutation tests of the model.

Where the code violates a property, the negation is proved with a concrete witness (theorem name contains
`_counterexample` or `_violated`) and the strongest version found is kept with suffix `_partial`. The disagreements are
listed below.

## What is modelled

| code | model | not modelled |
| --- | --- | --- |
| `core.py` (`Composition`) | `Model/Chem` | pymatgen's parser |
| `reactions/hull.py` | `Model/Hull`, `Model/HullInit`, `Model/HullCount`, `Model/HullPlot` | plotly (styles, hover text), `ConvexHull` itself |
| `reactions/basic.py` | `Model/Reaction`, `Model/Balance`, `Model/Parser`, `Model/Symbols`, `Model/Alias` | LaTeX strings |
| `reactions/computed.py`, `open.py` | `Model/Reaction`, `Model/Balance`, `Model/RxnSet`, `Model/RxnTemp`, `Model/SetDict`, `Model/Uncertainty` | |
| `reactions/reaction_set.py` | `Model/RxnSet`, `Model/RxnTemp`, `Model/SetDict`, `Model/Table`, `Model/Symbols` | progress bars |
| `reactions/plotting.py` | `Model/DfTools` | drawing |
| `costs/*.py` | `Model/Pareto`, `Model/Costs` | |
| `utils/funcs.py`, `utils/ray.py` | `Model/Utils`, `Model/Py`, `Model/Cluster` | ray itself |
| `enumerators/basic.py`, `utils.py` | `Model/Enum` | logging code |
| `enumerators/minimize.py` | `Model/Minimize` | pymatgen phase diagrams are parameters |
| `entries/entry_set.py`, `gibbs.py`, `experimental.py`, `corrections.py` | `Model/Entries`, `Model/EntryFlow`, `Model/StabilityFilter`, `Model/SetOps`, `Model/Gibbs`, `Model/GibbsDict`, `Model/ExperData`, `Model/Indices` | file access |
| `entries/utils.py`, `entries/interpolated.py` | `Model/EntryFlow`, `Model/MpDb`, `Model/Criteria` | building entry objects from raw documents |
| `thermo/*.py` | `Model/Thermo`, `Model/Chempot` | the half-space computation of pymatgen |
| `network/*.py` | `Model/Network`, `Model/NetEntry`, `Model/NetDict` | graph export, visualization |
| `pathways/*.py` | `Model/Pathway`, `Model/Solver`, `Model/Intermediates`, `Model/Cascade`, `Model/PathMatrix`, `Model/PathEnergy` | drawing |
| `jobs/core.py` | `Model/Jobs`, `Model/SynthJob`, `Model/NetJob`, `Model/SolverJob`, `Model/MpDb`; `utils/database.py`: `Model/JobStore` | jobflow/maggma plumbing |
| `flows/core.py` | `Model/Flow` | jobflow itself |

`Model/Py` and `Model/PyData` hold Python's containers and exceptions.

## External code and representation choices

* `Composition` (pymatgen) is the record `Chem`: amounts, reduced form, factor, with laws stated as hypotheses
  (`Lawful`). Parsing of formulas is the parameter `comp`.
* Python sets and dictionaries: lists. The iteration order of a set is a parameter or the order of the list; theorems hold for
  every order. Dictionaries are association lists with Python's update-in-place semantics.
* numpy: `argsort` is any stable sort where ties matter; `pinv` and `matrix_rank` are arbitrary functions, restricted by
  `PinvSpec` (exact unique solutions are returned) or the backend laws of C11 only in completeness statements.
  `np.unique`/`np.split` grouping is a parameter with a grouping law.
* scipy: `ConvexHull` returns the index of every corner of the hull exactly once and nothing else (`HullIndices`); that the code's filter keeps the lower hull (`GoodHull`) is proved from this (`C05_lower_hull`), given that the `isclose` tolerances do not confuse different points (`Apart'`); `KDTree` nearest-neighbour queries are exact.
* rustworkx: petgraph hands out freed indices last-in-first-out and lists parallel edges newest first; a graph without nodes is
  false as a truth value. Dijkstra returns a cheapest path or nothing. Cost functions are total.
* ray: `ray.wait(num_returns=1)` returns one finished reference and the remaining ones, in any order chosen by an
  arbitrary scheduler.
* pymatgen: phase diagrams are entry lists with hull-distance functions. `MSONable.from_dict` raises `TypeError` on unknown keys.
* Data files: table keys at consecutive multiples of 100 K; elemental potentials from 300 K to 2000 K; the list of common gases
  is a parameter.
* `entry.to_dict()` in `enumerators/utils.py` is read as `as_dict` (no such method exists in pymatgen); a set of compositions is
  never an element of a set of compositions, so the corresponding test is constant.
* `set(paths)` picks one representative per class (`PickSpec`; proved of Python sets as `C58_pick`). Negative entry indices, never stored by the code, are not
  modelled. Regular expressions use ASCII character classes. In the job models reaction equality is equality of a key; memory
  sizes are natural numbers of bytes; building a chemical potential diagram is a deterministic function of its system.

## Disagreements between code and properties

Line numbers are in `/repo/src/rxn_network`. Each item has a kernel-checked witness named in the results section.

* C04 `reactions/hull.py`: the path count of an empty interval is asked for index -1 and wraps around the table.
* C65 recursive secondary competition differs from the closed form when a reactant itself decomposes.
* C12 `ComputedReaction.balance` flags a failed attempt as balanced (all coefficients become zero).
* C09 a composition listed twice breaks the meaning of the balanced flag.
* C14 `normalize_to` on an open reaction returns a closed one; the balanced flag can flip at the tolerance.
* C15 atomic fractions of open products ignore the coefficients.
* C16 equality identifies different reactions, is not symmetric, disagrees with the hash, and can raise.
* C18 `is_separable` raises `KeyError` when the target is a reactant.
* C20, C21, C22 reaction sets: mixed open and closed reactions lose the potential; a set without `all_data` has a length but
  yields nothing; sets at different potentials are merged silently.
* C23, C24 queries: zero coefficients count as reactants and products; the first entry can never be queried as a product; only
  the first polymorph is considered.
* C25, C26 duplicates: near multiples are kept twice, zero coefficients raise `IndexError`, one CPU divides by zero.
* C27 changing the temperature confuses polymorphs.
* C29 `maximize=True` does not maximize the first metric.
* C30, C31 one-shot iterators yield only singletons; a chunk size of zero drops everything.
* C33 one chunk more than necessary can be created. C36 systems of ten or more elements are skipped silently.
* C66 `filter_by_chemsys` requires all elements, the documentation says at least one.
* C37 an `update` that raises midway leaves stale cached views.
* C41 `stabilize_entries` adds the hull distance instead of subtracting; stored distances can be out of date.
* C42, C43 deprecated experimental compounds skip the range check; adjusted experimental entries cannot change temperature; float
  temperatures on the grid raise `KeyError`. C67 with both sources NIST and computed entries coexist.
* C45 failing or unchanged metastable queries alter the chemical potential diagram.
* C48, C68 changing precursors leaves stale or doubled edges; rebuilding a network fails or keeps them. C50 equal payloads break
  the round trip.
* C52, C69 k-shortest paths are unsorted, can contain loops, miss parallel edges, and on acyclic graphs miss paths because the comparison of roots leaves out the spur node.
* C55 a phase with two producers makes an executable pathway be rejected. C58 equality looks at a prefix and ignores
  coefficients, and equal pathways can have different hashes. C59 the balanced flag is lost and equal reactions are merged.
* C57, C70 the solver fails with few candidates, on a single CPU, and when no combination covers the net reaction.
* C64 coefficients of 10000 and more are printed in scientific notation and read back wrongly.
* C74-C78 jobs: a third precursor is ignored, distances depend on chunking, the memory filter drops open reactions, callables are
  rejected after acceptance, small memory divides by zero.
* C79, C80 `process_entries`: requested experimental entries beyond their table are dropped; interpolated entries keep the energy
  of the filtering temperature.
* C83 `get_entries_with_jitter` drops the elements. C84 constructing a set writes to entry objects shared with other sets.
* C85 from ten elements on, the hull and size options are not passed on. C87 runs fail if enumerators have different working sets,
  and reactions found at another chemical potential lose it.
* C88 a repeated element in the request can return documents twice. C89 entries comparing equal can have different hashes, and
  equality is neither symmetric nor transitive.
* C90 candidates of one element, or of ten and more, are skipped without notice. C91 the reaction suggested for a metastable phase uses
  the stable polymorph instead, and the same reaction is returned for both.
* C93 a missing elemental reference raises `KeyError`; the `ValueError` naming it is unreachable. C95 experimental entries ignore the
  multiple of the formula. C98 a reaction at an end member raises `QhullError` instead of having an area.
* C99 copies, reversals and normalizations share a non-empty data dictionary with the original; `balance` edits the caller's one.
* C100 `is_identity` changes under rescaling and reversal near the tolerance.
* C101 data keys missing from the first reaction are lost from the table, keys named like fixed columns make the call fail, and
  the cached table itself is handed out.
* C103 open reactions are credited with the open element even if they do not contain it; the system string of task documents
  follows the set order.
* C104 filtering a reaction table by a formula spelled in another way (unreduced) finds nothing; filtering an empty table raises;
  the plotted table loses the `precursors` column and rows with equal labels.
* C105 the result of the grand potential enumerator is discarded in the identification job, which also fails with `ValueError` when
  enumerators order phases differently.
* C106 a network that has not been built cannot be saved; loading twice from one dictionary loses graph, precursors and target;
  after JSON every search raises; setting the same precursors again after loading doubles the return edges.
* C107 `dim` is the length of the chemical-system string; dummy entries cannot be loaded back; two dummies are never equal.
* C108 the pathway flow ignores the precursors and targets given to the call in its network and solver jobs; the default maker searches nothing;
  chemical potentials are ignored without minimizing enumerators.
* C109 a closed request on a mixed set keeps the potential of the first set; a target stored first is not found; too little memory divides
  by zero. C110 a closed request on open reactions only keeps their potential.
* C111 repeated elements duplicate entries; a negative chunk size finds nothing; entries made beforehand ignore the property list; sorting
  modifies the caller's list and the job never uses it; GGA and GGA+U are preferred differently by the two strategies.
* C112 two brace groups are read as one; the empty string is accepted here and rejected by the database; ids are recognised by prefix.
* C113 a failing `as_dict` leaves changed data on the entry; an element and its symbol are merged; keys that are numbers become strings.
* C114 the energy cascade depends on how formulas are written, subtracts a total energy from formation energies, changes compositions by
  smoothing, and fails on repeated temperatures.
* C106 (also) precursors set to the empty set are loaded back as "no precursors".
* C116 a precursor given to the solver may end up as a product of the net reaction, or unused. C117 precursors are compared by their
  unreduced compositions, so entries stored for several formula units are not recognised.
* C118 experimental energies are those of one formula unit whatever the composition; two spellings of one temperature lose a value.
* C119 `get_comp_matrix` uses an attribute that does not exist and always raises; a phase occurring twice counts once.
* C122 building a second network on shared entry objects overwrites the positions of the first, after which the solver offers wrong
  pathways; polymorphs can change places when loaded in another process; a phase listed twice loses a coefficient.
* C123 `Pathway.energy` adds the energies of the steps without their multiplicities, and `energy_per_atom` adds quotients with
  different denominators; neither is the energy of the net reaction.
* C124 the open enumerator never combines open phases on both sides of a reaction, so e.g. `MC + O → MO + C` with C and O open is not found.
* C125 the weight of a step in `average_cost` depends on the coefficients its reaction is written with; doubling them changes the ranking.
* C126 loading an open reaction replaces the symbols in the caller's dictionary by elements, so that it can no longer be written as JSON; a reaction that comes back from a set has `lowest_num_errors = 0`, whatever it had.
* C127 the recursive secondary competition depends on which reactant is called the first one as soon as one reactant decomposes (7/4 against 9/4): line 458 looks at the second point of the range but line 460 at the last one, and the flags leak out of the loop. Also `np.isclose` tolerates 1e-8 near 0 but 1e-5 near 1, so traces of a reactant are treated differently in the two orders.
* C128 a phase listed twice on one side counts with its last amount in the number of atoms, so the energy per atom depends on the order (-3/4 against -3/2); a reaction unbalanced by just over the tolerance becomes balanced when divided by ten.
* C129 a copy of an entry set and every set made with `|`, `&`, `-`, `^` have both settings off: after a change of temperature the original has current hull distances, its copy none. A change of temperature also forgets `minimize_obj_size`.
* C130 the pathway solver fails with a division by zero on one CPU without batch size, where it succeeds on two (see C57).
* C121 the documented variable `ip_head` is read in upper case only; an empty `PBS_NNODES` makes the start fail.
* C131 an open reaction cannot be asked for a new temperature without a second argument; a reaction set fails at a new temperature because of an entry no reaction uses, and may succeed by way of an intermediate temperature; hull distances stored on its entries stay those of the old temperature.
* C132: the reaction between two phases of five elements each that forms a phase of ten elements balances in one way and no setting excludes it, but no run returns it; the limit of nine elements is not documented as a setting (`C132_ten_violated`).
* C133 A target that needs two intermediates made in separate steps (A + B → AB, C + D → CD, AB + CD → ABCD, two phases per side) is reported as having no pathway although all three reactions are enumerated and can be run in that order.
* C137 A returned pathway can call for steps that no finite sequence of portions can complete (X + Y → XY twice, 2 XY → X + XY2 once, from one X and two Y: some X or XY is always left, `C137_unfinished_violated`); multiplicities off by a billionth are accepted and then the second step runs out (`C137_tolerance_violated`); with `filter_interdependent=False` a pathway that cannot be started is returned (`C137_unfiltered_violated`); with the filter a pathway that can be carried out is withheld (`C137_rejected_violated`, see C55).
* C139 the chemical potential of an open element is counted from the energy of the entry of the pure element, because that entry keeps its own energy in open reactions while all other entries get the potential subtracted. With formation energies, where pure elements are near zero, this makes no difference; with other energies the hull belongs to another potential than the given one (`C139_reference_violated`).
* C08 a reaction that consumes both reactants, but of one of them a share of at most 5e-13, has the coordinate 0 or 1 of a reaction of the other one alone, because coordinates are rounded to 12 digits (`C08_trace_violated`).
* C141 (open reactions and reference energies): `OpenComputedReaction.__init__` leaves entries of a pure open element as they are instead of counting them against their chemical potential (src/rxn_network/reactions/open.py:56-62), so a conserving reaction that names such a phase (`A + O2 -> AO2` with oxygen open) has an energy that depends on the reference energy of the open element, up to its sign, even if the chemical potential follows the reference. Right only if the open element has energy 0 (`C141_open_violated`).
* C142 adding a competing reaction can lower the secondary competition of an unchanged stable reaction (from 3763/315 to 101/9 with normalize=True, from 299/45 to 4 without), because the new reaction removes others from the hull and with them steps of the reaction sequences. The maximum-energy variant falls from 8/3 to 0 for an unstable reaction. So a lower secondary competition does not always mean less competition.
* C143 adding a more expensive reaction between the same phases can raise the cost of the first pathway (from 1 to 9), because the graph path is translated back to reactions by looking up one of the parallel edges.
* C144 the absolute tolerance of numpy.isclose makes the secondary competition depend on the unit: with energies multiplied by 1e-9 the decomposition of a reactant counts as zero and the score is not the old one times 1e-9.
* C145 With fewer phases per side than elements (the default is n = 2), two reactions of one hull carried out one after the other can release more energy than the hull shows, since their sum has too many products to be enumerated (`C145_small_n_violated`).
* C146 the docstring of `shortest_domain_distance` promises the shortest distance between domain boundaries; only the corners of the domains are compared (`KDTree` on the vertices). With three or more elements the closest points need not be corners: for A, B, C, AC (−1 eV/atom) and ABC (−4/3 eV/atom) the reported distance of AC and B is √8, the domains are √6 apart. For two elements the result is exact.
* C148 with mu_func="mean" the distance of AB -> A + B is smaller than the energy its products release when they react back, because two interfaces of distance zero are averaged in (C148_mean_violated).
* C149 the lower limit of the chemical potentials (default -100) can cut off the domain of a stable phase, which then has none; an elemental reference with energy 0 gives the same half-space as the upper border, so its domain depends on which duplicate is reported
* C150 one phase whose metastable domain cannot be made makes the whole access raise and leaves its stabilized entry in the diagram, so later domains of other phases differ
* C152 the limits of a chemical potential diagram (`default_min_limit`, chempot_diagram.py) are absolute numbers: lowering the element references by a constant, with all formation energies the same, makes phases lose their domain (`C152_limits_violated`).
* C153 (wider solver runs): allowing more reactions per pathway than there are candidates makes the run raise ValueError instead of returning the pathways found with the smaller limit (C153_more_combos_violated).
* C156 set_new_temperature keeps only the entries that occur in reactions. Two sets over the same phases can therefore be merged before a change of temperature but not after it (`C156_temperature_merge_violated`), and a product that was found before is not found after, because it has become the first entry (`C156_temperature_product_violated`).
* C158 The default secondary competition is not continuous in the energies: moving another reaction by 2e-9 across the hull changes the score of an unchanged reaction by more than 1, averaged or not, because the number of reaction sequences it is averaged over changes (`C158_secondary_violated`). The energy per atom of an open reaction can be off by more than twice the error of the phases, since only the atoms not exchanged are counted (`C158_open_violated`).
* C159 (limit of the statement) with `include_polymorphs=False` small errors of energies change which polymorph of a formula is kept, so no larger cutoff brings back the one kept with the wrong energies (`C159_error_polymorph_violated`).
* C161 with three elements one more phase can reduce a reported distance, because only corners of domains are compared (C161_three_elements_violated).
* C162 Reactions with elemental phases are not linear in temperature: a formation reaction can be unfavourable at 300 and 500 K and favourable at 400 K (C162_elements_violated), so the sign at the ends of a temperature range does not settle it within the range.
* C164 An entry that is stable at two temperatures can be unstable in between, because the correction of compounds contains 0.181 ln T and that of elemental entries does not; witness `C164_between_violated`.
* C165 The default secondary competition, averaged or not, can be larger between two temperatures than interpolation of its values says: it jumps when another reaction leaves the hull; witness `C165_secondary_violated`.
* C162 A reaction listing two polymorphs of a product can be favourable at 300 and 500 K and unfavourable at 400 K (C162_polymorphs_violated).
* C03, C07 the vertex lookup of the interface hull (hull.py:101-113) takes the first vertex that `np.isclose` accepts: a corner of the hull within the tolerance of another one has a negative energy above the hull (`C07_tolerance_violated`) and can have a negative secondary competition (`C03_tolerance_violated`). The claims exclude such coordinates.
* C134: with several open phases, filter_by_chemsys lets reactions pass that contain no element of the system, since the elements of all open phases are counted (C134_filter_violated: C and O open, filter C, M + O → MO).
* C135: with a reaction at mixing ratio 0 or 1 and negative energy (for example an unstable reactant that decomposes) the plot has a vertical line from the end point down to it, which is not part of the lower hull (`hull.py:565-571` keeps every facet with non-positive energies).
* C136: with max num_entries n smaller than the number of elements the enumeration misses decompositions into more than n phases, so the hull energy can be above the ground state (PQR, PQ, P, Q, R with n = 2); with the default n = 2 this concerns every interface of three or more elements. Coordinates are rounded to 12 digits (hull.py:113), so the hull energy belongs to a mixture that may differ by 5e-13.

## Per-property plan
* **C01 Decomposition path counts are the Catalan numbers**: Model the table branch (list lookup with Python indexing) and the cache recursion; prove both equal Mathlib's `catalan`, and `catalan n` = number of binary trees with n nodes. Strong induction.
* **C02 Closed-form decomposition energy equals the sum over all decomposition trees**: Model the triple loop and the interval recursion over an arbitrary altitude function; spec = sum over an inductive type of trees. Induction via the Catalan convolution.
* **C03 Secondary competition is non-negative on a convex hull**: Model `_calculate_altitude`; spec: three-point convexity. Algebra + monotonicity of sums with non-negative multiplicities.
* **C04 Degenerate intervals: a reaction at an end member has a well-defined path count**: Model count(-1) with Python negative indexing; prove negation (witness) for unnormalized, partial for normalized.
* **C05 Lever rule for interface reactions**: Model the two-vertex search over sorted vertices with isclose; prove weights/lever identity.
* **C06 Primary competition compares against exactly the reactions at other coordinates**: Model sorted list and index slicing; prove set equality with the filter specification.
* **C07 Stable/unstable reactions partition the hull's reactions**: Model list comprehension; partition by index; energy above hull via convexity of lower hull (hull output as spec'd parameter).
* **C08 Interface coordinate is the mixing fraction of the second reactant**: Direct algebra over ℚ.
* **C09 The balanced flag means conservation of every element**: Model constructor (dict semantics); spec = finite sum per element.
* **C10 Automatic balancing is sound**: Model the constraint loop with an arbitrary solver; loop invariant.
* **C11 Automatic balancing is complete for uniquely balanceable reactions**: Same model, solver hypothesis: solves consistent systems; one-dimensional null space.
* **C12 A failed balancing attempt is recognisable**: Witness for ComputedReaction (zero coefficients are 'balanced'); partial: lowest_num_errors = inf recognisable.
* **C13 Reversal is an involution that swaps sides and negates energy**: Algebra on the reaction model.
* **C14 Normalization rescales by one positive factor**: Algebra.
* **C15 Fractions are a probability distribution**: Algebra; witness for open product fractions.
* **C16 Reaction equality identifies only equal reactions and respects hashing**: Model eq/hash; witness of two different balanced reactions comparing equal; partial: equality sound for <=2... or same order.
* **C17 Energy per atom is scale invariant**: Algebra.
* **C18 is_separable means: target made, every other product soluble/gaseous by-product**: Decision logic; witness for KeyError.
* **C19 Open-element reaction energy is the grand-potential change**: Algebra on grand-potential energies.
* **C20 ReactionSet storage is lossless**: Model index/coeff/data arrays per size; stable grouping permutation.
* **C21 len() of a reaction set is the number of reactions it yields**: Witness + partial.
* **C22 Merging reaction sets is multiset union**: Multiset reasoning.
* **C23 Query by reactants is exact**: Set equality.
* **C24 Query by product is exact**: Witness (index 0) + partial.
* **C25 Duplicate filtering keeps exactly one representative per reaction**: Model grouping and keep-loop; equivalence-class argument.
* **C26 Parallel duplicate filtering does not depend on the schedule**: Chunking + arbitrary completion permutation.
* **C27 Changing temperature keeps each reaction's phases**: Witness + partial.
* **C28 Pareto front is exactly the set of non-dominated points**: Loop invariant of the mask algorithm, then exact characterisation.
* **C29 Pareto front with maximize=True maximizes every metric**: Witness + partial.
* **C30 limited_powerset enumerates each non-empty bounded subset once**: Induction.
* **C31 grouper loses and duplicates nothing**: Induction.
* **C32 to_iterator yields every task result exactly once under any schedule**: Induction over nondeterministic schedule.
* **C33 Enumeration work distribution is lossless**: Loop invariant.
* **C34 Enumerated reactions satisfy the user's constraints**: Decision logic over parameters.
* **C35 Chemical-system grouping loses no balanced reaction**: Completeness of grouping.
* **C36 User filters applied early never discard an admissible reaction**: Implication between filters, witness where lossy.
* **C37 Cached views of an entry set are always current**: State machine refinement: cached state vs. fresh computation, any history.
* **C38 Minimum-energy lookup is minimal**: Fold minimum.
* **C39 Stability filter**: Loop invariant over pd list.
* **C40 Chemical-system subset is exact**: Filter equality.
* **C41 Stabilizing an entry puts it on or below the hull**: Arithmetic; witness for stabilize_entries.
* **C42 Temperature changes are path independent**: State machine over temperature histories.
* **C43 Tabulated energies are interpolated between neighbouring points**: Interpolation algebra; witness for float keys.
* **C44 Phase-diagram expansion covers all entries with no redundancy**: Fold invariant.
* **C45 Chemical-potential queries do not alter the diagram**: State machine with failure outcome; witness.
* **C46 Domain distance is symmetric and minimal**: Minimum over product.
* **C47 Network construction represents every reaction exactly once**: Fold invariant over reactions.
* **C48 Setting precursors is history independent**: Witness + partial.
* **C49 Setting the target is history independent**: State machine.
* **C50 Network graph serialization round-trips**: Isomorphism.
* **C51 k-shortest paths are genuine, distinct paths and the first is optimal**: Loop invariants with Dijkstra oracle.
* **C52 k-shortest paths are the k cheapest simple paths in order**: Witnesses by evaluation; complete proof for layered graphs (loop invariant: every way of leaving the known paths is covered by the queue); second path for all graphs without parallel edges.
* **C53 Pathway cost equals the cost of its graph path**: Induction along path.
* **C54 A pathway not flagged as interdependent can be carried out step by step**: Fixed-point/ordering argument.
* **C55 A sequentially executable pathway is never rejected as interdependent**: Witness + partial.
* **C56 Balanced pathways really sum to the net reaction**: Soundness of acceptance check.
* **C57 No balanceable combination is missed**: Completeness with solver hypothesis.
* **C58 Pathway equality compares whole pathways**: Witness + partial.
* **C59 PathwaySet storage is lossless**: Witness + partial.
* **C60 Pathway compositions are partitioned into reactants, intermediates, products**: Set algebra.
* **C61 Softplus costs are positive and monotone**: Real analysis on log/exp.
* **C62 Cost parameters are read from reaction data first, attributes second, else an error**: Decision logic.
* **C63 Competition scores for single-precursor reactions**: Order arithmetic.
* **C64 Printed reactions can be parsed back**: Parser/printer model; witness for 1e+04; partial for the rest.
* **C65 Recursive and closed-form secondary competition agree**: Model both algorithms; induction over intervals; witness where the hull's ends are not flat.
* **C66 filter_by_chemsys keeps what its documentation says**: Decision logic of the system filter; witness.
* **C67 Experimental data take precedence over computed entries**: Fold over formulas; witness with two experimental sources.
* **C68 Rebuilding a network starts afresh**: State machine; refuted by witnesses.
* **C69 Pathways found in a network can be carried out, and the first is the cheapest**: Composition of C47-C53; chain specification on reactions.
* **C70 Absence of a balanced pathway is reported as an empty result**: Error branches of the solver; witness.
* **C71 Steps of a solved pathway are distinct candidates, never the net reaction itself**: Invariant through the solver pipeline.
* **C72 Decorating a reaction adds one value and changes nothing else**: Dictionary update law.
* **C73 Chemical potential distance counts each interface once, in any order**: Permutation invariance.
* **C74 Competition scores do not depend on how reactions are split into chunks**: Chunking law over an arbitrary scoring function; witness for a third precursor.
* **C75 Chemical potential distances do not depend on chunking**: Cache invariant; witness.
* **C76 Dropping unneeded reactions to save memory does not change competition**: Set equality of competing reactions; witness for open systems.
* **C77 Any aggregation function can be used for chemical potential distances**: Constructor state; witness.
* **C78 Chunks fit in memory**: Arithmetic; witness for division by zero.
* **C79 Requested formulas survive processing**: Model of the whole function over an abstract data source; partial theorem when no conversion raises; witness where the table ends below the requested temperature.
* **C80 Processed entries are at the requested temperature**: Same model; theorem for Gibbs and experimental entries; witness with an interpolated entry.
* **C81 Contents of a processed entry set**: Membership characterisation of the result list against a set-level specification.
* **C82 Initializing an entry by formula**: Cases of the lookup; hull energy as an assumption (BelowHull), stability through the decomposition specification of C41.
* **C83 Random shifts keep the entry set**: Length and energies for compounds; witness for a dropped element.
* **C84 Building an entry set leaves its inputs alone**: Heap of entry objects; frame theorem for entries outside the set and for flags off; witness for sharing.
* **C85 Large systems are processed like small ones**: Membership equality through C44 and the description of from_pd; references are the lowest elemental entries; witness for the dropped flags.
* **C86 Enumerators work on all entries plus the requested ones**: Fold over any iteration order; membership characterisation.
* **C87 Running several enumerators collects all reactions**: Composition with the results on merging and duplicate filtering; witness for differing entries.
* **C88 Database queries return the chemical system once**: Key of a document is injective on sorted element lists; chunks partition the list of subsystems; permutation of the filtered database; witness for a repeated element.
* **C89 Equal entries have equal hashes**: Implication for exact fields; witnesses for hashes and transitivity.
* **C90 Minimization runs consider every pair once**: model of the phase diagram pre-loop and of the chunked run with both schedules as
  parameters; the run is compared with the candidates processed one at a time. Witness for skipped systems.
* **C91 Reactions predicted by minimization**: model of the substitution of entries and of balancing; pymatgen's interface reactions are
  a parameter. Witness for polymorphs.
* **C92 Each reaction of an interface hull sits at its own coordinates**: `Model/HullInit`: search for the two end entries, coordinate array with an arbitrary sorting permutation; alignment as a permutation of pairs; link to `C05_lower_hull`.
* **C93 Points of a chemical potential domain respect every phase**: `Model/Chempot`: hyperplanes, selection by formation energy, collection of intersections by facet; the half-space intersection is a parameter with its defining inequalities as specification.
* **C94 The offset of a phase is its Euclidean distance to the diagram's surface**: `Model/Chempot`: look-up of the hull distance and the quotient by the norm, over the reals; distance proved in any real inner product space.
* **C95 Gibbs energies are extensive**: `Model/Gibbs`: reduced mass and correction with the logarithm as a parameter; homogeneity and averaging by finite sums.
* **C96 Energy uncertainty of a reaction**: `Model/Uncertainty`: first-order error propagation of independent entry variables as done by the `uncertainties` package; root of a sum of squares over the reals.
* **C97 Which entries get an experimental reference or a carbonate correction**: `Model/Gibbs`: decision functions branch by branch.
* **C98 Decomposition areas add up**: `Model/HullInit`: area of the polygon through the coordinates in range (shoelace formula for convex position); telescoping.
* **C99 A copied reaction is independent of the original**: `Model/Alias`: reactions refer to data dictionaries in a heap; frame statements over update histories.
* **C100** `isIdentity` (Model/Reaction). Decision characterisation through dictionaries of amounts per phase (spec), energy through `sumEnergies`; reversal and scaling near the tolerance expected to fail: witness.
* **C101** Table as columns (list of named lists) built branch by branch; spec: rows built one reaction at a time. Lost data keys, clashing keys and the cached (shared) table are expected violations with witnesses.
* **C102** `computeAtTemperatures` beside `setNewTemperature` (Model/RxnSet); spec through the latter.
* **C103** Strings as lists of elements with sorting and joining; set iteration order is a parameter (any permutation). `_get_metadata` joins an unsorted set: expected violation.
* **C104** Rows with labels; formula normalisation is a parameter. Unreduced spelling and repeated labels are expected violations.
* **C105** Enumerators as parameters returning reaction lists; model of the merge and filters. Discarded grand potential result is an expected violation.
* **C106** Object state, dictionary heap with `pop`; loading twice and saving before build are expected violations.
* **C107** Entries over abstract phases with elements; strings of symbols for `dim` (length of the joined string): expected violation.
* **C108** Flow as list of job descriptions with settings; `precursors`/`targets` of the network maker are never filled in: expected violation.
* **C109** Composition of addRxnSet, target query, pool, competition and chempot stages of Model/Jobs and Model/RxnSet.
* **C110** Composition of fromRxns, filterDuplicates and the network state machine.
* **C111** Database as list of documents; queries as filters; spec: documents whose elements lie in the system.
* **C112** Tokenizer and chemical system branch as functions on character lists; formula branch through a composition parser parameter.
* **C113** Data as nested dictionaries with two kinds of keys; serialization of the base class is a parameter that may fail.
* **C114** Amount matrix, spec of the hull as greatest lower bound of mixtures; formation energies as parameters.
* **C115 Setting a chemical potential keeps the reactions**: Model of `set_chempot` in RxnSet; equality of the yielded reactions up to the potential for all built sets.
* **C116** Guard and job over Model/Balance, Model/Minimize (`getComputedRxn`) and Model/Solver; soundness from the normal equations of the pseudo-inverse. Misplaced and unused phases are accepted: expected violation.
* **C117** The precursor set is built from entry compositions (not reduced) while steps use reduced ones: expected violation; holds for entries stored per formula unit.
* **C118** Table lookup by reduced formula, energies per formula unit: expected violation for multiples. Round trip through the dictionary as a pair of functions.
* **C119** Matrix as list of rows with the attribute access `all_comp` (no such attribute exists): expected violation; vector and its meaning proved.
* **C120** Job store as list of documents with a stable sort by completion time; then `fromRxns` of Model/RxnSet.
* **C121** State machine over environments, start failures and calls.
* **C122** Store of positions on entry objects, with object identity; histories of indexing and copying. Shared objects and polymorphs: expected violation.
* **C123** Sums over the reaction energies of C17/C19 and the solver's balance of C56. Expected violation: multiplicities are ignored.
* **C124** Joins C33 (scheduling), C35/C36 (grouping and filters) and the linear algebra of C05/C21 through the run of `enumerate`. Expected
  violation: systems of ten or more elements are skipped (C36).
* **C125** Weighted mean over ℚ, and order of the output of `solve` (Model/Solver). Expected violation: multiplicities depend on how a reaction
  is written, hence so does the mean.
* **C126** Codec round trip (Model/SetDict): sizes as integers or text, arrays or lists, three transports; composed with the storage theorem C20.
* **C127** Hull objects made from permuted or mirrored points (Model/Hull, HullInit): equality of every score, by reflecting the triple sum and the chain; the coordinate and the constructor are shown to mirror the points.
  Expected violations: `from_dict` changes its argument; sets drop the number of balancing errors.
* **C128** No new model: a written reaction is a list of entries with coefficients; a rewriting is a permutation of the pairs with a common factor. Every sum and dictionary of Model/Reaction is shown invariant, then the constructor of Model/HullInit.
* **C129** Model/SetOps: set objects as positions in a list, the methods of `GibbsEntrySet` and the operators of `collections.abc.MutableSet` on them, including one object on both sides. Refinement to a list of finite sets for every history; settings, change of temperature and saving separately. Entries have a lawful equality here (C89 says where they do not).
* **C130** No new model: two configurations of Model/Solver that differ in chunks, batches, CPUs and schedules. Each stage equals a canonical list up to order; success is characterised without reference to the schedule.
* **C131** Model/RxnTemp: the conversions of Model/RxnSet with entries that can fail, refined to the total ones; the entries of Model/EntryFlow satisfy the composition law that makes the reaction sets path independent.
* **C132** C132: specification `Sought` (subsets of the phases, exact balance in one way, settings) independent of pairs, systems and chunks; completeness from C124, soundness by rank-nullity from the number of constraints and the tolerance; order/schedule independence and growth follow from the equivalence.
* **C133** Model: composition of the enumeration, network and search models, nothing new. Proof: C132 and C69 composed; monotonicity from the specification of sought reactions; the failing case by an invariant (never both halves at hand) over all sequences of sought reactions.
* **C134** C134: open enumeration as candidate pairs of the model; soundness from the exact balance of each clean pair, completeness from C124, on the set of entries and open phases; corollaries for order, schedule, growth, direction, and the union with closed enumeration.
* **C135** facets of the convex hull specified as pairs of corners with a common supporting line; the sign filter is shown to keep exactly lower edges and vertical ones
* **C136** every mixture is written as a conformal sum of elementary kernel vectors (Lemmas/Conformal.lean), each of which is a reaction with at most as many products as elements and hence returned (C132); weighted sums of their hull points give the bound, convexity of mixtures gives attainment
* **C137** Portions of reactions with limited amounts as a small specification (`Spec/Carry.lean`, independent of the model). Existence: start every step a little in the order given by C54, then many small rounds along the straight line between two states with something of every phase used; complete conversion by the same argument backwards from the products. Necessity: the order in which the steps begin. Applied to what `solve` returns through the soundness lemma of C56/C71.
* **C138** models `filter_by_stability` and `get_e_above_hull` together with `pd_dict`/`expand_pd` (`Model/StabilityFilter`); specification of the hull as the lowest energy of mixtures (`Spec/Stability`). An entry above the hull can be replaced by a mixture of the others, so leaving out such entries one after the other does not change the lowest energies; decompositions only use entries of the same chemical system, so the smaller diagrams give the distances of the whole set; the lowest energy is attained (vertex argument), so the assumed phase diagrams exist.
* **C139** the open reactions of C134 and the closed ones of C132 between two phases, as points of the hull of C92, compared with all mixtures that exchange the element; elementary modes of the conservation of the other elements give the lower bound.
* **C140** Props/MinHull: relates two runs already modelled (Model/Enum, Model/Minimize) through the hull of Model/Hull. `Bend` (corner of the ground state energy of mixtures), `Kink` and `Lists` (pymatgen's promise about `InterfacialReactivity.get_kinks`) are stated on shares and energies per atom. Corners of the hull = bends (C136 plus a separation argument for planar point sets); a bend with a simplex of products makes the reaction elementary, so the balancing of the kink succeeds with the proportions of the enumerated reaction (C91, C11); the run theorem adds candidates, filters and schedules (C90).
* **C141** Props/Reference: entries related by `Rereferenced` (same phase, energy per formula unit moved by the amounts times the change of the references); the tables of lowest energies move by an amount per phase, the sums by the references times the net amounts. Expected violation: pure open phases keep their energy.
* **C142** Specification: a list of points is tougher than another when it has, at each coordinate of the other, a point with the same or a lower energy. Primary competition by the minimum over the other coordinates. Energy above the hull and stability by supporting lines. Maximum-energy variant: it is the largest depth of a corner below the chord from an end to the reaction, and the new hull lies below the old one.
* **C143** Specification: answers of a search on a freshly built network. Number of pathways: the loop of the search is a prefix computation, by induction over its iterations. Comparison of two searches: by the characterisation of the answer in C69.
* **C144** Specification: the points with energies times one factor. Corners of the lower hull correspond, the coordinates in a range correspond, and the altitude is homogeneous; the sums and minima over triples follow by induction over the loop. The recursive variant is treated in Props/HullUnitRec.lean by induction on the depth of the recursion.
* **C145** Sequences of reactions are carried out in portions from a mixture (specification of C137); the sum of the reported energies is a mixture energy of C136, so the hull bounds it; the two neighbouring hull corners give the at most two reactions. With an open element the reservoir is left out of the stock and C139 takes the place of C136.
* **C146** regions of chemical potential space as the specification; corners of facets through optima of linear objectives; for two elements the two chains of corners are monotone, so facing ends are closest; ternary witness with the full corner specification.
* **C147** The point shared by the two regions (C146) is used as a change of references of the elements (C141): it leaves the energies of conserving reactions unchanged, makes every entry's energy non-negative and those of the two reactants zero, so each term of the energy sum is non-negative.
* **C148** The distances of all interfaces are non-negative, so each is at most the sum or the maximum; the point of one domain closest to the other bounds how far each phase is from equilibrium at the other's potentials, which bounds every reaction between them (C147_bound).
* **C149** soundness by mixing the values at a domain point; completeness by Hahn-Banach separation of the phase from the mixtures of the others, giving chemical potentials that touch only this phase; Qhull is assumed to list every half-space that can be touched alone
* **C150** the comprehension as a loop over the mutable state of C45; the listed formulas without any condition, the answers by carrying the invariant that the entries are the original ones and the cache agrees with fresh answers
* **C151** visualize.py: np.unique as sorted deduplication, the lookup table as a dictionary, the palette as a parameter. Proved: closed form by the rank of the chemical system, same colour exactly for same system, KeyError elsewhere.
* **C152** Algebraic law on the model of the chemical potential diagram. Each half-space is moved by `movedRow`; a point is feasible, a corner (only optimum of an objective), or on a facet after the move exactly if it was before. With scipy's intersection assumed to list corners and facets exactly (`Precise`) the domains correspond point by point, and the reported distance scales. Example: the binary diagram of C93 in another unit, with other references and reversed phases.
* **C153** SolverGrow: candidates of the narrow run form a sublist of those of the wide run (first-wins collection commutes with appending and with filtering by classes), so their matrices, accepted solutions and rebuilt pathways occur again; the set keeps a representative, and the cost lookup finds the same candidate.
* **C154** Compose the exactness of the enumeration (C132) with the completeness of the solver (C57): each step of the plan is enumerated, its stored form is a positive multiple, and it survives collecting, duplicate removal and cleaning. Soundness from C71 and C56.
* **C155** The sought reactions of C132 (C134 with open phases) are carried along a change of energies in both directions; the exactness of both runs gives the same reactions, the uniqueness of the balance the same proportions, and C128 the same energy per atom.
* **C156** The potential enters only the last field of a stored set, so the laws about it are equalities of results including failures, with no hypothesis on the sets. The queries of a set are shown to be a filter on its reactions that depends on the entries only, which gives the law for merged sets. The laws about temperature follow from C27, C22 and C23 with the entries of the converted set worked out.
* **C157** The energy of an open reaction is split (by the formulas of C17 and C19) into a part without the potential and the potential times the bound amount; coordinates and reactants do not mention the potential. Every point of a hull at one potential is therefore followed to a point of the hull at another, on the same coordinate; concavity averages two supporting lines, the window follows from linearity, and C139 carries it to mixtures.
* **C158** The atoms on both sides of a conserving reaction add up to twice num_atoms, which bounds the sum of the coefficients times errors. Points of the two hulls correspond one to one, on the same coordinates; a supporting line of one, lowered by the error, supports the other. Scores follow from their formulas; for the maximum-energy score the depth of any point (not only a corner) bounds the result from one side.
* **C159** Stability under more data, errors, references: the specification is `Above` (distance from the lowest mixture), as in C138. Errors: the mixture that attains the hull for one energy assignment is tried for the other; it has as many atoms as the entry, which gives 2 delta. Competitors: the mixture contains at most one of the entry. References and units: the shift of every mixture is that of the entry. Parts: every mixture of a union is a mixture from each part, each replaceable by kept entries (C138_hull). Example sets and the tightness witness use the five entries of C138.
* **C160** Robustness of costs: softplus is shown to be 1-Lipschitz, strictly monotone and to change by at most log(t'/t) with temperature, from its formula over the reals; parameters are those of the specification `Value`. Pathways: the answers of two searches (C69) compared chain by chain. Solver: two inputs related reaction by reaction (`Recosted`), carried through candidate collection, duplicate filter, solutions and ranking; means with the same positive multiplicities differ by at most delta.
* **C161** two diagrams related by Harder (a phase of the same composition and no higher energy for each phase) are compared through the regions of C146 and the facets of C152; errors are carried by shifting points and by mixtures of C149.
* **C162** The correction of a compound splits into a part proportional to the temperature and a part proportional to the amounts of the elements; the latter cancels in conserving reactions (C141). Hulls by interpolation of the points. Entries of all kinds: compare with interpolated energies plus half of the bend per atom, which cancels (C141, C158).
* **C163** Softplus is increasing and amplifies nothing (C160); reaction energies by C158 and C162; pathways by C160.
* **C164** A mixture that is best in between is a mixture at both ends; energies at temperatures by C162, hulls by C138.
* **C165** Energies are linear in temperature (C162), so differences from the best competitor and from the hull are convex; supporting lines interpolate.
* **C166** Straight lines in the potential (C157) make the points of an interface at three potentials a blend; the laws of C165 for blends apply. Secondary competition only for maximum energies.
* **C167** Softplus is log(1+exp) of the weighted sum plus log 273 minus log T: convex in both together by the tangent inequality and concavity of log. Compounds by the straight lines of C162, pathways by the search answer of C69.

## Results

Status, note, theorems and axioms (P `propext`, C `Classical.choice`, Q `Quot.sound`); generated from `MANIFEST.json`. Theorem
names are relative to `Verif.Props`.

<!-- results:begin -->
* **C01 Decomposition path counts are the Catalan numbers** (proved). Table and recursive branch both equal the number of binary trees.
  - `Hull.C01_count_is_number_of_trees` [PCQ]
  - `Hull.C01_recursive_branch` [PCQ]
* **C02 Closed-form decomposition energy equals the sum over all decomposition trees** (proved). Any points, any altitude function; instantiated at the hull API. Exact rationals.
  - `Hull.C02_triple_loop_is_tree_sum` [PCQ]
  - `Hull.C02_altitude_is_vertical_distance` [PCQ]
  - `Hull.C02_any_range` [PCQ]
  - `Hull.C02_decomposition_energy` [PCQ]
  - `HullScore.C02_secondary_value` [PCQ]
* **C03 Secondary competition is non-negative on a convex hull** (proved). ConvexHull output is a hypothesis (GoodHull): filtered vertices form the lower hull and are separated by more than the isclose tolerance.
  - `Hull.C03_decomposition_nonpos` [PCQ]
  - `Hull.C03_secondary_competition_nonneg` [PCQ]
  - `Hull.C03_max_is_extremal` [PCQ]
  - `HullTol.C03_tolerance_violated` [PCQ]
* **C04 Degenerate intervals: a reaction at an end member has a well-defined path count** (partial). Refuted for normalize=False (count(-1) wraps around); proved for normalize=True.
  - `Hull.C04_degenerate_counterexample` [PCQ]
  - `Hull.C04_degenerate_normalized_partial` [PCQ]
* **C05 Lever rule for interface reactions** (proved). C05_lower_hull derives GoodHull, the hypothesis of the other two, from the specification of scipy's ConvexHull.
  - `Hull.C05_lever_rule` [PCQ]
  - `Hull.C05_vertex` [PCQ]
  - `HullConvex.C05_lower_hull` [PCQ]
* **C06 Primary competition compares against exactly the reactions at other coordinates** (proved). argsort modelled as a stable sort; coordinate equality exact.
  - `Hull.C06_primary_competition` [PCQ]
* **C07 Stable/unstable reactions partition the hull's reactions** (proved). Reactions identified by position. The last two need only the specification of scipy's ConvexHull and that no two different points are confused by isclose.
  - `Hull.C07_energy_above_hull` [PCQ]
  - `Hull.C07_partition` [PCQ]
  - `Hull.C07_disjoint` [PCQ]
  - `HullConvex.C07_stable_iff` [PCQ]
  - `HullConvex.C07_envelope` [PCQ]
  - `HullTol.C07_tolerance_violated` [PCQ]
* **C08 Interface coordinate is the mixing fraction of the second reactant** (partial). Coordinate in [0,1], ends and scale invariance for balanced reactions with distinct phases. Because of the rounding to 12 digits a coordinate of 0 only means a share of at most 5e-13 (C08_trace_violated); the end 1 follows by exchanging the reactants (C127_coordinate).
  - `Reaction.C08_coordinate_partial` [PCQ]
  - `Reaction.C08_scale_invariant` [PCQ]
  - `Reaction.C08_trace_violated` [PCQ]
* **C09 The balanced flag means conservation of every element** (proved). Iff for pairwise distinct compositions; the duplicate-composition case is shown to fail.
  - `Reaction.C09_balanced_iff_conserved` [PCQ]
  - `Reaction.C09_computed` [PCQ]
  - `Reaction.C09_duplicate_counterexample` [PCQ]
* **C10 Automatic balancing is sound** (proved). For an arbitrary linear-algebra backend; only the shape of its output is assumed.
  - `Balance.C10_sound` [PCQ]
  - `Balance.C10_sides` [PCQ]
  - `BalanceBest.C10_fewest_errors` [PCQ]
  - `BalanceBest.C10_computed` [PCQ]
* **C11 Automatic balancing is complete for uniquely balanceable reactions** (proved). Backend assumed to return a solution of every consistent constrained system and the true matrix rank (exact arithmetic).
  - `Balance.C11_complete` [PCQ]
  - `BalanceLinear.C11_complete_linear` [PCQ]
* **C12 A failed balancing attempt is recognisable** (partial). True for BasicReaction.balance; false for ComputedReaction.balance, where every failed attempt is flagged balanced (only the identity test or the error count reveals it).
  - `Balance.C12_basic_partial` [PCQ]
  - `Balance.C12_basic_exact_partial` [PCQ]
  - `Balance.C12_computed_counterexample` [PCQ]
  - `Balance.C12_computed_identity_partial` [PCQ]
  - `BalanceLinear.C12_basic_linear_partial` [PCQ]
* **C13 Reversal is an involution that swaps sides and negates energy** (proved). Energy per atom is negated when elements are exactly conserved (num_atoms counts one side).
  - `Reaction.C13_involution` [PCQ]
  - `Reaction.C13_swaps` [PCQ]
  - `Reaction.C13_computed` [PCQ]
  - `Reaction.C13_energy_per_atom` [PCQ]
  - `Reaction.C13_open` [PCQ]
* **C14 Normalization rescales by one positive factor** (partial). Proved for BasicReaction/ComputedReaction. The balanced flag can flip at the tolerance, and an open reaction loses its chemical potentials through the inherited normalize_to; both shown by counterexample.
  - `Reaction.C14_normalize_to_partial` [PCQ]
  - `Reaction.C14_computed_partial` [PCQ]
  - `Reaction.C14_normalize_to_element` [PCQ]
  - `Reaction.C14_element_amount` [PCQ]
  - `Reaction.C14_missing_phase` [PCQ]
  - `Reaction.C14_tolerance_counterexample` [PCQ]
  - `Reaction.C14_open_counterexample` [PCQ]
* **C15 Fractions are a probability distribution** (partial). Closed reactions and open reactants proved; open products are divided by the reactant atom count, shown by counterexample not to sum to 1.
  - `Reaction.C15_molar` [PCQ]
  - `Reaction.C15_unbalanced` [PCQ]
  - `Reaction.C15_atomic` [PCQ]
  - `Reaction.C15_open_reactants_partial` [PCQ]
  - `Reaction.C15_open_products_counterexample` [PCQ]
  - `Reaction.C15_proportional_counterexample` [PCQ]
* **C16 Reaction equality identifies only equal reactions and respects hashing** (partial). The statement is false of the code (four counterexamples); what remains true is proved.
  - `Reaction.C16_same_reaction_equal` [PCQ]
  - `Reaction.C16_equal_implies_phases_partial` [PCQ]
  - `Reaction.C16_integer_hash_partial` [PCQ]
  - `Reaction.C16_unique_stoichiometry_partial` [PCQ]
  - `Reaction.C16_different_reactions_counterexample` [PCQ]
  - `Reaction.C16_hash_counterexample` [PCQ]
  - `Reaction.C16_not_symmetric_counterexample` [PCQ]
  - `Reaction.C16_raises_counterexample` [PCQ]
  - `Reaction.C16_computed` [PCQ]
* **C17 Energy per atom is scale invariant** (proved). Also gives the closed formula for the energy.
  - `Reaction.C17_scale_invariant` [PCQ]
  - `Reaction.C17_scale_invariant_open` [PCQ]
  - `Reaction.C17_either_side` [PCQ]
  - `Reaction.C17_energy_formula` [PCQ]
  - `Reaction.C17_energy_distinct` [PCQ]
* **C18 is_separable means: target made, every other product soluble/gaseous by-product** (partial). Decision logic proved for targets that are products; KeyError instead of ValueError otherwise.
  - `Reaction.C18_decision_partial` [PCQ]
  - `Reaction.C18_keyError_counterexample` [PCQ]
  - `Reaction.C18_polymorph_counterexample` [PCQ]
* **C19 Open-element reaction energy is the grand-potential change** (proved). Exact grand-potential formula and slope.
  - `Reaction.C19_grand_potential` [PCQ]
  - `Reaction.C19_affine` [PCQ]
* **C20 ReactionSet storage is lossless** (proved). Storage round trip for every list of reactions, every set iteration order and every identifier function that separates the entries. The mixed closed/open case loses the potentials (counterexample).
  - `RxnSet.C20_lossless` [PCQ]
  - `RxnSet.C20_given_entries` [PCQ]
  - `RxnSet.C20_foreign_entry` [PQ]
  - `RxnSet.C20_chempots` [PCQ]
  - `RxnSet.C20_mixed_chempot_counterexample` [PQ]
* **C21 len() of a reaction set is the number of reactions it yields** (partial). Proved for every set reachable from from_rxns by merging, selecting and changing the chemical potential. Violated for a set constructed without all_data: it reports its length but yields nothing.
  - `RxnSet.C21_len_partial` [PCQ]
  - `RxnSet.C21_no_data_counterexample` [PQ]
* **C22 Merging reaction sets is multiset union** (partial). Multiset union, commutativity and associativity for sets at the same chemical potential; different entries are rejected. Sets at different potentials are merged silently (counterexample).
  - `RxnSet.C22_union_partial` [PCQ]
  - `RxnSet.C22_comm_partial` [PCQ]
  - `RxnSet.C22_assoc_partial` [PCQ]
  - `RxnSet.C22_rejects` [PQ]
  - `RxnSet.C22_chempot_counterexample` [PQ]
* **C23 Query by reactants is exact** (partial). Exact, in storage order, when every reaction consumes something and no coefficient lies in [0, 1e-12). A zero coefficient counts as a reactant (counterexample).
  - `RxnSet.C23_exact_partial` [PCQ]
  - `RxnSet.C23_zero_coefficient_counterexample` [PCQ]
* **C24 Query by product is exact** (partial). Exact when a single entry matches, it is not the first entry and no coefficient lies in (-1e-12, 0]. Violated for the first entry, for polymorphs and for zero coefficients.
  - `RxnSet.C24_exact_partial` [PCQ]
  - `RxnSet.C24_first_entry_counterexample` [PCQ]
  - `RxnSet.C24_polymorph_counterexample` [PCQ]
  - `RxnSet.C24_zero_coefficient_counterexample` [PCQ]
* **C25 Duplicate filtering keeps exactly one representative per reaction** (partial). Full statement for sets of reactions with non-zero coefficients whose ratios are separated by more than the comparison tolerance; counterexamples show near-multiples are kept twice and zero coefficients raise IndexError.
  - `RxnFilter.C25_filter_partial` [PCQ]
  - `RxnFilter.C25_idempotent_partial` [PCQ]
  - `RxnFilter.C25_reverse` [PCQ]
  - `RxnFilter.C25_tolerance_counterexample` [PCQ]
  - `RxnFilter.C25_zero_coefficient_counterexample` [PCQ]
* **C26 Parallel duplicate filtering does not depend on the schedule** (partial). Every schedule and chunking for two or more CPUs; with one CPU the code divides by zero (counterexample).
  - `RxnFilter.C26_rows_partial` [PCQ]
  - `RxnFilter.C26_parallel_partial` [PCQ]
  - `RxnFilter.C26_one_cpu_counterexample` [PCQ]
* **C27 Changing temperature keeps each reaction's phases** (partial). Proved when no two entries have the same composition. Polymorphs are confused (counterexample).
  - `RxnSet.C27_partial` [PCQ]
  - `RxnSet.C27_polymorph_counterexample` [PQ]
* **C28 Pareto front is exactly the set of non-dominated points** (proved). Exact rationals, no NaN.
  - `Pareto.C28_pareto_front` [PCQ]
  - `Pareto.C28_idempotent` [PCQ]
  - `ParetoLaws.C28_values` [PCQ]
  - `ParetoLaws.C28_covers` [PCQ]
  - `ParetoLaws.C28_weighted` [PCQ]
  - `ParetoLaws.C28_order` [PCQ]
  - `ParetoLaws.C28_merge` [PCQ]
* **C29 Pareto front with maximize=True maximizes every metric** (partial). Refuted: the first metric is not negated. Proved: minimizes the first metric and maximizes the rest.
  - `Pareto.C29_maximize_counterexample` [PCQ]
  - `Pareto.C29_maximize_partial` [PCQ]
* **C30 limited_powerset enumerates each non-empty bounded subset once** (proved). For re-iterable inputs; one-shot iterators only yield singletons (counterexample recorded).
  - `Utils.C30_mem` [PCQ]
  - `Utils.C30_once` [PCQ]
  - `Utils.C30_increasing_size` [PCQ]
  - `Utils.C30_one_shot_counterexample` [PQ]
* **C31 grouper loses and duplicates nothing** (proved). n = 0 drops everything (outside the quantifier n >= 1).
  - `Utils.C31_grouper` [PCQ]
  - `Utils.C31_drop_fill` [PCQ]
  - `Utils.C31_only_last_padded` [PCQ]
  - `Utils.C31_fuel_irrelevant` [PCQ]
  - `Utils.C31_zero_counterexample` [none]
* **C32 to_iterator yields every task result exactly once under any schedule** (proved). ray.wait is a parameter assumed to return one finished reference and the rest (num_returns=1).
  - `Utils.C32_all_results_once` [PCQ]
  - `Utils.C32_failure` [PCQ]
* **C33 Enumeration work distribution is lossless** (partial). Lossless, ordered, size-bounded, job limit, schedule independence proved. 'No more chunks than necessary' is refuted (one empty chunk can be created); number of chunks with work is exact.
  - `Enum.C33_lossless` [PQ]
  - `Enum.C33_sizes` [PQ]
  - `Enum.C33_count_partial` [PCQ]
  - `Enum.C33_extra_chunk_counterexample` [P]
  - `Enum.C33_job_limit` [PCQ]
  - `Enum.C33_open_total` [PQ]
  - `Enum.C33_schedule` [PCQ]
* **C34 Enumerated reactions satisfy the user's constraints** (proved). For all enumerators (reacting function is a parameter) the filter facts; for BasicEnumerator additionally conservation within 1e-8 and exact sides, for every backend.
  - `Enum.C34_admissible` [PCQ]
  - `EnumGroup.C34_basic` [PCQ]
* **C35 Chemical-system grouping loses no balanced reaction** (proved). Positive-coefficient balance; element lists are the supports of non-negative compositions.
  - `EnumGroup.C35_complete` [PCQ]
  - `EnumGroup.C35_open` [PCQ]
* **C36 User filters applied early never discard an admissible reaction** (partial). Lossless for reactions using exactly the two sides of a pair in systems of 2-9 elements; refuted for ten or more elements.
  - `EnumGroup.C36_pair_filter` [PCQ]
  - `EnumGroup.C36_system_filter` [PCQ]
  - `EnumGroup.C36_basic_partial` [PCQ]
  - `EnumGroup.C36_open_partial` [PCQ]
  - `EnumGroup.C36_found_partial` [PCQ]
  - `EnumGroup.C36_ten_elements_counterexample` [PCQ]
* **C37 Cached views of an entry set are always current** (partial). Every history without a half-failing update is proved; update with an iterable that raises midway leaves stale views (negation proved). Mutating the .entries attribute or a returned cached object directly is outside the model.
  - `EntrySet.C37_current_partial` [PCQ]
  - `EntrySet.C37_new` [P]
  - `EntrySet.C37_violated` [P]
* **C38 Minimum-energy lookup is minimal** (proved). Ground state returned or KeyError iff none, for every set and iteration order.
  - `EntrySet.C38_ground` [PCQ]
  - `EntrySet.C38_keyError` [PCQ]
* **C39 Stability filter** (proved). Phase diagrams enter as their entry lists and hull-distance functions (pymatgen, parameters).
  - `EntrySet.C39_filter` [PCQ]
  - `EntrySet.C39_order` [PCQ]
  - `EntrySet.C39_polymorphs` [PCQ]
* **C40 Chemical-system subset is exact** (proved). Exact subset, rejection of foreign elements, string form.
  - `EntrySet.C40_subset` [PCQ]
  - `EntrySet.C40_string` [PQ]
* **C41 Stabilizing an entry puts it on or below the hull** (partial). Energy is exactly hull minus tol (total, not per atom) and the entry is stable, when the stored or computed hull distance is current. False for out-of-date stored distances and for enumerators.utils.stabilize_entries, which adds the distance (negations proved).
  - `EntryTemp.C41_stabilized_partial` [PCQ]
  - `EntryTemp.stable_of_below` [PCQ]
  - `EntryTemp.C41_stale_violated` [PCQ]
  - `EntryTemp.C41_helper_violated` [PCQ]
  - `EntryTemp.C41_helper_once` [PCQ]
* **C42 Temperature changes are path independent** (partial). Path independence, replacement and the range check are proved for computed entries in full and path independence for experimental ones. Deprecated experimental compounds skip the range check, and experimental entries with a constant adjustment cannot change temperature at all (negations proved).
  - `EntryTemp.C42_path` [PCQ]
  - `EntryTemp.C42_own` [PCQ]
  - `EntryTemp.C42_round` [PCQ]
  - `EntryTemp.C42_single` [PCQ]
  - `EntryTemp.C42_range` [PCQ]
  - `EntryTemp.C42_fresh` [PCQ]
  - `EntryTemp.C42_set` [PQ]
  - `EntryTemp.C42_co2_stale` [PCQ]
  - `EntryTemp.C42_experimental_path` [PCQ]
  - `EntryTemp.C42_experimental_fresh` [PCQ]
  - `EntryTemp.C42_experimental_range_partial` [PCQ]
  - `EntryTemp.C42_experimental_adjusted_violated` [PCQ]
  - `EntryTemp.C42_deprecated_violated` [PCQ]
* **C43 Tabulated energies are interpolated between neighbouring points** (partial). Experimental tables: complete for every table with nodes at consecutive multiples of 100 K (the shape of all shipped data). Elemental potentials: a float temperature on the grid raises KeyError for every table (negation proved).
  - `EntryTable.C43_node` [PCQ]
  - `EntryTable.C43_linear` [PCQ]
  - `EntryTable.C43_total` [PCQ]
  - `EntryTable.C43_between` [PCQ]
  - `EntryTable.C43_lipschitz` [PCQ]
  - `EntryTable.C43_element_node_partial` [PCQ]
  - `EntryTable.C43_element_linear` [PCQ]
  - `EntryTable.C43_float_violated` [PCQ]
* **C44 Phase-diagram expansion covers all entries with no redundancy** (proved). Coverage, antichain and exact contents whenever the division succeeds; failures only come from a phase diagram construction. The collection must be traversable more than once.
  - `Thermo.C44_expand` [PCQ]
  - `Thermo.C44_error` [PCQ]
* **C45 Chemical-potential queries do not alter the diagram** (partial). Proved for all sequences of queries that succeed with a new stabilized entry or fail early; false for the other failure points and for entries returned unchanged by stabilization (negations proved).
  - `Thermo.C45_unchanged_partial` [PCQ]
  - `Thermo.C45_failure_violated` [P]
  - `Thermo.C45_exception_violated` [P]
  - `Thermo.C45_success_violated` [PQ]
  - `Thermo.C45_deletes` [PCQ]
* **C46 Domain distance is symmetric and minimal** (proved). Distance abstract (symmetric, linearly ordered values); nearest-neighbour query is a parameterised minimum (KDTree exact). For formulas, queries must be harmless in the sense of C45.
  - `Thermo.C46_minimal` [PCQ]
  - `Thermo.C46_symmetric` [PCQ]
  - `Thermo.C46_nonneg` [PCQ]
  - `Thermo.C46_empty` [P]
  - `Thermo.C46_formulas` [PCQ]
* **C47 Network construction represents every reaction exactly once** (proved). Exact multiset of nodes and edges of the built graph for every list of reactions.
  - `Network.C47_build` [PCQ]
  - `Network.C47_weight` [PCQ]
* **C48 Setting precursors is history independent** (partial). Violated: return edges of earlier precursors stay, can be doubled, and an empty precursors set leaves a second precursors node. Proved: exact graph after any history without empty sets; the first call is exact.
  - `Network.C48_history_partial` [PCQ]
  - `Network.C48_first` [PCQ]
  - `Network.C48_stale_violated` [PCQ]
  - `Network.C48_parallel_violated` [PCQ]
  - `Network.C48_empty_violated` [PCQ]
* **C49 Setting the target is history independent** (proved). Any history of set_target calls; also mixed with set_precursors calls.
  - `Network.C49_history` [PCQ]
  - `Network.C49_last` [PCQ]
  - `Network.C49_rejected` [PCQ]
  - `Network.C49_mixed` [PCQ]
* **C50 Network graph serialization round-trips** (partial). Round trip proved for graphs whose node payloads are distinct, which every network reached without empty precursors sets satisfies; violated for equal payloads (reachable with empty precursors sets).
  - `Network.C50_roundtrip_partial` [PCQ]
  - `Network.C50_network` [PCQ]
  - `Network.C50_equal_payloads_violated` [PCQ]
* **C51 k-shortest paths are genuine, distinct paths and the first is optimal** (proved). For every shortest-path routine meeting its specification (shown satisfiable by shortest_dijkstra).
  - `Yen.C51_paths` [PCQ]
* **C52 k-shortest paths are the k cheapest simple paths in order** (partial). Violated: results unsorted, with loops, incomplete with parallel edges, and incomplete even on acyclic graphs without parallel edges; also on networks reached through the public calls. Proved: on graphs whose edges all lead from one layer to the next the result is exactly right for every k; on every graph without parallel edges the second path is the cheapest alternative.
  - `Yen.C52_second_partial` [PCQ]
  - `Yen.C52_order_violated` [PCQ]
  - `Yen.C52_parallel_violated` [PCQ]
  - `YenLayered.C52_layered_partial` [PCQ]
  - `YenLayered.C52_acyclic_violated` [PCQ]
  - `Pathfinding.C52_pathways_violated` [PCQ]
  - `Pathfinding.C52_missed_violated` [PCQ]
* **C53 Pathway cost equals the cost of its graph path** (proved). For every path of every network reachable by any history of calls.
  - `Pathfinding.C53_extract` [PCQ]
* **C54 A pathway not flagged as interdependent can be carried out step by step** (proved). Unflagged pathways whose non-precursor reactants are produced by another reaction have an executable order; the premise follows from mass balance (C54_balanced) and cannot be dropped (counterexample). The always-true clause 'set not in set of compositions' is taken as true.
  - `Pathway.C54_executable` [PCQ]
  - `Pathway.C54_balanced` [PCQ]
  - `Pathway.interdependent_iff` [PCQ]
  - `Pathway.C54_unsupplied_counterexample` [PCQ]
* **C55 A sequentially executable pathway is never rejected as interdependent** (partial). The code violates the property: a phase with two producers makes an executable pathway be flagged. Proved when each non-precursor phase has one producer.
  - `Pathway.C55_unique_producer_partial` [PCQ]
  - `Pathway.C55_second_producer_violated` [PCQ]
* **C56 Balanced pathways really sum to the net reaction** (proved). End to end through solve, for any pseudo-inverse result and any schedule. The bound has an extra 1e-8 per unit of multiplicity because coefficients below 1e-8 are dropped when reactions are rebuilt. The final conversion into a PathwaySet is C59.
  - `Solver.C56_sum` [PCQ]
  - `Solver.solve_sound` [PCQ]
* **C57 No balanceable combination is missed** (partial). The code violates the property: it always fails with fewer candidates than max_num_combos and on a single CPU without batch size. Otherwise proved end to end, for a pseudo-inverse that returns unique exact solutions.
  - `Solver.C57_found_partial` [PCQ]
  - `Solver.C57_few_candidates_violated` [PCQ]
  - `Solver.C57_single_cpu_violated` [PCQ]
  - `Solver.exactPinv_spec` [PCQ]
* **C58 Pathway equality compares whole pathways** (partial). The code violates the property (zip stops at the shorter pathway; coefficients ignored; ValueError for different numbers of costs; equal pathways can have different hashes). Proved for equally long pathways. Sets of pathways are modelled with hash and equality (64-bit collisions excluded): they keep exactly one representative per pathway, which discharges the assumption PickSpec of the solver theorems.
  - `PathHash.C58_hash_partial` [PCQ]
  - `PathHash.C58_hash_violated` [PCQ]
  - `PathHash.C58_set` [PCQ]
  - `PathHash.C58_set_total` [PCQ]
  - `PathHash.C58_pick` [PCQ]
  - `Pathway.C58_same_length_partial` [PCQ]
  - `Pathway.C58_transitive_partial` [PCQ]
  - `Pathway.C58_prefix_violated` [PQ]
  - `Pathway.C58_balanced_violated` [PCQ]
  - `Pathway.C58_costs_partial` [PCQ]
* **C59 PathwaySet storage is lossless** (partial). Order, costs, coefficients and reactions (up to ==) are kept; the balanced flag is lost and reactions that compare equal are merged.
  - `Pathway.C59_round_partial` [PCQ]
  - `Pathway.C59_library_partial` [PCQ]
  - `Pathway.C59_balanced_violated` [PQ]
  - `Pathway.C59_merged_violated` [PQ]
* **C60 Pathway compositions are partitioned into reactants, intermediates, products** (proved). Set algebra of the base class.
  - `Pathway.C60_partition` [PCQ]
* **C61 Softplus costs are positive and monotone** (proved). Over the reals; in floating point the value underflows to 0 for very negative arguments and overflows for very large ones.
  - `Costs.C61_positive` [PCQ]
  - `Costs.C61_increasing` [PCQ]
  - `Costs.C61_decreasing` [PCQ]
  - `Costs.C61_temperature` [PCQ]
* **C62 Cost parameters are read from reaction data first, attributes second, else an error** (proved). Both cost functions; numeric values only.
  - `Costs.C62_weighted_sum` [PQ]
  - `Costs.C62_softplus` [PCQ]
  - `Costs.C62_never_partial` [PQ]
  - `Costs.lookup_spec` [PQ]
* **C63 Competition scores for single-precursor reactions** (proved). Equality of reactions is a key. A reaction whose data is None raises TypeError (C63_no_data).
  - `Jobs.C63_scores` [PCQ]
  - `Jobs.C63_order_independent` [PCQ]
  - `Jobs.C63_secondary_is_positive_part` [PCQ]
  - `Jobs.C63_decorated` [PCQ]
  - `Jobs.C63_no_data` [PCQ]
  - `Jobs.C63_tolerance_visible` [PCQ]
* **C64 Printed reactions can be parsed back** (partial). Round trip proved for coefficients with at most four significant digits, above the tolerance and below 10000. The claim is false for coefficients of 10000 and more (printed as 1e+04, read as 04), for unreduced compositions (coefficients are rescaled) and for one-sided reactions (ValueError).
  - `Parser.C64_round_trip_partial` [PCQ]
  - `Parser.C64_str_partial` [PCQ]
  - `Parser.C64_arrow` [PCQ]
  - `Parser.C64_empty_side` [PCQ]
  - `Parser.C64_large_violated` [PCQ]
  - `Parser.C64_unreduced` [PCQ]
  - `Parser.C64_no_reactants` [PCQ]
* **C65 Recursive and closed-form secondary competition agree** (partial). Refuted when a reactant decomposes (negative vertex at x=0); proved for hulls with flat ends at interior coordinates, all options; end points normalized by C04.
  - `Hull.C65_recursive_counterexample` [PCQ]
  - `Hull.C65_secondary_recursive_partial` [PCQ]
* **C66 filter_by_chemsys keeps what its documentation says** (partial). Returned reactions come from systems with all given elements; the documented 'at least one element' is refuted (the code requires a superset).
  - `EnumGroup.C66_filter_partial` [PCQ]
  - `EnumGroup.C66_superset_counterexample` [PCQ]
* **C67 Experimental data take precedence over computed entries** (partial). Proved for at most one experimental source; with both sources a formula known to NIST but not FREED gets NIST and computed entries (negation proved).
  - `EntryTable.C67_precedence_partial` [PCQ]
  - `EntryTable.C67_experimental` [PCQ]
  - `EntryTable.mem_fromPd` [PCQ]
  - `EntryTable.C67_violated` [P]
* **C68 Rebuilding a network starts afresh** (partial). Violated on every network with precursors.
  - `Network.C68_rebuild_same_violated` [PCQ]
  - `Network.C68_rebuild_other_violated` [PCQ]
* **C69 Pathways found in a network can be carried out, and the first is the cheapest** (partial). Proved for a network with one precursors set, end to end; the comparison with the cheapest chain needs equal costs for reactions between the same phases. Violated after precursors were changed and for parallel reactions of different cost.
  - `Pathfinding.C69_find` [PCQ]
  - `Pathfinding.C69_history_partial` [PCQ]
  - `Pathfinding.C69_stale_violated` [PCQ]
  - `Pathfinding.C69_parallel_violated` [PCQ]
* **C70 Absence of a balanced pathway is reported as an empty result** (partial). ValueError when no combination covers the phases of the net reaction; otherwise an empty result.
  - `Solver.C70_empty_partial` [PCQ]
  - `Solver.C70_no_cover_violated` [PCQ]
* **C71 Steps of a solved pathway are distinct candidates, never the net reaction itself** (proved). Steps agree with the candidates up to coefficients of at most 1e-8.
  - `Solver.C71_steps` [PCQ]
* **C72 Decorating a reaction adds one value and changes nothing else** (proved). deepcopy is modelled by pure functions.
  - `Costs.C72_decorate` [PQ]
  - `Costs.C72_sees` [PQ]
  - `Costs.C72_cost_uses_value` [PQ]
  - `Costs.C72_many` [PQ]
  - `Costs.C72_commute` [PQ]
* **C73 Chemical potential distance counts each interface once, in any order** (proved). Symmetry of the domain distance is a hypothesis, proved for the diagram model under C46.
  - `Costs.C73_interfaces` [PQ]
  - `Costs.C73_order_independent` [PCQ]
  - `Costs.C73_sum_nonneg` [PCQ]
  - `Costs.C73_signs` [PCQ]
* **C74 Competition scores do not depend on how reactions are split into chunks** (partial). Chunk independence proved in full. The rejection part is violated: with an open species, three precursors none of which is open are accepted and the third is ignored.
  - `Jobs.C74_chunk_independent` [PCQ]
  - `Jobs.C74_total` [PCQ]
  - `Jobs.C74_precursors_partial` [PCQ]
  - `Jobs.C74_third_precursor_violated` [PCQ]
* **C75 Chemical potential distances do not depend on chunking** (partial). Covering diagrams proved; independence of the chunk is violated because a cached diagram of a larger system is reused.
  - `Jobs.C75_covering` [PCQ]
  - `Jobs.C75_own_system_partial` [PCQ]
  - `Jobs.C75_chunking_violated` [PQ]
* **C76 Dropping unneeded reactions to save memory does not change competition** (partial). Exact characterisation; holds in closed systems, violated in open ones when no target reaction consumes the open species.
  - `Jobs.C76_competing_partial` [PQ]
  - `Jobs.C76_closed` [PQ]
  - `Jobs.C76_open_violated` [PCQ]
  - `Jobs.C76_decorated` [PCQ]
* **C77 Any aggregation function can be used for chemical potential distances** (partial). Violated: callables are accepted by the constructor but never stored, so every calculation fails with AttributeError.
  - `Costs.C77_names_partial` [PCQ]
  - `Costs.C77_callable_violated` [PCQ]
* **C78 Chunks fit in memory** (partial). Violated when memory is smaller than one copy of the reactions: ZeroDivisionError.
  - `Jobs.C78_fits_partial` [PCQ]
  - `Jobs.C78_small_memory_violated` [P]
* **C79 Requested formulas survive processing** (partial). Violated: requested experimental entries whose table ends below the requested temperature are dropped by the temperature change. Proved when the conversion of the requested entry succeeds or no change happens.
  - `EntryFlow.C79_included_partial` [PCQ]
  - `EntryFlow.C79_dropped_violated` [PCQ]
* **C80 Processed entries are at the requested temperature** (partial). Violated: interpolated entries keep the energy of the filtering temperature. Proved for all other entries.
  - `EntryFlow.C80_temperature_partial` [PCQ]
  - `EntryFlow.C80_interpolated_violated` [PCQ]
* **C81 Contents of a processed entry set** (proved). Exact contents against the filter specification of C39, for every setting; hull distances and phase diagrams are parameters.
  - `EntryFlow.C81_contents` [PCQ]
* **C82 Initializing an entry by formula** (proved). The hull energy is a parameter assumed to be at most the energy of every decomposition.
  - `EntryFlow.C82_known` [PCQ]
  - `EntryFlow.C82_interpolated` [PCQ]
  - `EntryFlow.C82_errors` [PCQ]
* **C83 Random shifts keep the entry set** (partial). Violated: entries of single elements are dropped. Proved for all other entries.
  - `EntrySets.C83_jitter_partial` [PCQ]
  - `EntrySets.C83_elements_violated` [PCQ]
* **C84 Building an entry set leaves its inputs alone** (partial). Violated: minimizing or storing hull distances writes to entry objects shared with other sets. Proved for entries outside the new set, for both options off, and for all items other than the hull distance without minimization.
  - `EntrySets.C84_frame_partial` [PQ]
  - `EntrySets.C84_shared_violated` [PCQ]
* **C85 Large systems are processed like small ones** (partial). Violated for the settings: with ten or more elements the hull and size options are not passed on. Entries and failures proved equal for every size.
  - `LargeSets.C85_entries_partial` [PCQ]
  - `LargeSets.C85_flags_violated` [PCQ]
  - `LargeSets.C85_flags_small` [PCQ]
  - `LargeSets.C85_formation` [PCQ]
* **C86 Enumerators work on all entries plus the requested ones** (proved). Any iteration order of the requested entries.
  - `EntrySets.C86_working_set` [PCQ]
  - `EntrySets.C86_replace` [PCQ]
* **C87 Running several enumerators collects all reactions** (partial). Violated: enumerators with different working sets make the run fail, and reactions found at another chemical potential lose it. Proved for equal working sets and potentials, with the tolerance hypothesis of C25.
  - `LargeSets.C87_run_partial` [PCQ]
  - `LargeSets.C87_sets_violated` [PQ]
  - `LargeSets.C87_chempot_violated` [PCQ]
* **C88 Database queries return the chemical system once** (partial). Violated for requests with a repeated element (ten or more symbols): a document is returned twice. Proved for all databases and requests without repetition, both strategies.
  - `EntryDb.C88_query_partial` [PCQ]
  - `EntryDb.C88_choice` [P]
  - `EntryDb.C88_string` [PCQ]
  - `EntryDb.C88_repeated_violated` [PCQ]
* **C89 Equal entries have equal hashes** (partial). Violated: comparison uses tolerances or reduced formulas while hashes use exact fields; equality is neither symmetric nor transitive. Proved: reflexivity, equal hashed fields imply equality, and the converse for exact fields.
  - `EntryDb.C89_fields_partial` [PCQ]
  - `EntryDb.C89_exper_partial` [P]
  - `EntryDb.C89_hash_violated` [PCQ]
  - `EntryDb.C89_equivalence_violated` [PCQ]
  - `EntryDb.C89_exper_violated` [PQ]
* **C90 A minimization run considers every phase and every pair of phases exactly once, each with its own phase diagram** (partial). Proved for every schedule: the run equals the candidates processed one at a time, each once, with the diagram of its own system; errors agree. Missing: systems of one element or of ten and more elements are skipped.
  - `Minimize.C90_run_partial` [PCQ]
  - `Minimize.C90_pds` [PCQ]
  - `Minimize.C90_entries` [PCQ]
  - `Minimize.C90_skipped_violated` [PCQ]
* **C91 Reactions predicted by minimization are made of the ground state entries of the predicted phases and of the phases asked for** (partial). Proved: ground state entries of the predicted phases, errors, stoichiometry, chemical potentials, open reactants. Violated: a metastable phase is replaced by its stable polymorph, so it is not a reactant of its own reaction.
  - `Minimize.C91_entries_partial` [PCQ]
  - `Minimize.C91_stoichiometry` [PCQ]
  - `Minimize.C91_pairs` [PCQ]
  - `Minimize.C91_grand` [PCQ]
  - `Minimize.C91_polymorph_violated` [PCQ]
  - `Minimize.C91_no_diagram` [PCQ]
* **C92 Each reaction of an interface hull sits at its own coordinates** (proved). For every sorting routine, tie breaking included. numpy's argsort and scipy's ConvexHull are parameters with their specification.
  - `HullInit.C92_aligned` [PCQ]
  - `HullInit.C92_raises` [PQ]
  - `HullInit.C92_lower_hull` [PCQ]
* **C93 Points of a chemical potential domain respect every phase** (partial). Proved for every half-space intersection that meets its specification: contents, points, tolerance for entries left out, no failure when all references exist. Violated: a missing elemental reference gives KeyError, the ValueError that names it is unreachable.
  - `Chempot.C93_points` [PCQ]
  - `Chempot.C93_contents` [PCQ]
  - `Chempot.C93_built` [PCQ]
  - `Chempot.C93_missing_violated` [PCQ]
* **C94 The offset of a phase is its Euclidean distance to the diagram's surface** (proved). Distance in Euclidean space of any dimension. The energy above hull itself is pymatgen's.
  - `Chempot.C94_distance` [PCQ]
  - `Chempot.C94_stable` [PCQ]
  - `Chempot.C94_e_above_hull` [PCQ]
  - `Chempot.C94_foreign` [PCQ]
* **C95 Gibbs energies are extensive** (partial). Proved for computed (Gibbs) entries. Experimental entries violate it: their energy is that of the reduced formula whatever multiple is requested (C95_experimental_violated).
  - `Gibbs.C95_reduced_mass` [PCQ]
  - `Gibbs.C95_average` [PCQ]
  - `Gibbs.C95_adjustment` [PCQ]
  - `Gibbs.C95_element` [PCQ]
  - `Gibbs.C95_energy_partial` [PCQ]
  - `Gibbs.C95_order` [PCQ]
  - `Gibbs.C95_experimental_violated` [PCQ]
  - `Gibbs.C95_formula` [PCQ]
* **C96 Energy uncertainty of a reaction** (proved). The uncertainties package is modelled by its behaviour on linear combinations of independent variables. A reaction without entries raises AttributeError (C96_empty).
  - `Uncertainty.C96_formula` [PCQ]
  - `Uncertainty.C96_scale` [PCQ]
  - `Uncertainty.C96_reverse` [PCQ]
  - `Uncertainty.C96_per_atom` [PCQ]
  - `Uncertainty.C96_zero` [PCQ]
  - `Uncertainty.C96_monotone` [PCQ]
  - `Uncertainty.C96_empty` [PCQ]
* **C97 Which entries get an experimental reference or a carbonate correction** (proved). For the tables shipped with the package (keys are reduced formulas, none deprecated, nodes at consecutive multiples of 100 K); the shape of the data files was checked by reading them.
  - `Gibbs.C97_class` [PCQ]
  - `Gibbs.C97_experimental` [PCQ]
  - `Gibbs.C97_co2_energy` [PCQ]
  - `Gibbs.C97_carbonate` [PCQ]
  - `Gibbs.C97_carbonate_exact` [PCQ]
  - `Gibbs.C97_carbonate_scale` [PCQ]
* **C98 Decomposition areas add up** (partial). Proved for reactions strictly between the end members. Violated: a reaction at an end member (every hull contains two) raises QhullError instead of having an area. ConvexHull.volume is modelled as the area of the polygon through the points, which are in convex position.
  - `HullInit.C98_area` [PCQ]
  - `HullInit.C98_fan` [PCQ]
  - `HullInit.C98_violated` [PCQ]
* **C99 A copied reaction is independent of the original** (partial). Holds for from_computed_rxn, decorate and normalized basic reactions, and for copies made while the data is empty. Violated otherwise: a non-empty data dictionary is shared between a reaction and its copy, reverse, normalized or re-tempered version (C99_copy_violated), and balance changes and keeps the caller's dictionary (C99_balance_violated).
  - `Alias.C99_fresh` [PQ]
  - `Alias.C99_bare` [PQ]
  - `Alias.C99_copy_partial` [PQ]
  - `Alias.C99_copy_violated` [PQ]
  - `Alias.C99_balance_violated` [PQ]
* **C100 Identity reactions are recognised exactly** (partial). Never raises, exact meaning of the answer, zero energy: proved. Invariance under reversal and scaling fails near the tolerance (numpy.isclose is asymmetric and has an absolute part): negations proved; the _partial theorems give the cases where it holds.
  - `Identity.C100_total` [PCQ]
  - `Identity.C100_amounts` [PCQ]
  - `Identity.C100_energy` [PCQ]
  - `Identity.C100_scale_partial` [PCQ]
  - `Identity.C100_reverse_partial` [PCQ]
  - `Identity.C100_scale_violated` [PCQ]
  - `Identity.C100_reverse_violated` [PCQ]
* **C101 The reaction table has one aligned row per reaction** (partial). Alignment of rows and columns, order by cost and success are proved for all sets whose first reaction has no data key with a fixed column name. Violated: data keys missing from the first reaction are lost, keys named like a fixed column make the call fail, and the cached table object itself is handed out, so edits show up in later calls.
  - `Table.C101_rows` [PCQ]
  - `Table.C101_succeeds` [PCQ]
  - `Table.C101_costs` [PQ]
  - `Table.C101_cache_partial` [PQ]
  - `Table.C101_experimental` [PQ]
  - `Table.C101_lost_violated` [PCQ]
  - `Table.C101_clash_violated` [PCQ]
  - `Table.C101_cache_violated` [P]
  - `Table.C101_cells` [PCQ]
  - `Table.C101_flags` [PCQ]
* **C102 Recalculating at many temperatures equals recalculating one at a time** (proved). For all reaction sets and temperature lists. Whether each single recalculation is right is C27.
  - `RxnSetTemps.C102_each` [PQ]
  - `RxnSetTemps.C102_fails` [PQ]
  - `RxnSetTemps.C102_order` [PQ]
* **C103 Added elements are the elements outside the target, in canonical order** (partial). For ordinary reactions and for runs the added elements are exactly those outside the targets and the string is canonical for every set order. Open reactions are credited with the open element even if they do not contain it, and the system string of a task document follows the set order; both are proved with witnesses.
  - `Symbols.C103_canonical` [PCQ]
  - `Symbols.C103_reaction` [PCQ]
  - `Symbols.C103_open_partial` [PCQ]
  - `Symbols.C103_open_violated` [PCQ]
  - `Symbols.C103_document` [PCQ]
  - `Symbols.C103_order` [PCQ]
  - `Symbols.C103_metadata_partial` [PCQ]
  - `Symbols.C103_metadata_violated` [PCQ]
* **C104 Table helpers select and plot the right reactions** (partial). Holds for tables with rows, unique labels, precursors written as reduced formulas and no column named precursors (identical rows: the first is in the front). Violated otherwise: an unreduced spelling never matches, a table without rows raises KeyError, a column named precursors is lost, and rows sharing a label with a front row vanish from the plot.
  - `DfTools.C104_filter_partial` [PQ]
  - `DfTools.C104_filter_compose` [PQ]
  - `DfTools.C104_spelling_violated` [PCQ]
  - `DfTools.C104_empty_violated` [P]
  - `DfTools.C104_column_violated` [PQ]
  - `DfTools.C104_plot_partial` [PCQ]
  - `DfTools.C104_plot_plain` [PCQ]
  - `DfTools.C104_plot_violated` [PCQ]
* **C105 Intermediate reactions come from every enabled enumerator** (partial). Proved for every enumerator result over the same phase list; the grand potential enumerator's result is discarded by the code (C105_grand_ignored, C105_grand_violated) and enumerators listing the phases in another order raise ValueError (C105_order_error).
  - `Intermediates.C105_phases` [PQ]
  - `Intermediates.C105_intermediates_partial` [PCQ]
  - `Intermediates.C105_all_enabled` [P]
  - `Intermediates.C105_grand_ignored` [PCQ]
  - `Intermediates.C105_order_error` [PCQ]
  - `Intermediates.C105_failure` [PCQ]
  - `Intermediates.C105_grand_violated` [PCQ]
* **C106 Saving and loading a network restores it** (partial). For every history of calls interleaved with saving and loading: everything but the multiplicity of return edges is as if the network had never been saved, and a loaded network is searched like the network it shows. Violated: an unbuilt network cannot be saved; the second load from one dictionary loses graph, precursors and target; after JSON the precursors stay plain dictionaries and every search raises; setting the same precursors again after loading doubles return edges. Monty's encoding and decoding are assumptions (Model/NetDict).
  - `NetDict.C106_load_partial` [PCQ]
  - `NetDict.C106_history_partial` [PCQ]
  - `NetDict.C106_find` [PCQ]
  - `NetDict.C106_unbuilt_violated` [PCQ]
  - `NetDict.C106_second_load_violated` [PCQ]
  - `NetDict.C106_json_violated` [PCQ]
  - `NetDict.C106_reset_violated` [PCQ]
  - `NetDict.C106_empty_violated` [PCQ]
* **C107 Node entries of a network** (partial). Equality, hash, order independence, elements and round trip hold for all node entries with phases (entries are assumed to have a lawful equality; see C89 for where they do not). Violated: dim is the length of the system string (C107_dim_partial says exactly when it is right), dummy entries cannot be loaded, and two dummies are never equal.
  - `NetEntry.C107_order` [PCQ]
  - `NetEntry.C107_equal` [PCQ]
  - `NetEntry.C107_hash` [PCQ]
  - `NetEntry.C107_elements` [PCQ]
  - `NetEntry.C107_dim_partial` [PCQ]
  - `NetEntry.C107_roundtrip_partial` [PCQ]
  - `NetEntry.C107_unknown_role` [PCQ]
  - `NetEntry.C107_dim_violated` [PCQ]
  - `NetEntry.C107_dummy_violated` [PCQ]
  - `NetEntry.C107_dummies_violated` [PCQ]
* **C108 A pathway flow searches between the phases it is given** (partial). Jobs, conditions, references and settings of every flow proved; entries are fetched for exactly the given elements; the network and solver jobs do not depend on the precursors and targets given (C108_ignored, C108_default_violated), and potentials are ignored without the minimizing enumerators (C108_potentials_violated).
  - `Flow.C108_flow_partial` [PCQ]
  - `Flow.C108_configured_partial` [PCQ]
  - `Flow.C108_entries` [PCQ]
  - `Flow.C108_ignored` [PCQ]
  - `Flow.C108_default_violated` [PCQ]
  - `Flow.C108_potentials_violated` [PCQ]
  - `Flow.C108_unparsable` [PCQ]
* **C109 The synthesis job scores every reaction that makes the target** (partial). Proved for sets over the same entries with a unique target entry that is not stored first, clear coefficients and enough memory; a closed request keeps the potential of the first set (C109_closed_violated), reactions to the first stored phase are not found (C109_first_entry_violated), too little memory divides by zero (C109_memory_violated).
  - `SynthJob.C109_scored_partial` [PCQ]
  - `SynthJob.C109_none_partial` [PCQ]
  - `SynthJob.C109_mismatch` [PCQ]
  - `SynthJob.C109_no_sets` [PCQ]
  - `SynthJob.C109_closed_violated` [PCQ]
  - `SynthJob.C109_first_entry_violated` [PCQ]
  - `SynthJob.C109_memory_violated` [PCQ]
* **C110 The network job builds on all reactions of all sets** (partial). Proved for well-behaved inputs: network on representatives of all reactions at the requested potential, precursors and first target set, pathways for every target optimal among all reactions given; searches without precursors fail. Violated: a closed request on open reactions only keeps their potential (C110_closed_violated).
  - `NetJob.C110_network_partial` [PCQ]
  - `NetJob.C110_pathways_partial` [PCQ]
  - `NetJob.C110_no_precursors` [PCQ]
  - `NetJob.C110_unknown_precursor` [PCQ]
  - `NetJob.C110_closed_violated` [PCQ]
* **C111 Database searches find the same entries by every strategy** (partial). Successful searches give exactly the non-deprecated documents of the system, each once, with the properties asked for, for all sizes and positive chunk sizes; sorted searches and the job's two strategies proved. Violated: repeated elements, negative chunk sizes, premade entries ignore the properties, sorting and the job modify the caller's list, the job never uses it, GGA and GGA+U are preferred differently.
  - `MpDb.C111_system_partial` [PCQ]
  - `MpDb.C111_order` [PCQ]
  - `MpDb.C111_missing` [PCQ]
  - `MpDb.C111_property_list_partial` [PCQ]
  - `MpDb.C111_sorted` [PCQ]
  - `MpDb.C111_property_list_violated` [PCQ]
  - `MpDb.C111_premade_violated` [PCQ]
  - `MpDb.C111_chunk_violated` [PCQ]
  - `MpDb.C111_repeated_violated` [PCQ]
  - `MpDb.C111_choice_violated` [PCQ]
  - `MpDb.C111_maker` [PCQ]
  - `MpDb.C111_maker_element` [PCQ]
  - `MpDb.C111_maker_property_violated` [PCQ]
  - `MpDb.C111_maker_db` [PCQ]
* **C112 Search strings mean what the documentation says** (partial). Ids, chemical systems (with errors), formulas with wildcards and at most one group of alternatives, and alternatives by spaces proved for all tokens. Violated: two groups of alternatives, the empty string, ids are recognised by their start only.
  - `Criteria.C112_id` [PCQ]
  - `Criteria.C112_chemsys` [PCQ]
  - `Criteria.C112_chemsys_error` [PCQ]
  - `Criteria.C112_formula_partial` [PCQ]
  - `Criteria.C112_or_partial` [PCQ]
  - `Criteria.C112_empty_violated` [PCQ]
  - `Criteria.C112_prefix_violated` [PCQ]
  - `Criteria.C112_groups_violated` [PCQ]
* **C113 Saving and loading an entry keeps its thermodynamics** (partial). Saving and loading returns the entry with element keys written as symbols, whenever JSON can keep the data; a second round trip changes nothing; composition, volume, formation energy, temperature, adjustments and id survive whenever saving succeeds. Violated by the code: a failing as_dict leaves changed data on the entry, an element and its symbol are merged, numeric keys become strings. pymatgen's JSON conversions are parameters.
  - `GibbsDict.C113_roundtrip_partial` [PQ]
  - `GibbsDict.C113_stable_partial` [PQ]
  - `GibbsDict.C113_thermodynamics` [PQ]
  - `GibbsDict.C113_failure` [P]
  - `GibbsDict.C113_failure_violated` [PCQ]
  - `GibbsDict.C113_merged_violated` [PCQ]
  - `GibbsDict.C113_keys_violated` [PCQ]
* **C114 An energy cascade never lies below the ground state** (partial). One value per temperature; each is the phases' energy relative to the elements minus the ground state at the composition shown; for reduced formulas and elements of zero energy it is the energy above the ground state, never negative and zero exactly for ground states, for every lawful phase diagram; smoothing is a median of three and keeps growing amounts. Violated by the code: unreduced formulas, references that are not zero, compositions changed by smoothing, repeated temperatures. pymatgen's phase diagram is a parameter.
  - `Cascade.C114_series` [PCQ]
  - `Cascade.C114_value` [PCQ]
  - `Cascade.C114_above_ground_partial` [PCQ]
  - `Cascade.C114_smoothing` [PCQ]
  - `Cascade.C114_smoothing_monotone` [PCQ]
  - `Cascade.C114_formula_violated` [PCQ]
  - `Cascade.C114_reference_violated` [PCQ]
  - `Cascade.C114_smoothing_violated` [PCQ]
  - `Cascade.C114_repeated_violated` [PCQ]
* **C115 Setting a chemical potential keeps the reactions** (proved). For all sets built through the API.
  - `RxnSetChempot.C115_set_chempot` [PCQ]
  - `RxnSetChempot.C115_last` [PQ]
* **C116 The pathway solver job balances the requested net reaction** (partial). The check accepts exactly what can be balanced (up to 1e-8) for least-squares solutions; the net reaction and the pathways are proved when the net reaction is unique. Violated as stated: a precursor may end up as a product or unused.
  - `SolverJob.C116_guard` [PCQ]
  - `SolverJob.C116_net` [PCQ]
  - `SolverJob.C116_not_net` [PCQ]
  - `SolverJob.C116_pathways` [PCQ]
  - `SolverJob.C116_misplaced_violated` [PCQ]
* **C117 The interdependence filter knows the precursors** (partial). Holds for entries stored per reduced formula unit; violated otherwise (precursors compared by unreduced composition).
  - `SolverJob.C117_reduced_partial` [PCQ]
  - `SolverJob.C117_unrecognized` [PCQ]
  - `SolverJob.C117_cell_violated` [PCQ]
* **C118 Experimental entries are faithful to their tables** (partial). Loading keeps every value of a table whose keys are different numbers, tabulated energies are exact, and saving and loading returns the entry (pymatgen's JSON forms are parameters). Violated as stated: the energy is that of one reduced formula unit, so the energy per atom is wrong for compositions with several units; two spellings of one temperature lose a value.
  - `ExperData.C118_keys` [PQ]
  - `ExperData.C118_tabulated` [PCQ]
  - `ExperData.C118_roundtrip` [PCQ]
  - `ExperData.C118_per_atom_partial` [PCQ]
  - `ExperData.C118_per_atom_violated` [PCQ]
  - `ExperData.C118_identifier` [PCQ]
  - `ExperData.C118_name` [PCQ]
* **C119 Coefficient matrix and vector of a balanced pathway** (partial). Vectors and the balancing criterion hold for reactions with different phases, using the vectors as rows. Violated as stated: get_comp_matrix raises AttributeError for every pathway with a reaction and a phase; a phase occurring twice counts with its first coefficient only.
  - `PathMatrix.C119_vector` [PCQ]
  - `PathMatrix.C119_balance_partial` [PCQ]
  - `PathMatrix.C119_matrix_violated` [PQ]
  - `PathMatrix.C119_twice_violated` [PCQ]
* **C120 Reactions fetched from the job store are those of the newest matching run** (proved). For stores that keep the open element as text (jobflow's encoding is external; C120_encoded says what happens otherwise), for stored sets built by the class's operations, with identifiers that tell entries apart.
  - `JobStore.C120_newest` [PCQ]
  - `JobStore.C120_encoded` [PCQ]
* **C121 The cluster is started at most once** (partial). Holds for one process, whose calls are sequential. Missing: the documented variable ip_head in lower case is not read, and an empty or non-numeric PBS_NNODES makes the call fail (C121_names_violated).
  - `Cluster.C121_running` [none]
  - `Cluster.C121_history` [PCQ]
  - `Cluster.C121_start_partial` [P]
  - `Cluster.C121_names_violated` [none]
* **C122 Coefficient vectors refer to the entry list of the network** (partial). Holds for every history in which the network's objects are not indexed at other positions and no copy is made onto them, for deep copies, and for loading when compositions differ; supplies the well-indexedness hypothesis of C56 and C57. Violated in general: a second network sharing entries moves them (the solver then offers a wrong pathway), polymorphs can change places on loading, a phase listed twice loses a coefficient.
  - `Indices.C122_history_partial` [PCQ]
  - `Indices.C122_vector` [PCQ]
  - `Indices.C122_copies` [P]
  - `Indices.C122_solver` [PQ]
  - `Indices.C122_reload_partial` [PCQ]
  - `Indices.C122_two_networks_violated` [PQ]
  - `Indices.C122_wrong_pathway_violated` [PCQ]
  - `Indices.C122_polymorphs_violated` [PQ]
  - `Indices.C122_twice_violated` [PCQ]
  - `Indices.C122_unindexed` [PQ]
* **C123 Pathway energies obey Hess's law** (partial). The energies weighted with the multiplicities obey Hess's law, for closed and open reactions and for every output of the solver up to numpy's closeness; energy is that of the net reaction if every step happens once. energy itself ignores the multiplicities, and energy_per_atom adds quotients with different denominators: both proved to differ from the net reaction's.
  - `PathEnergy.C123_hess_partial` [PCQ]
  - `PathEnergy.C123_hess_open_partial` [PCQ]
  - `PathEnergy.C123_energy_partial` [PCQ]
  - `PathEnergy.C123_solver_partial` [PCQ]
  - `PathEnergy.C123_multiplicity_violated` [PCQ]
  - `PathEnergy.C123_per_atom_violated` [PCQ]
* **C124 A reaction enumeration finds every requested reaction, exactly once** (partial). Every uniquely balanceable admissible reaction is found exactly once with its coefficients, closed and with open phases on one side, and the enumeration terminates. Missing: systems of ten or more elements (C36_ten_elements_counterexample) and of a single element are skipped; reactions with open phases on both sides are never found (violated).
  - `EnumComplete.C124_runs` [PCQ]
  - `EnumComplete.C124_found_once_partial` [PCQ]
  - `EnumComplete.C124_open_found_once_partial` [PCQ]
  - `EnumComplete.C124_open_one_side` [PCQ]
  - `EnumComplete.C124_both_sides_violated` [PCQ]
* **C125 Balanced pathways are ranked by the mean cost of their steps** (partial). The weighted mean, its bounds and invariances, the order of the solver output and the costs of the steps are proved. Violated: the mean depends on how a step is written, so the ranking of the same pathways changes when a candidate is given with doubled coefficients.
  - `PathRank.C125_mean` [PCQ]
  - `PathRank.C125_error` [PCQ]
  - `PathRank.C125_between` [PCQ]
  - `PathRank.C125_scale` [PCQ]
  - `PathRank.C125_order` [PCQ]
  - `PathRank.C125_ranked` [PCQ]
  - `PathRank.C125_written_violated` [PCQ]
* **C126 Reaction sets and reactions survive being saved and loaded** (partial). Round trips of sets (every transport) and of single reactions are proved, given that entries and data survive their own encoding (C113 treats Gibbs entries). Violated: loading an open reaction changes the dictionary it is loaded from, and sets drop the number of balancing errors.
  - `SetDict.C126_constructed` [PQ]
  - `SetDict.C126_reload` [PCQ]
  - `SetDict.C126_reactions` [PCQ]
  - `SetDict.C126_single` [PQ]
  - `SetDict.C126_twice` [PQ]
  - `SetDict.C126_argument_violated` [PQ]
  - `SetDict.C126_errors` [P]
  - `SetDict.C126_errors_violated` [PCQ]
* **C127 Scores on an interface do not depend on the order of the reactions or of the two reactants** (partial). Primary competition: full. Order of the reactions: full, all variants, for coordinates not confused by the tolerance. Exchange of the reactants: all non-recursive variants under the same condition; the recursive variant and coordinates within the tolerance violate it (witnesses proved).
  - `HullMirror.C127_primary` [PCQ]
  - `HullMirror.C127_order` [PCQ]
  - `HullMirror.C127_exchange_partial` [PCQ]
  - `HullMirror.C127_coordinate` [PCQ]
  - `HullMirror.C127_constructed` [PCQ]
  - `HullMirror.C127_recursive_violated` [PCQ]
  - `HullMirror.C127_tolerance_violated` [PCQ]
* **C128 A reaction is what it is however it is written** (partial). Energies, energies per atom, fractions, places on an interface and hull points are proved invariant for reactions between different phases (the energy without that condition); flags, equality and hash under reordering. Violated: a phase listed twice, and factors that carry a reaction across the balance tolerance.
  - `Written.C128_energy` [PCQ]
  - `Written.C128_energy_per_atom` [PCQ]
  - `Written.C128_flag` [PCQ]
  - `Written.C128_fractions` [PCQ]
  - `Written.C128_coordinate` [PCQ]
  - `Written.C128_hull` [PCQ]
  - `Written.C128_twice_violated` [PCQ]
  - `Written.C128_tolerance_violated` [PCQ]
* **C129 Copies and combinations of entry sets are independent and keep their settings** (partial). Contents, independence, distances after a change of temperature and saving are proved for every history and set. Violated: copies and operators forget both settings, a change of temperature forgets the second.
  - `SetOps.C129_contents` [PCQ]
  - `SetOps.C129_independent` [PCQ]
  - `SetOps.C129_settings_partial` [PQ]
  - `SetOps.C129_temperature` [PCQ]
  - `SetOps.C129_saved` [PQ]
  - `SetOps.C129_refreshed` [PQ]
  - `SetOps.C129_settings_violated` [PCQ]
  - `SetOps.C129_minimize_violated` [PCQ]
* **C130 Solved pathways do not depend on how the work is split and scheduled** (partial). Same pathways, costs and failures for every usable configuration (positive chunk size, and a batch size or a second CPU); for an arbitrary choice of representatives by Python's set, up to equality. Violated on one CPU without batch size.
  - `SolverChunks.C130_same_partial` [PCQ]
  - `SolverChunks.C130_fails_partial` [PCQ]
  - `SolverChunks.C130_represented_partial` [PCQ]
  - `SolverChunks.C130_one_cpu_violated` [PCQ]
* **C131 Reactions and reaction sets at a new temperature** (partial). proved for sets without two entries of one composition (C27 has the polymorph violation): success iff every entry of the set converts, the reactions are the originals converted one by one, path independence, lists of temperatures. Violated and proved: open reactions need the second argument, an unused entry blocks the whole set, a detour can succeed where the direct conversion fails, stored hull distances go stale.
  - `RxnTemp.C131_reaction` [PQ]
  - `RxnTemp.C131_reaction_fails` [PQ]
  - `RxnTemp.C131_open_violated` [none]
  - `RxnTemp.C131_table_partial` [PQ]
  - `RxnTemp.C131_set_partial` [PCQ]
  - `RxnTemp.C131_path_partial` [PCQ]
  - `RxnTemp.C131_temps` [PCQ]
  - `RxnTemp.C131_entries` [PCQ]
  - `RxnTemp.C131_hull_kept` [PCQ]
  - `RxnTemp.C131_unused_violated` [PCQ]
  - `RxnTemp.C131_path_violated` [PCQ]
  - `RxnTemp.C131_hull_violated` [PCQ]
* **C132 A BasicEnumerator returns exactly the sought reactions, so its result depends on the set of phases and settings only** (partial). Exactly the sought reactions, once each; same result for all orders, schedules and backends; growth; reversal. Partial: systems of ten or more elements are left out by the code (C132_ten_violated), and phases must be told apart by the balancing tolerance (Sharp).
  - `EnumExact.C132_sound_partial` [PCQ]
  - `EnumExact.C132_exact_partial` [PCQ]
  - `EnumExact.C132_once` [PCQ]
  - `EnumExact.C132_monotone` [PCQ]
  - `EnumExact.C132_same` [PCQ]
  - `EnumExact.C132_reverse` [PCQ]
  - `EnumExact.C132_ten_violated` [PCQ]
* **C133 From phases to pathways: enumerating, building a network and searching it finds a route exactly when one exists** (partial). Composition of C132 (enumeration) and C69 (search). Proved for routes in which each step uses precursors and products of the step before. The full claim, with any executable sequence of steps, fails: a target made from two separately made halves is not found (C133_convergent_violated).
  - `EndToEnd.C133_find_partial` [PCQ]
  - `EndToEnd.C133_runs` [PCQ]
  - `EndToEnd.C133_same` [PCQ]
  - `EndToEnd.C133_monotone` [PCQ]
  - `EndToEnd.C133_convergent_violated` [PCQ]
* **C134 An enumeration with open phases returns exactly the reactions that exchange open phases on one side** (partial). Exact for open phases on one side and fewer than ten elements. Open phases on both sides are never found (C124_both_sides_violated); filter_by_chemsys is met by open phases that do not take part (C134_filter_violated).
  - `EnumOpenExact.C134_sound_partial` [PCQ]
  - `EnumOpenExact.C134_exact_partial` [PCQ]
  - `EnumOpenExact.C134_once` [PCQ]
  - `EnumOpenExact.C134_monotone` [PCQ]
  - `EnumOpenExact.C134_same` [PCQ]
  - `EnumOpenExact.C134_reverse` [PCQ]
  - `EnumOpenExact.C134_together` [PCQ]
  - `EnumOpenExact.C134_filter_violated` [PCQ]
* **C135 The plot of an interface reaction hull shows every reaction at its place and the lower hull** (partial). Points, range and lines are proved for all inputs; the drawn lines are the lower hull and, as proved exactly, also a vertical line at an end that has a reaction of negative energy (C135_vertical_violated). The facets of scipy's ConvexHull are specified by HullEdges.
  - `HullPlot.C135_runs` [PCQ]
  - `HullPlot.C135_lines` [PCQ]
  - `HullPlot.C135_lower_partial` [PCQ]
  - `HullPlot.C135_hull_energy` [PCQ]
  - `HullPlot.C135_points` [PCQ]
  - `HullPlot.C135_visible` [PCQ]
  - `HullPlot.C135_vertical_violated` [PCQ]
* **C136 The hull of the enumerated reactions between two phases is the thermodynamic ground state of every mixture of them** (partial). Proved for every run with at least two phases per side and at least as many as A and B have elements (at most nine), one phase per pure element (which follows from distinct formulas, C136_one_each), phases told apart by the balancing tolerance, and no filters that exclude A, B or products: nothing lower is missed and the hull energy is reached, up to the rounding of coordinates to 12 digits, and exactly (IsLeast) where rounding changes nothing; whether anything reacts is exact in any case. With fewer phases per side the claim is false (C136_small_n_violated).
  - `GroundState.C136_between` [PCQ]
  - `GroundState.C136_builds` [PCQ]
  - `GroundState.C136_no_lower_partial` [PCQ]
  - `GroundState.C136_attained` [PCQ]
  - `GroundState.C136_ground_state` [PCQ]
  - `GroundState.C136_inert` [PCQ]
  - `GroundState.C136_one_each` [PCQ]
  - `GroundState.C136_small_n_violated` [PCQ]
* **C137 A solved pathway can be carried out with the amounts of its net reaction** (partial). Proved: with positive multiplicities that make at least what the net reaction says, an unflagged pathway can be carried out from the net reactants up to an arbitrarily small rest; exact criteria for this and for complete conversion; yield bound. Missing (violated by the code, witnesses proved): complete conversion, multiplicities accepted within tolerance, carry-out of unfiltered pathways, and pathways withheld although they can be carried out.
  - `Carry.C137_realisable_iff` [PCQ]
  - `Carry.C137_complete_iff` [PCQ]
  - `Carry.C137_carried_out_partial` [PCQ]
  - `Carry.C137_yield` [PCQ]
  - `Carry.C137_unfinished_violated` [PCQ]
  - `Carry.C137_unfiltered_violated` [PCQ]
  - `Carry.C137_rejected_violated` [PCQ]
  - `Carry.C137_tolerance_violated` [PCQ]
* **C138 Filtering by stability does not move the hull; filters compose and commute with subsystems** (proved). Phase diagrams (pymatgen) are a parameter assumed to report the exact distance from the hull of the entries given and to be constructible exactly if all elements have an elemental entry; such diagrams are proved to exist for every chemistry (diagrams_exist). Statements about filters without polymorphs assume that entries of one formula have different energies per atom (as in C39); C138_hull and C138_again do not.
  - `StabilityFilter.C138_hull` [PCQ]
  - `StabilityFilter.C138_distances` [PCQ]
  - `StabilityFilter.C138_members` [PCQ]
  - `StabilityFilter.C138_ground_states` [PCQ]
  - `StabilityFilter.C138_again` [PCQ]
  - `StabilityFilter.C138_twice` [PCQ]
  - `StabilityFilter.C138_subsystem` [PCQ]
  - `StabilityFilter.C138_succeeds` [PCQ]
  - `StabilityFilter.C138_succeeds_again` [PCQ]
  - `StabilityFilter.C138_reported` [PCQ]
  - `StabilityFilter.C138_negative` [PCQ]
* **C139 With an open element, the hull of the enumerated reactions is the grand-potential ground state of the interface** (partial). The lower bound, the attainment, the exact ground state and the test for inert interfaces are proved for one open element with a single entry of the pure element, at the potential of the reservoir counted from that entry's energy. With a nonzero energy of that entry the hull is not the ground state at the given potential itself (C139_reference_violated). The lower bound needs as many phases per side as A and B have elements.
  - `GroundStateOpen.C139_between` [PCQ]
  - `GroundStateOpen.C139_builds` [PCQ]
  - `GroundStateOpen.C139_no_lower_partial` [PCQ]
  - `GroundStateOpen.C139_attained` [PCQ]
  - `GroundStateOpen.C139_ground_state` [PCQ]
  - `GroundStateOpen.C139_inert` [PCQ]
  - `GroundStateOpen.C139_reference_violated` [PCQ]
* **C140 The minimization enumerator finds the same interface reactions as the exhaustive one** (partial). Missing: the corners are exact only if rounding the coordinate to 12 digits changes none of them (otherwise C140_sound_partial gives the coordinate to 1/(2*10^12)); the list of kinks is pymatgen's, assumed to consist of ground-state simplices at the corners and to miss none; one entry per reduced composition; only the pair's own candidate is compared.
  - `MinHull.C140_corners` [PCQ]
  - `MinHull.C140_sound_partial` [PCQ]
  - `MinHull.C140_pair_partial` [PCQ]
  - `MinHull.C140_run_partial` [PCQ]
* **C141 Reaction energies do not depend on the reference energies of the elements** (partial). Closed reactions and hulls as stated, with the exact formula and the tolerance bound. Missing: open reactions that name a pure open element as a phase; there the property is violated (C141_open_violated), C141_open gives the exact dependence.
  - `Reference.C141_energy` [PCQ]
  - `Reference.C141_conserving` [PCQ]
  - `Reference.C141_flagged` [PCQ]
  - `Reference.C141_hull` [PCQ]
  - `Reference.C141_open` [PCQ]
  - `Reference.C141_open_partial` [PCQ]
  - `Reference.C141_open_violated` [PCQ]
  - `Reference.C141_tolerance_violated` [PCQ]
* **C142 More competition never improves the competition scores of a reaction** (partial). Proved for the primary competition, the energy above the hull and stability. The default secondary competition, averaged or not, falls when a new competitor pushes others off the hull (C142_secondary_violated). The maximum-energy variant does not fall for a reaction that stays stable, when no reactant decomposes (C142_secondary_max_partial); for an unstable reaction it falls (C142_secondary_max_violated). Coordinates and energies of different hull points are assumed to differ by more than the isclose tolerance.
  - `HullGrow.C142_primary` [PCQ]
  - `HullGrow.C142_above_hull` [PCQ]
  - `HullGrow.C142_stable` [PCQ]
  - `HullGrow.C142_secondary_max_partial` [PCQ]
  - `HullGrow.C142_secondary_violated` [PCQ]
  - `HullGrow.C142_secondary_max_violated` [PCQ]
* **C143 A wider pathway search loses nothing** (partial). The number of pathways: proved for any network, history and routine. The comparison of costs is proved when reactions between the same phases cost the same; otherwise a further, more expensive reaction between the same phases makes the first pathway more expensive (C143_rivals_violated).
  - `Search.C143_more_pathways` [PCQ]
  - `Search.C143_monotone_partial` [PCQ]
  - `Search.C143_unit_partial` [PCQ]
  - `Search.C143_rivals_violated` [PCQ]
* **C144 Competition scores do not depend on the unit of energy** (partial). Primary competition without restriction; the other scores (also the recursive variant of the secondary competition) and stability as long as the tolerances of numpy.isclose confuse no two hull points and no decomposition energy of an end member with zero, in either unit. With a factor of 1e-9 the decomposition of a reactant counts as zero and the secondary competition changes (C144_tolerance_violated).
  - `HullUnit.C144_primary` [PCQ]
  - `HullUnit.C144_scores_partial` [PCQ]
  - `HullUnit.C144_tolerance_violated` [PCQ]
  - `HullUnitRec.C144_recursive_partial` [PCQ]
* **C145 No sequence of reactions at an interface lies below its hull** (partial). Proved for exactly balanced reactions of phases with distinct reduced formulas, in the setting of C136 (C139 with an open element): one phase per element at most, as many phases per side as A and B have elements, no restriction of precursors or targets. The mixture agrees up to the rounding of the coordinates to 12 digits (5e-13). Violated with fewer phases per side: with n = 2 the two reactions PQR -> PQ + R and PQ -> P + Q, both on the hull, release energy one after the other although the hull shows none for PQR.
  - `PathHull.C145_energy` [PCQ]
  - `PathHull.C145_never_below_partial` [PCQ]
  - `PathHull.C145_two_reactions` [PCQ]
  - `PathHull.C145_best` [PCQ]
  - `PathHull.C145_inert` [PCQ]
  - `PathHull.C145_small_n_violated` [PCQ]
  - `PathHullOpen.C145_open_energy` [PCQ]
  - `PathHullOpen.C145_open_never_below_partial` [PCQ]
  - `PathHullOpen.C145_open_two_reactions` [PCQ]
  - `PathHullOpen.C145_open_best` [PCQ]
  - `PathHullOpen.C145_open_inert` [PCQ]
* **C146 The reported chemical potential distance is the distance between the domains** (partial). Proved for any number of elements: attained by points of the domains, and zero exactly when the domains meet; exact (least distance) for two elements. With three elements it is false: only corners are compared, witness with compounds AC and ABC (C146_three_elements_violated). The half-space intersection is assumed to list the corners of each facet (Corners); phases with a metastable domain are not covered.
  - `DomainDistance.C146_attained_partial` [PCQ]
  - `DomainDistance.C146_neighbours` [PCQ]
  - `DomainDistance.C146_two_elements` [PCQ]
  - `DomainDistance.C146_three_elements_violated` [PCQ]
* **C147 Phases that touch in the chemical potential diagram do not react with each other** (proved). For any number of elements. Uses the C146 assumptions on the half-space intersection (vertices are exactly the corners). C147_common_point is for any number of reactants; C147_three_violated shows that three phases may touch pairwise and still react, so the two-reactant form cannot be extended. C147_bound is for reactions whose phases have different reduced formulas.
  - `Coexist.C147_no_reaction` [PCQ]
  - `Coexist.C147_apart` [PCQ]
  - `Coexist.C147_bound` [PCQ]
  - `Coexist.C147_stable` [PCQ]
  - `CoexistMany.C147_common_point` [PCQ]
  - `CoexistMany.C147_three_violated` [PCQ]
* **C148 The chemical potential distance of a reaction bounds what can still react at its interfaces** (partial). Proved for sum and max: half of the distance for phases with stable domains (C148_interfaces), the whole distance for all phases, with metastable domains and offsets (C148_any_phase, after any harmless use of the diagram). Violated for mean: averaging over the interfaces hides the reactive one (C148_mean_violated). Floats enter as a rounding function with error bound; scipy as in C146; the energy above hull of pymatgen enters as the amount by which the stabilized entry was lowered.
  - `Residual.C148_interfaces` [PCQ]
  - `Residual.C148_mean_violated` [PCQ]
  - `ResidualAny.C148_any_phase` [PCQ]
* **C149 The phases with a domain in the chemical potential diagram are the stable ones** (partial). Only stable phases: proved for all mixtures up to the formation energy tolerance. Every stable phase: proved (separating hyperplane) for limits that are low enough, elements with energy below 0 and compounds with a formation energy below the tolerance. Violated: the fixed default limits can cut off the whole domain of a stable phase; an element at energy 0 (formation energies) shares its half-space with the upper border, so whether it has a domain depends on which duplicate Qhull lists.
  - `StableDomains.C149_sound` [PCQ]
  - `StableDomains.C149_complete_partial` [PCQ]
  - `StableDomains.C149_limit_violated` [PCQ]
  - `StableDomains.C149_zero_reference_violated` [PCQ]
* **C150 The dictionary of metastable domains covers exactly the phases without a stable domain** (partial). The listed formulas: proved without conditions. The listed domains, unchanged entries, agreement with later queries: proved for histories of queries that do no harm (see C45). Violated when the query of one phase fails after its stabilized entry was added.
  - `MetaDomains.C150_keys` [PCQ]
  - `MetaDomains.C150_answers_partial` [PCQ]
  - `MetaDomains.C150_agrees_partial` [PCQ]
  - `MetaDomains.C150_poisoned_violated` [PQ]
* **C151 Network plots colour nodes by chemical system** (proved). The palette (matplotlib get_cmap) is a parameter with different entries per index; mpl_draw is not modelled.
  - `NetPlot.C151_colors` [PCQ]
  - `NetPlot.C151_same_color` [PCQ]
  - `NetPlot.C151_unknown` [PCQ]
* **C152 Chemical potential domains do not depend on reference energies, energy unit or order of the phases** (partial). The half-space intersection must list exactly the corners and, for a half-space, a point exactly if it bounds a facet (no two half-spaces coincide, e.g. an element at energy 0 with upper limit 0). Formation energies are at most the numerical tolerance or clearly above it in both units. Distances are those between phases with a domain; metastable phases are not covered. C152_limits_violated: with the fixed default limits the claim fails.
  - `DomainShift.C152_domains_partial` [PCQ]
  - `DomainShift.C152_stable_partial` [PCQ]
  - `DomainShift.C152_distance_partial` [PCQ]
  - `DomainShift.C152_limits_violated` [PCQ]
* **C153 A wider solver run loses no pathway and its best pathway is not more expensive** (partial). Two successful runs; schedules, chunk and batch sizes may differ. Assumes the duplicate filter keeps the earlier candidates as before, and for the costs that equality of reactions is an equivalence and the pseudo-inverse returns one number per row. C153_more_combos_violated: raising max_num_combos above the number of candidates makes the run fail, so success of the wider run is a hypothesis.
  - `SolverGrow.C153_kept_partial` [PCQ]
  - `SolverGrow.C153_costs_partial` [PCQ]
  - `SolverGrow.C153_best_partial` [PCQ]
  - `SolverGrow.C153_more_combos_violated` [PCQ]
* **C154 Enumerating and solving finds every plan** (partial). Partial: the limits of C132 (systems of ten or more elements, tolerance) and of C57 (fewer candidates than max_num_combos, one CPU without batch size, multiplicities below 1e-6). A plan of a single step is the net reaction itself and is removed (C71).
  - `SolverEnum.C154_found_partial` [PCQ]
  - `SolverEnum.C154_sound` [PCQ]
* **C155 Enumerate once, evaluate at any temperature** (partial). Proved for both the exhaustive enumerator and the one with open phases, in the setting of C132 and C134: distinct reduced formulas, phases told apart by the balancing tolerance. Missing: polymorphs (their conversion inside a set is confused, C27).
  - `EnumTemp.C155_same_partial` [PCQ]
  - `EnumTemp.C155_open_same_partial` [PCQ]
  - `EnumTemp.C155_energy_partial` [PCQ]
  - `EnumTemp.C155_open_energy_partial` [PCQ]
* **C156 Operations on a reaction set can be done in any order** (partial). Proved without conditions on the set: changing the potential commutes with merging, queries, duplicate removal and temperature. Proved: queries of merged sets at one potential; temperature and reactant query (phases of different composition, no tiny coefficients); temperature and merging when the converted sets have the same entries, which is exactly when the merge is accepted. Missing because the code violates it: merging converted sets that use different phases, and product queries on converted sets.
  - `SetAlgebra.C156_chempot_merge` [PQ]
  - `SetAlgebra.C156_merge_potential` [PCQ]
  - `SetAlgebra.C156_chempot_queries` [PCQ]
  - `SetAlgebra.C156_chempot_duplicates` [PCQ]
  - `SetAlgebra.C156_chempot_temperature` [PQ]
  - `SetAlgebra.C156_queries_merge` [PCQ]
  - `SetAlgebra.C156_temperature_merge_partial` [PCQ]
  - `SetAlgebra.C156_temperature_merge_accepted` [PCQ]
  - `SetAlgebra.C156_temperature_reactants_partial` [PCQ]
  - `SetAlgebra.C156_temperature_merge_violated` [PCQ]
  - `SetAlgebra.C156_temperature_product_violated` [PCQ]
* **C157 How an interface responds to the chemical potential of an open element** (proved). All parts proved for one open element. The statement about mixtures is in the setting of C139 (its assumptions on phases and enumeration); C157_hull_energy transfers concavity to the reported value under the separation conditions of C139_attained.
  - `OpenWindow.C157_reaction` [PCQ]
  - `OpenWindow.C157_crossover` [PCQ]
  - `OpenWindow.C157_builds` [PCQ]
  - `OpenWindow.C157_concave` [PCQ]
  - `OpenWindow.C157_window` [PCQ]
  - `OpenWindow.C157_monotone` [PCQ]
  - `OpenWindow.C157_hull_energy` [PCQ]
  - `OpenWindow.C157_stability_window` [PCQ]
* **C158 Errors of the phase energies are amplified at most by a fixed factor** (partial). Proved for closed reactions, hulls, primary competition and energy above the hull (the latter with hull corners told apart by numpy's tolerance). Secondary competition: proved for the maximum-energy variant of a reaction stable in both hulls when no reactant decomposes; the default one jumps when another reaction crosses the hull (C158_secondary_violated). Open reactions count only atoms that are not exchanged: C158_open has the exact bound, C158_open_violated a case off by 4d.
  - `EnergyError.C158_reaction` [PCQ]
  - `EnergyError.C158_open` [PCQ]
  - `EnergyError.C158_points` [PCQ]
  - `EnergyError.C158_envelope` [PCQ]
  - `EnergyError.C158_primary` [PCQ]
  - `EnergyError.C158_above_hull` [PCQ]
  - `EnergyError.C158_secondary_max_partial` [PCQ]
  - `EnergyError.C158_open_violated` [PCQ]
  - `EnergyError.C158_secondary_violated` [PCQ]
* **C159 Stability of entries under more data, wrong energies and other references** (proved). Distances and filters compared between sets and between energy assignments, over the stated assumptions on compositions and phase diagrams. The factor 2 is attained (C159_error_tight). The bound for the filter is stated with polymorphs included; without them it fails (C159_error_polymorph_violated), since a small error changes which polymorph is kept.
  - `StabilityError.C159_add` [PCQ]
  - `StabilityError.C159_add_filter` [PCQ]
  - `StabilityError.C159_error` [PCQ]
  - `StabilityError.C159_error_filter` [PCQ]
  - `StabilityError.C159_competitors` [PCQ]
  - `StabilityError.C159_reference` [PCQ]
  - `StabilityError.C159_reference_filter` [PCQ]
  - `StabilityError.C159_parts` [PCQ]
  - `StabilityError.C159_later` [PCQ]
  - `StabilityError.C159_later_succeeds` [PCQ]
  - `StabilityError.C159_error_tight` [PCQ]
  - `StabilityError.C159_error_polymorph_violated` [PCQ]
* **C160 Costs and the pathways chosen by them are robust against errors of the parameters** (partial). Costs, mean costs and the solver: proved as stated (the solver for two successful runs with a lawful duplicate filter, an equivalence of reactions and a pseudo-inverse returning one number per row). Network pathways: proved when reactions between the same phases cost the same in both assignments, since otherwise the pathway reported need not be the one searched (C69_parallel_violated, C143_rivals_violated).
  - `CostError.C160_weighted` [PCQ]
  - `CostError.C160_softplus` [PCQ]
  - `CostError.C160_order` [PCQ]
  - `CostError.C160_temperature` [PCQ]
  - `CostError.C160_size` [PCQ]
  - `CostError.C160_pathway_partial` [PCQ]
  - `CostError.C160_mean` [PCQ]
  - `CostError.C160_solver` [PCQ]
  - `CostError.C160_solver_best` [PCQ]
* **C161 Chemical potential domains and distances respond predictably to more phases and wrong energies** (partial). Proved: domains shrink, no phase gains a domain, touching domains touched before (any number of elements), distances never decrease with two elements, bounds for wrong energies. Violated with three or more elements: the reported distance compares corners only, and one more phase can reduce it (AC and B from the square root of 8 to that of 6). Stated for a half-space intersection that returns the corners of the region, and for low enough limits where a domain is claimed to exist.
  - `DomainGrow.C161_domain` [PCQ]
  - `DomainGrow.C161_stays` [PCQ]
  - `DomainGrow.C161_distance_partial` [PCQ]
  - `DomainGrow.C161_two_elements` [PCQ]
  - `DomainGrow.C161_neighbours` [PCQ]
  - `DomainGrow.C161_error` [PCQ]
  - `DomainGrow.C161_error_sound` [PCQ]
  - `DomainGrow.C161_error_complete_partial` [PCQ]
  - `DomainGrow.C161_three_elements_violated` [PCQ]
* **C162 Reaction energies between computed compounds are straight lines in temperature** (partial). Proved for reactions between different computed compounds. With elemental phases the line bends (C162_elements_violated): their entries carry no correction while the tabulated potentials are not linear; between neighbouring nodes of the table the bend has a known sign (C162_elements, for a concave logarithm). With entries of all kinds (computed, elemental, experimental, interpolated) the energy per atom between two temperatures of one interval of the tables is within one bound of the interpolation (C162_any), which is reached (C162_any_reached), and the hull of an interface at most that far below (C162_any_interface). Where a reaction lists several polymorphs of one composition the lowest counts, so the line bends too (C162_polymorphs_violated), in a known direction (C162_polymorphs).
  - `TempLine.C162_line` [PCQ]
  - `TempLine.C162_between` [PCQ]
  - `TempLine.C162_once` [PCQ]
  - `TempLine.C162_references` [PCQ]
  - `TempLine.C162_hull` [PCQ]
  - `TempLine.C162_points` [PCQ]
  - `TempLine.C162_elements` [PCQ]
  - `TempLine.C162_elements_violated` [PCQ]
  - `TempAny.C162_any` [PCQ]
  - `TempAny.C162_any_interface` [PCQ]
  - `TempAny.C162_any_reached` [PCQ]
  - `TempPoly.C162_polymorphs` [PCQ]
  - `TempPoly.C162_polymorphs_violated` [PCQ]
* **C163 Which reaction or pathway is cheaper follows the phase energies, up to their errors, and changes at most once with temperature** (partial). Reactions: proved as stated (data of the reaction empty, so energy_per_atom is the attribute). Pathways: proved when reactions between the same phases cost the same in both assignments, since otherwise the pathway reported need not be the one searched (C69_parallel_violated, C143_rivals_violated).
  - `CostChoice.C163_reads` [PCQ]
  - `CostChoice.C163_order` [PCQ]
  - `CostChoice.C163_error` [PCQ]
  - `CostChoice.C163_temperature` [PCQ]
  - `CostChoice.C163_pathway_partial` [PCQ]
* **C164 Stability between two temperatures is bounded by the stability at both** (proved). Proved for entry sets whose phase diagrams are the hulls of their entries (assumption on pymatgen) and element potentials on a line between the temperatures, as between neighbouring nodes of the tables; that stability at both ends does not imply stability inside is shown by a witness.
  - `StabilityTemp.C164_mix` [PCQ]
  - `StabilityTemp.C164_mix_filter` [PCQ]
  - `StabilityTemp.C164_temperature` [PCQ]
  - `StabilityTemp.C164_entries` [PCQ]
  - `StabilityTemp.C164_between_violated` [PCQ]
* **C165 A reaction that is selective at two temperatures is selective in between** (partial). Primary competition, energy above the hull (hull corners told apart by numpy's tolerance) and stability: proved. Secondary competition: proved for the maximum-energy variant of a reaction that is stable at both temperatures when no reactant decomposes; the default variant jumps when another reaction leaves the hull and can exceed the interpolation (C165_secondary_violated).
  - `ScoreTemp.C165_primary` [PCQ]
  - `ScoreTemp.C165_above_hull` [PCQ]
  - `ScoreTemp.C165_stable` [PCQ]
  - `ScoreTemp.C165_secondary_max_partial` [PCQ]
  - `ScoreTemp.C165_temperature` [PCQ]
  - `ScoreTemp.C165_secondary_violated` [PCQ]
* **C166 A reaction that is selective at two chemical potentials of an open element is selective in between** (proved). All parts proved for one open element. Energy above the hull and secondary competition: for reactions placed between 0 and 1 and hull corners told apart by numpy's tolerance. The default secondary competition jumps when another reaction leaves the hull (C165_secondary_violated) and is not claimed.
  - `OpenScore.C166_primary` [PCQ]
  - `OpenScore.C166_stable` [PCQ]
  - `OpenScore.C166_above_hull` [PCQ]
  - `OpenScore.C166_secondary_max` [PCQ]
* **C167 A reaction or pathway that is cheap at two conditions is cheap in between** (partial). Costs, average costs and computed compounds: proved as stated (reaction data empty for the default cost). Pathway search: proved when reactions between the same phases cost the same in between, since otherwise the pathway reported need not be the one searched (C69_parallel_violated, C143_rivals_violated). The claim is about a given pathway: the cheapest one in between can cost more than the cheapest at either condition (C167_best_violated).
  - `CostBetween.C167_weighted` [PCQ]
  - `CostBetween.C167_softplus` [PCQ]
  - `CostBetween.C167_temperature` [PCQ]
  - `CostBetween.C167_pathway_partial` [PCQ]
  - `CostBetween.C167_best_violated` [PCQ]
  - `CostBetween.C167_mean` [PCQ]
<!-- results:end -->
