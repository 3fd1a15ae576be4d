{"id": "C01", "title": "Sampled trace matches its occupancy", "statement": "Every sample recorded by Sampler.run/sample for a Metropolis, UniformlyRandom or Wang-Landau kernel holds features, enthalpy (and bias, if the kernel has one) equal to what a full evaluation of the recorded occupancy gives, although the sampler only adds up increments of accepted steps.", "quantifier": "all ensembles whose feature change equals the feature difference on the proposed steps, all initial occupancies, all accept/reject histories (any random numbers), any number of steps, any thinning, any number of walkers", "why_tests_cant": "The increments accumulate over arbitrarily long histories of accepted and rejected steps; a test sees a handful of short runs.", "anchors": ["smol/moca/sampler/sampler.py: Sampler.sample, Sampler.setup_sample", "smol/moca/kernel/base.py: StandardSingleStepMixin.single_step, MCKernel._compute_step_trace, MCKernel._do_accept_step, MCKernel.compute_initial_trace"]}
{"id": "C02", "title": "Cluster expansion feature change is the feature difference", "statement": "ClusterExpansionProcessor.compute_feature_vector_change(occu, flips) equals compute_feature_vector(occu after flips) minus compute_feature_vector(occu), for any list of flips including repeated sites, using only the per-site cluster lists.", "quantifier": "all orbit data, all cluster index arrays, all occupancies, all flip lists", "why_tests_cant": "Depends on combinatorial identity between per-site sums rescaled by a ratio and the full average, for arbitrary orbits/supercells; tests only compare on a few random occupancies of a few structures.", "anchors": ["smol/moca/processor/expansion.py: ClusterExpansionProcessor.compute_feature_vector, compute_feature_vector_change", "smol/utils/cluster/evaluator.pyx: correlations_from_occupancy, delta_correlations_from_occupancies"]}
{"id": "C03", "title": "Cluster decomposition feature change is the feature difference", "statement": "ClusterDecompositionProcessor.compute_feature_vector_change(occu, flips) equals the difference of compute_feature_vector after and before the flips, for any list of flips.", "quantifier": "all interaction tensors, cluster index arrays, occupancies, flip lists", "why_tests_cant": "Same as C02, separate Cython kernels.", "anchors": ["smol/moca/processor/expansion.py: ClusterDecompositionProcessor", "smol/utils/cluster/evaluator.pyx: interactions_from_occupancy, delta_interactions_from_occupancies"]}
{"id": "C04", "title": "Ewald energy change is the energy difference", "statement": "EwaldProcessor.compute_feature_vector_change(occu, flips) equals the Ewald energy of the flipped occupancy minus that of the original one, with vacancies contributing nothing, when the Ewald matrix is symmetric.", "quantifier": "all symmetric Ewald matrices, all index tables with distinct entries and -1 for vacancies, all occupancies, all flip lists", "why_tests_cant": "The single-flip kernel skips rows by position; an off-by-one only shows for particular index layouts.", "anchors": ["smol/moca/processor/ewald.py: EwaldProcessor.compute_feature_vector, compute_feature_vector_change", "smol/utils/cluster/ewald.pyx: delta_ewald_single_flip", "smol/cofe/extern/ewald.py: EwaldTerm.get_ewald_occu, value_from_occupancy"]}
{"id": "C05", "title": "Composite processor is the sum of its parts", "statement": "For a CompositeProcessor, compute_property is the sum of the parts' properties, compute_property_change the sum of the parts' property changes, and if every part's feature change is its feature difference then so is the composite's; the coefficients and features are concatenated in the same order.", "quantifier": "all lists of added processors, all occupancies, all flips", "why_tests_cant": "Concatenation order and coefficient order must agree for any number and kind of processors.", "anchors": ["smol/moca/processor/composite.py: CompositeProcessor", "smol/moca/processor/base.py: Processor.compute_property, compute_property_change"]}
{"id": "C06", "title": "Semigrand feature change is the feature difference", "statement": "Ensemble.compute_feature_vector_change(occu, step) equals compute_feature_vector after minus before, with or without chemical potentials, for every step whose sites are distinct; the last entry is the chemical work. For a step that lists a site twice the claim is false.", "quantifier": "all occupancies, all chemical potential tables, all steps with distinct sites", "why_tests_cant": "Needs a statement about every step; the violation for repeated sites appears only with a step no test builds.", "anchors": ["smol/moca/ensemble.py: Ensemble.compute_feature_vector, compute_feature_vector_change"]}
{"id": "C07", "title": "Metropolis acceptance probability", "statement": "The Metropolis kernel accepts a proposed step with probability min(1, exp(-beta*dE + log_priori + dBias)); it consumes a random number only when the exponent is negative.", "quantifier": "all exponents, all uniform draws in (0,1)", "why_tests_cant": "A probability statement over the whole unit interval.", "anchors": ["smol/moca/kernel/metropolis.py: Metropolis._accept_step"]}
{"id": "C08", "title": "Detailed balance for flips", "statement": "A Metropolis chain with the Flip usher satisfies detailed balance with respect to exp(-beta*H + bias) on the occupancies of the active sites, for any enthalpy function, any sublattice probabilities.", "quantifier": "all finite lists of disjoint sublattices, all sublattice probabilities, all pairs of occupancies", "why_tests_cant": "Correct sampling is a statement about transition probabilities between all pairs of states.", "anchors": ["smol/moca/kernel/mcusher.py: Flip.propose_step, MCUsher.get_random_sublattice", "smol/moca/kernel/metropolis.py: Metropolis._accept_step"]}
{"id": "C09", "title": "Detailed balance for swaps", "statement": "A Metropolis chain with the Swap usher satisfies detailed balance with respect to exp(-beta*H + bias) for any enthalpy function and sublattice probabilities, including occupancies for which some site has no swap partner.", "quantifier": "all finite lists of disjoint sublattices, all sublattice probabilities, all pairs of occupancies", "why_tests_cant": "Swap proposal probabilities depend on species counts; symmetry must hold for every pair of states.", "anchors": ["smol/moca/kernel/mcusher.py: Swap.propose_step"]}
{"id": "C10", "title": "Detailed balance for table flips", "statement": "A Metropolis chain with the TableFlip usher satisfies detailed balance: the a-priori factor returned by compute_log_priori_factor is exactly the log ratio of the reverse and forward proposal probabilities of the step.", "quantifier": "all flip tables with distinct nonzero rows up to sign, all occupancies, all steps the usher can propose", "why_tests_cant": "Ratio of products of binomials and table weights for arbitrary tables and occupancies.", "anchors": ["smol/moca/kernel/mcusher.py: TableFlip.propose_step, TableFlip.compute_log_priori_factor, TableFlip._get_flip_id", "smol/utils/math.py: flip_weights_mask, choose_section_from_partition"]}
{"id": "C11", "title": "Compound ushers and detailed balance", "statement": "MultiStep of Flip/Swap and Composite of symmetric ushers propose symmetrically, so Metropolis with them satisfies detailed balance; a MultiStep or Composite containing a TableFlip does not, because the a-priori factor of the inner usher is dropped.", "quantifier": "all occupancies, all weights; witness for the failure", "why_tests_cant": "Failure is only a bias of the sampled distribution, never an exception.", "anchors": ["smol/moca/kernel/mcusher.py: MultiStep, Composite, MCUsher.compute_log_priori_factor"]}
{"id": "C12", "title": "Proposed steps are legal", "statement": "Every step proposed by Flip, Swap, MultiStep, Composite and TableFlip changes only active sites, assigns codes of the sublattice owning the site, lists each site at most once; a Flip always changes the code, a Swap exchanges two different species or is empty.", "quantifier": "all random draws, all sublattices and occupancies whose codes lie in the encodings", "why_tests_cant": "Must hold for every random stream.", "anchors": ["smol/moca/kernel/mcusher.py: Flip, Swap, MultiStep, Composite, TableFlip"]}
{"id": "C13", "title": "Restricted sites are never changed by a run", "statement": "During any run with any usher and any kernel, occupancies of restricted sites and of inactive sublattices stay equal to their initial values, and every site keeps a code allowed by its sublattice.", "quantifier": "all runs: any number of steps, any accept/reject history, any restrictions", "why_tests_cant": "Invariant over unbounded histories.", "anchors": ["smol/moca/kernel/mcusher.py: MCUsher.active_sublattices, Flip, Swap", "smol/moca/sublattice.py: Sublattice.restrict_sites", "smol/moca/kernel/base.py: single_step"]}
{"id": "C14", "title": "Swap runs conserve composition", "statement": "In a run whose usher is Swap (or MultiStep/Composite of Swap) the number of sites holding each species code on each sublattice never changes.", "quantifier": "all runs of any length", "why_tests_cant": "Invariant over unbounded histories.", "anchors": ["smol/moca/kernel/mcusher.py: Swap.propose_step, MultiStep.propose_step"]}
{"id": "C15", "title": "Table-flip runs keep the composition constraints", "statement": "In a run with TableFlip whose table rows satisfy the homogeneous linear constraints (A u = 0), A n is constant along the run, and counts never become negative.", "quantifier": "all tables, constraint matrices, runs of any length, any random draws", "why_tests_cant": "Charge neutrality etc. must hold after arbitrarily many steps.", "anchors": ["smol/moca/kernel/mcusher.py: TableFlip.propose_step", "smol/moca/composition/space.py: CompositionSpace.flip_table"]}
{"id": "C16", "title": "Restricting, resetting and splitting sublattices", "statement": "After any sequence of restrict_sites and reset_restricted_sites, active sites are a subset of the sites, restricted = sites minus active, restricting is idempotent and order independent, and reset makes all sites active exactly when more than one species is allowed. split_by_species partitions sites and codes, keeps restricted sites restricted and yields parts whose encodings are exactly the codes listed. Splitting a sublattice whose sites are all restricted raises.", "quantifier": "all sublattices, all operation sequences, all partitions of the codes", "why_tests_cant": "Statement about arbitrary operation histories.", "anchors": ["smol/moca/sublattice.py: Sublattice.restrict_sites, reset_restricted_sites, split_by_species"]}
{"id": "C17", "title": "Chemical potentials and natural parameters stay in step", "statement": "After any sequence of setting, resetting and deleting chemical potentials, natural_parameters has one entry more than the processor's coefficients exactly when chemical potentials are set, that entry is -1, the energy coefficients are unchanged, and enthalpy = energy - sum of mu. The table prices every sublattice active at the time of setting, through later restrictions and resets; a sublattice wholly frozen at that time stays priced at zero after it is unfrozen.", "quantifier": "all sequences of set/delete operations, including failing ones", "why_tests_cant": "Descriptor with hidden state; depends on operation history.", "anchors": ["smol/moca/ensemble.py: ChemicalPotentialManager.__set__, __delete__, Ensemble.natural_parameters"]}
{"id": "C18", "title": "Species counts agree with occupancy and with steps", "statement": "occu_to_counts counts, per composition dimension, exactly the (active) sites holding the corresponding code; occu_to_species_list lists exactly these sites; counts after applying a step equal counts before plus delta_counts_from_step, for steps with repeated sites too.", "quantifier": "all sublattice lists, occupancies and steps with legal codes", "why_tests_cant": "Index arithmetic over arbitrary encodings.", "anchors": ["smol/moca/occu_utils.py: get_dim_ids_table, occu_to_counts, occu_to_species_list, delta_counts_from_step"]}
{"id": "C19", "title": "Bias changes are bias differences", "statement": "For FugacityBias, SquareChargeBias and SquareHyperplaneBias, compute_bias_change(occu, step) equals compute_bias after the step minus before, also when the step lists a site more than once.", "quantifier": "all fugacity tables, penalties, occupancies, steps", "why_tests_cant": "Two independently coded computations must agree everywhere.", "anchors": ["smol/moca/kernel/bias.py: MCBias.compute_bias_change, FugacityBias, SquareChargeBias, SquareHyperplaneBias"]}
{"id": "C20", "title": "Sample container returns what was saved", "statement": "After any sequence of allocate/save/vacuum/clear operations the container holds exactly the saved traces in order; with discard d and thinning t a getter returns the samples d+t-1, d+2t-1, ... and reports (n-d)//t of them; energies are the dot product of features and natural parameters.", "quantifier": "all operation sequences, discard <= number of samples, thin_by >= 1", "why_tests_cant": "Slice arithmetic and growth for all sizes and histories.", "anchors": ["smol/moca/sampler/container.py: SampleContainer.allocate, save_sampled_trace, vacuum, clear, get_trace_value, get_energies, num_samples"]}
{"id": "C21", "title": "Streaming to disk loses nothing", "statement": "A run that streams chunks to an HDF5 backend leaves in the file the same sequence of samples an in-memory run records. This holds when the number of samples is a multiple of the chunk; otherwise the samples after the last full chunk are lost.", "quantifier": "all numbers of samples, chunk sizes, repeated runs", "why_tests_cant": "Depends on the remainder of samples modulo chunk and on accumulated runs.", "anchors": ["smol/moca/sampler/sampler.py: Sampler.run", "smol/moca/sampler/container.py: flush_to_backend, get_backend, allocate, clear"]}
{"id": "C22", "title": "Splitting a run does not change the chain", "statement": "Running n samples and then m samples, continuing from the last one with the same random stream, records the same samples as running n+m samples at once.", "quantifier": "all n, m, thinning values, walkers, kernels whose auxiliary state survives between runs", "why_tests_cant": "Equivalence of two executions for all lengths.", "anchors": ["smol/moca/sampler/sampler.py: Sampler.run, sample, setup_sample"]}
{"id": "C23", "title": "Minimum energy sample", "statement": "get_minimum_energy and get_minimum_energy_occupancy (also for enthalpy) return the minimum over the selected samples and an occupancy attaining it. With flat=False and several walkers each walker must get its own occupancy; the code gives all walkers the index of the first.", "quantifier": "all sample contents, discard, thinning, any number of walkers", "why_tests_cant": "Fails only for particular data with more than one walker.", "anchors": ["smol/moca/sampler/container.py: get_minimum_energy, get_minimum_energy_occupancy, get_minimum_enthalpy_occupancy"]}
{"id": "C24", "title": "Wang-Landau stays inside its window", "statement": "A Wang-Landau kernel started at an energy inside [min_enthalpy, max_enthalpy) never accepts a step leaving it, so its bin index is always valid and its tracked energy equals the energy of its occupancy.", "quantifier": "all runs of any length, all windows and bin sizes", "why_tests_cant": "Invariant over unbounded histories.", "anchors": ["smol/moca/kernel/wanglandau.py: WangLandau._accept_step, _get_bin_id, _do_post_step, set_aux_state"]}
{"id": "C25", "title": "Wang-Landau bookkeeping", "statement": "Along any Wang-Landau run the histogram total equals the number of updates since the last flatness reset, entropies never decrease and vanish exactly on never-updated bins, the modification factor only changes when the histogram is flat over at least two visited bins and then by the update function, and the acceptance rule is exp(S(current)-S(new)+log_priori).", "quantifier": "all runs, all flatness values, update and check periods", "why_tests_cant": "Invariant over unbounded histories with periodic resets.", "anchors": ["smol/moca/kernel/wanglandau.py: WangLandau._do_post_step, _accept_step"]}
{"id": "C26", "title": "Wang-Landau mean features", "statement": "The mean features per bin reported by a Wang-Landau kernel equal the average of the features of all visits to that bin. True for update_period = 1; false otherwise because visits are counted only once per period but features are mixed in at every step.", "quantifier": "all runs", "why_tests_cant": "Long-run average over arbitrary visit sequences.", "anchors": ["smol/moca/kernel/wanglandau.py: WangLandau._do_post_step"]}
{"id": "C27", "title": "Multicell kernel features follow the current cell", "statement": "In a multicell run the recorded features, enthalpy and kernel index always belong to the recorded occupancy evaluated in the cell given by the kernel index, whatever the sequence of hops.", "quantifier": "all numbers of cells, all hop/step/accept sequences", "why_tests_cant": "Involves shared mutable arrays whose aliasing only matters for specific hop sequences.", "anchors": ["smol/moca/kernel/base.py: MulticellKernel.single_step, compute_initial_trace, set_aux_state"]}
{"id": "C28", "title": "Each cell remembers its own configuration", "statement": "Hopping back to a cell must resume from the configuration that cell had when it was last left. The code violates this: an accepted hop overwrites the array the previous cell remembers.", "quantifier": "all hop sequences; witness for the failure", "why_tests_cant": "Aliasing bug visible only after hop away and back.", "anchors": ["smol/moca/kernel/base.py: MulticellKernel.single_step"]}
{"id": "C29", "title": "A seed reproduces a run", "statement": "Two samplers built and run with the same seeds and arguments produce identical samples. Holds for Flip, Swap and user-assembled compound ushers; fails for TableFlip (its inner swap usher has its own unseeded generator) and for MultiStep/Composite built from usher names.", "quantifier": "all seeds, run lengths", "why_tests_cant": "Absence of hidden randomness is a statement about all executions.", "anchors": ["smol/moca/kernel/mcusher.py: MCUsher.__init__, TableFlip.__init__, MultiStep.__init__, Composite.__init__", "smol/moca/kernel/base.py: MCKernel.__init__"]}
{"id": "C30", "title": "Extended gcd", "statement": "gcdex(a, b) returns x, y, g with x*a + y*b = g and g the greatest common divisor up to sign.", "quantifier": "all integers a, b", "why_tests_cant": "All integers, signs included.", "anchors": ["smol/utils/math.py: gcdex"]}
{"id": "C31", "title": "Smith normal form", "statement": "compute_snf(a) returns m, s, t with m = s a t, s and t unimodular, m diagonal with each diagonal entry dividing the next.", "quantifier": "all integer matrices of any shape", "why_tests_cant": "Termination and correctness for every matrix.", "anchors": ["smol/utils/math.py: compute_snf"]}
{"id": "C32", "title": "Diophantine solver", "statement": "solve_diophantines(A, b) returns a base solution and a basis such that the integer solutions of A n = b are exactly base + integer combinations of the basis, or raises if there is none. Holds when A has full rank or loses one rank and the system is consistent; fails for inconsistent redundant systems and for two or more redundant equations.", "quantifier": "all integer matrices and right sides", "why_tests_cant": "Fails only for particular redundancy patterns.", "anchors": ["smol/utils/math.py: solve_diophantines"]}
{"id": "C33", "title": "Integer composition grids are complete", "statement": "get_natural_solutions / get_composition_grid enumerate exactly the natural-number solutions n0 + x.vs >= 0 (and A_leq n <= b_leq) on the requested step grid, without repetition.", "quantifier": "all base solutions, bases, steps for which the linear bounds are correct", "why_tests_cant": "Completeness over arbitrary dimension.", "anchors": ["smol/utils/math.py: get_one_dim_solutions, get_natural_solutions", "smol/moca/composition/space.py: CompositionSpace.get_composition_grid"]}
{"id": "C34", "title": "Grid cache is invisible", "statement": "The result of get_composition_grid(supercell_size, step) does not depend on which grids were computed before on the same object.", "quantifier": "all call histories", "why_tests_cant": "Depends on call history.", "anchors": ["smol/moca/composition/space.py: CompositionSpace.get_composition_grid"]}
{"id": "C35", "title": "Hermite normal forms are complete and unique", "statement": "yield_hermite_normal_forms(n) yields, for every integer 3x3 matrix of determinant n, exactly one matrix generating the same column lattice, and nothing else.", "quantifier": "all positive n, all integer matrices of that determinant", "why_tests_cant": "Infinitely many matrices.", "anchors": ["smol/utils/math.py: yield_hermite_normal_forms"]}
{"id": "C36", "title": "Supercell enumeration keeps one representative per symmetry class", "statement": "enumerate_supercell_matrices(size, symops) returns pairwise symmetry-inequivalent supercells and each supercell of that size is equivalent to one of them, when the rotations are a group of integer matrices.", "quantifier": "all sizes, all symmetry groups", "why_tests_cant": "All sizes and groups.", "anchors": ["smol/capp/generate/enumerate.py: enumerate_supercell_matrices"]}
{"id": "C37", "title": "Flip table mask selects exactly the feasible flips", "statement": "flip_weights_mask gives nonzero weight exactly to those directions (row u forward or -u) for which 0 <= n + direction <= max_n, preserving the given weights, and TableFlip picks a direction with probability proportional to it.", "quantifier": "all tables, counts, maxima and weights", "why_tests_cant": "Every boundary case.", "anchors": ["smol/utils/math.py: flip_weights_mask", "smol/moca/kernel/mcusher.py: TableFlip.propose_step"]}
{"id": "C38", "title": "Composition format conversions are inverse", "statement": "CompositionSpace.translate_format between counts, coordinates and compositions is a round trip for every composition in the space, and get_supercell_base_solution solves the scaled constraints exactly.", "quantifier": "all composition spaces, compositions, supercell sizes", "why_tests_cant": "All inputs.", "anchors": ["smol/moca/composition/space.py: translate_format, get_supercell_base_solution"]}
{"id": "C39", "title": "Constraint strings mean what they say", "statement": "A constraint given as a string is stored as the linear (in)equality it denotes over the species-count vector: right terms are subtracted from the left, intercepts moved right, >= negated into <=, species without sublattice index apply to every sublattice having them. The text may be spaced in any way on one line. A text with an unknown or absent species, without a relation symbol, with a line break inside, or with two numbers in front of a species is refused. Numbers within numpy.isclose of an integer are read as that integer.", "quantifier": "all strings of the documented format", "why_tests_cant": "Grammar with unbounded number of terms.", "anchors": ["smol/moca/composition/constraints.py: handle_side_string, convert_constraint_string, CompositionConstraintsManager.__set__"]}
{"id": "C40", "title": "Updating composition constraints takes effect", "statement": "Assigning new composition constraints to a CompositionSpace attribute replaces the old ones, and unknown relations are rejected. The code violates both: a second assignment is ignored and unknown relations are dropped silently.", "quantifier": "all assignment sequences; witness", "why_tests_cant": "Depends on the history of assignments.", "anchors": ["smol/moca/composition/constraints.py: CompositionConstraintsManager.__set__"]}
{"id": "C41", "title": "Occupancy encoding round trip", "statement": "decode_occupancy(encode_occupancy(species)) and encode(decode(codes)) are the identity for allowed species/codes; encode rejects a species not allowed on its site. The sublattices of a processor partition the sites when site spaces are determined by their species; otherwise a site can be claimed twice.", "quantifier": "all site spaces and occupancies", "why_tests_cant": "All occupancies.", "anchors": ["smol/moca/processor/base.py: Processor.encode_occupancy, decode_occupancy, get_sublattices"]}
{"id": "C42", "title": "Results do not depend on thread scheduling", "statement": "Correlation and interaction vectors computed with any number of threads equal the serial result whatever order and interleaving the orbits are processed in.", "quantifier": "all schedules, all thread counts", "why_tests_cant": "Schedules cannot be enumerated by tests.", "anchors": ["smol/utils/cluster/evaluator.pyx: correlations_from_occupancy, interactions_from_occupancy, delta_*", "smol/utils/cluster/numthreads.py: SetNumThreads"]}
{"id": "C43", "title": "Function ids stay consistent when orbits or functions are removed", "statement": "After any sequence of remove_orbits and remove_corr_functions the orbits have ids 1,2,..., their function id ranges are consecutive, disjoint and cover 1..num_corr_functions-1, and function_orbit_ids agrees; exactly the functions asked for are gone.", "quantifier": "all sequences of removals", "why_tests_cant": "Depends on operation history.", "anchors": ["smol/cofe/space/clusterspace.py: _assign_orbit_ids, remove_orbits, remove_corr_functions, function_orbit_ids", "smol/cofe/space/orbit.py: assign_ids, remove_bit_combos_by_inds"]}
{"id": "C44", "title": "Pruning keeps coefficients aligned with functions", "statement": "After ClusterExpansion.prune the remaining coefficients belong to the remaining functions one to one and predictions equal the old ones without the pruned terms. Holds when the constant term and external terms are above the threshold; otherwise the coefficient vector loses an entry the subspace keeps.", "quantifier": "all coefficient vectors, thresholds", "why_tests_cant": "Fails only when specific coefficients are small.", "anchors": ["smol/cofe/expansion.py: ClusterExpansion.prune", "smol/cofe/space/clusterspace.py: remove_corr_functions"]}
{"id": "C45", "title": "Function orderings of an orbit form a partition", "statement": "Orbit.bit_combos partitions all products of site-function indices into classes equivalent under the cluster permutations, when these permutations form a group.", "quantifier": "all orbits, all permutation groups", "why_tests_cant": "Arbitrary groups and sizes.", "anchors": ["smol/cofe/space/orbit.py: Orbit.bit_combos"]}
{"id": "C46", "title": "Flat tensors index the right value", "statement": "Looking up a flattened correlation tensor at the sum of code times stride returns the correlation function value at these codes, the index is always in range for allowed codes and different codes give different entries.", "quantifier": "all tensor shapes and codes", "why_tests_cant": "Unchecked C indexing: an error would be a silent out-of-bounds read.", "anchors": ["smol/cofe/space/orbit.py: flat_correlation_tensors, flat_tensor_indices", "smol/utils/cluster/evaluator.pyx"]}
{"id": "C47", "title": "Cluster decomposition gives the same energy as the cluster expansion", "statement": "For the same coefficients, the property computed by a ClusterDecompositionProcessor built from ClusterExpansion.cluster_interaction_tensors equals the one computed by a ClusterExpansionProcessor, for every occupancy.", "quantifier": "all expansions and occupancies", "why_tests_cant": "Algebraic identity over all inputs.", "anchors": ["smol/cofe/expansion.py: cluster_interaction_tensors, eci", "smol/moca/processor/expansion.py"]}
{"id": "C48", "title": "Hierarchies invert and close correctly", "statement": "invert_mapping returns exactly the reverse relation; get_complete_mapping returns the transitive closure for acyclic mappings; get_sub_orbits searches exactly the sizes between max(min_size, size-level) and size-1 (violated when level is None or not smaller than size: min_size is ignored).", "quantifier": "all mappings, levels, sizes", "why_tests_cant": "Graphs of unbounded size.", "anchors": ["smol/cofe/space/clusterspace.py: invert_mapping, get_complete_mapping, get_sub_orbits"]}
{"id": "C49", "title": "Aliased orbits are the classes of equal cluster sets", "statement": "get_aliased_orbits returns exactly the groups of two or more orbits whose clusters map to the same site sets in the supercell, each orbit in at most one group.", "quantifier": "all supercell mappings", "why_tests_cant": "Any number of orbits.", "anchors": ["smol/cofe/space/clusterspace.py: get_aliased_orbits"]}
{"id": "C50", "title": "Ground-state objective equals the energy", "statement": "For every assignment satisfying the constraints of the ground-state problem, each auxiliary variable equals the product it stands for and the linear objective equals the ensemble's energy (minus chemical work) of the decoded occupancy.", "quantifier": "all cluster terms, all feasible assignments", "why_tests_cant": "Exponentially many assignments.", "anchors": ["smol/capp/generate/groundstate/upper_bound/terms.py: get_expression_and_auxiliary_from_terms", "smol/capp/generate/groundstate/upper_bound/objectives.py"]}
{"id": "C51", "title": "Ground-state variables and occupancies correspond", "statement": "get_occupancy_from_variables and get_variable_values_from_occupancy are mutually inverse on normalized assignments/legal occupancies, restricted sites keep their initial species, and composition constraints on variables hold iff the decoded occupancy has these counts.", "quantifier": "all sublattices (restricted or split), all occupancies", "why_tests_cant": "All occupancies.", "anchors": ["smol/capp/generate/groundstate/upper_bound/variables.py", "smol/capp/generate/groundstate/upper_bound/indices.py", "smol/capp/generate/groundstate/upper_bound/constraints.py"]}
{"id": "C52", "title": "Ground-state results belong to the latest solve", "statement": "ground_state_occupancy and ground_state_structure always correspond to the current ground_state_solution. Violated: solving again does not clear the cached occupancy.", "quantifier": "all sequences of solve/reset/property reads; witness", "why_tests_cant": "Depends on call history.", "anchors": ["smol/capp/generate/groundstate/upper_bound/solver.py: PeriodicGroundStateSolver.solve, reset, ground_state_occupancy"]}
{"id": "C53", "title": "Random occupancies meet the requested composition", "statement": "generate_random_ordered_occupancy returns only allowed codes; with charge_neutral=True the result has zero charge; with a composition each species occupies exactly the requested number of sites. The last part fails for compositions that do not add up to one: left-over sites get code 0.", "quantifier": "all sublattices, compositions, random draws", "why_tests_cant": "All random streams.", "anchors": ["smol/capp/generate/random.py: _gen_neutral_occu, _gen_composition_ordered_occu, _composition_compatiblity"]}
{"id": "C54", "title": "The best SQS is kept", "statement": "After any sequence of StochasticSQSGenerator.generate calls that return, get_best_sqs returns first a configuration whose score is the minimum over everything visited since the last clear_previous=True call; the results are ranked by score, at most as many as asked for, and no two match each other. Violated: continuing with clear_previous=False raises IndexError once the queue outgrows max_save_num (and the best configuration may then be lost), continuing a new generator raises, and a structure found by two calls is returned twice despite remove_duplicates.", "quantifier": "all score sequences, queue sizes", "why_tests_cant": "Depends on the sequence of scores.", "anchors": ["smol/capp/generate/special/sqs.py: StochasticSQSGenerator.generate, get_best_sqs"]}
{"id": "C55", "title": "Duplicate filtering keeps exactly one structure per correlation vector", "statement": "unique_corr_vector_indices keeps exactly one structure per distinct correlation vector (rounded, in the columns considered), the first of those with extremal property, and the complement holds exactly the others; max_ewald_energy_indices keeps exactly the structures less than the threshold above all of their composition; the merging in get_matching_corr_duplicate_indices ends and yields the connected components of matching structures. Violated: that method passes decimals as the diameter cutoff, so it reports structures with different correlations, and rm_external_terms=False always raises.", "quantifier": "all data sets", "why_tests_cant": "All data.", "anchors": ["smol/cofe/wrangling/tools.py: unique_corr_vector_indices, max_ewald_energy_indices", "smol/cofe/wrangling/wrangler.py: get_duplicate_corr_indices, get_matching_corr_duplicate_indices"]}
{"id": "C56", "title": "Data index sets keep pointing at the same structures", "statement": "Index sets added with add_data_indices are in range, and refer to the same structures after any operations on the wrangler. Holds as long as nothing is removed; violated by remove_entry (every index from the removed one on points at the next structure) and remove_all_data, which do not update them.", "quantifier": "all sequences of add/remove operations; witness", "why_tests_cant": "Depends on operation history.", "anchors": ["smol/cofe/wrangling/wrangler.py: add_data_indices, remove_entry, remove_all_data"]}
{"id": "C57", "title": "Saving and loading preserves objects", "statement": "from_dict(as_dict(x)) behaves like x for sublattices, ensembles, sample containers (also to_hdf5/from_hdf5), cluster subspaces, cluster expansions and decomposition processors, exactly in the stated states. Violated for ensembles with sublattices frozen or released after setting chemical potentials (loading raises, or prices sites differently), for partially filled containers (unused memory is counted as samples), Potts subspaces with the last cluster removed (another decoration of every orbit is lost), pruned expansions with regression data (cannot be loaded or copied), and decomposition processors with custom coefficients (replaced by multiplicities).", "quantifier": "all object states reachable by API calls; witnesses for the violations", "why_tests_cant": "All reachable states.", "anchors": ["smol/moca/sublattice.py", "smol/moca/ensemble.py", "smol/moca/sampler/container.py", "smol/cofe/space/clusterspace.py: PottsSubspace.from_dict", "smol/cofe/expansion.py: from_dict"]}
{"id": "C58", "title": "Temperature and inverse temperature stay consistent", "statement": "After any sequence of temperature and kB assignments on a thermal kernel beta * kB * temperature = 1, setting T and reading it back returns T, and anneal visits the temperatures in the given order, ends at the last one and collects the samples of all of them.", "quantifier": "all assignment sequences and temperature lists", "why_tests_cant": "Depends on operation history.", "anchors": ["smol/moca/kernel/base.py: ThermalKernelMixin", "smol/moca/sampler/sampler.py: Sampler.anneal"]}
{"id": "C59", "title": "Supercell cache key is sound", "statement": "Two supercell matrices that share a cache entry in ClusterSubspace.get_orbit_indices (equal up to row order) produce the same lattice points in the same order, so cached cluster indices are valid for both.", "quantifier": "all integer matrices", "why_tests_cant": "All matrices and row orders.", "anchors": ["smol/cofe/space/clusterspace.py: get_orbit_indices, _gen_orbit_indices"]}
{"id": "C60", "title": "Structure selection by composition and by gaussian vectors", "statement": "composition_select returns exactly when at some pass more than num_samples different structures have been accepted; it never returns when num_samples is at least the number of structures (or of structures with positive probability, for positive draws); what it returns are num_samples distinct indices in increasing order, each accepted, none accepted later than one left out. gaussian_select returns num_samples distinct indices, each best aligned with its vector among the rows left; it raises exactly for one sample, one column, more samples than rows, or vectors that cannot be orthogonalised.", "quantifier": "all data, all random streams", "why_tests_cant": "Non-termination cannot be tested.", "anchors": ["smol/cofe/wrangling/select.py: composition_select, gaussian_select"]}
{"id": "C61", "title": "Structures and occupancies correspond", "statement": "occupancy_from_structure returns exactly the occupancy that the structure shows (the vacancy where the structure has no site), whatever the order of its sites, and raises exactly when a species or a missing site is not allowed; structure_from_occupancy followed by occupancy_from_structure is the identity on legal occupancies. After refine_structure this holds iff all vacancies are the default Vacancy().", "quantifier": "all site spaces, structures given by a site mapping, occupancies", "why_tests_cant": "Tests compare a few structures of one lattice; whether reading back works for every occupancy, site order and kind of vacancy needs a proof over all of them.", "anchors": ["smol/moca/processor/base.py: Processor.structure_from_occupancy, occupancy_from_structure", "smol/cofe/space/clusterspace.py: occupancy_from_structure, refine_structure"]}
{"id": "C62", "title": "Energies and weights by composition", "statement": "weights_energy_above_composition gives weights in (0, 1], equal to 1 exactly for the structures of lowest energy per site of their composition and decreasing with the energy within a composition.", "quantifier": "all data sets, all positive temperatures", "why_tests_cant": "All data.", "anchors": ["smol/cofe/wrangling/tools.py: weights_energy_above_composition, _energies_above_composition"]}
{"id": "C63", "title": "Property vectors have one value per structure", "statement": "After any operations on a StructureWrangler, get_property_vector of an available property gives the value of every structure in order (divided by its size when normalised). Holds when entries are added with a properties dictionary that can be compared; violated when an entry is added without properties to a wrangler that has some (or the other way round), and weights are not compared unless there are properties.", "quantifier": "all sequences of add/append/remove operations; witnesses", "why_tests_cant": "Depends on operation history.", "anchors": ["smol/cofe/wrangling/wrangler.py: process_entry, append_entries, add_properties, remove_properties, get_property_vector"]}
{"id": "C64", "title": "Full row rank selection selects independent structures", "statement": "The rows of the feature matrix selected by full_row_rank_select are linearly independent when the first structure has non-zero features and no entry of the triangular factor is within the tolerance of 0. The selection is not always maximal (zero pivots), and a first structure with zero features is selected when the data are rank deficient.", "quantifier": "all feature matrices and all factorisations of the transpose with injective first factor; witnesses for the failures", "why_tests_cant": "All matrices of all sizes; linear independence is a statement about all combinations.", "anchors": ["smol/cofe/wrangling/select.py: full_row_rank_select"]}
{"id": "C65", "title": "Site bases are bases, and rotations keep what they promise", "statement": "A StandardBasis of any flavour on any site space of two or more species spans all functions of the species, each in exactly one way; with one species it cannot be built. The sinusoid basis is orthogonal under equal concentrations (orthonormal only for two species). orthonormalize gives functions that are orthonormal with respect to the concentrations, keeps the constant function, and stores the matrix that takes the new functions to the old. rotate with two different functions under equal concentrations turns them in their plane, keeps every scalar product and adds up in the angle; with more than two species rotation_array is the product of all rotations made. Violated: rotation_array of a binary basis is wrong after an even positive number of rotations; the last function can be rotated with itself (as -1), which scales or removes it. rotate_site_basis rotates each basis object on the sublattice exactly once.", "quantifier": "all flavours, numbers of species, concentrations, QR factors, angles, indices and sequences of rotations; witnesses for the failures", "why_tests_cant": "Real angles and concentrations, any number of species, and independence is a statement about all combinations; tests use three-species bases.", "anchors": ["smol/cofe/space/basis.py: StandardBasis.__init__, is_orthogonal, orthonormalize, rotate, basis iterators", "smol/cofe/space/clusterspace.py: rotate_site_basis"]}
{"id": "C66", "title": "Correlation functions of an orbit are orthogonal, and rotation_array is their change of basis", "statement": "For an orbit whose sites carry orthonormal site bases (each site its own number of species) the correlation functions, one per class of symmetrically equivalent function choices, are mutually orthogonal when the species of the sites are drawn independently with the site concentrations; each has mean zero and its squared norm is one over the number of orderings in its class. After rotating the site bases by any sequences of rotations (with two species: an odd number, or none) the vector of correlation functions is Orbit.rotation_array times the vector before, for every occupancy of the cluster, and rotation_array scaled by the square roots of the class sizes is orthogonal. With two species and an even number of rotations, or with bases that are orthogonal but not normalized, rotation_array is wrong.", "quantifier": "every cluster size, every numbers of species, every group of site permutations that exchanges only sites with equal bases, all sequences of rotations with uniform concentrations, all occupancies of the cluster", "why_tests_cant": "Tests compare one rotated expansion with another on a few structures and never compare rotation_array with the correlations themselves; the even-rotation defect of binary bases cancels in such a comparison. Orthogonality is a sum over all occupancies of every cluster.", "anchors": ["smol/cofe/space/orbit.py:208-258", "smol/cofe/space/orbit.py:268-295", "smol/cofe/space/basis.py:252-332", "smol/cofe/space/clusterspace.py:471-479"]}
{"id": "C67", "title": "Distance processors measure the distance to the target", "statement": "For a correlation or cluster interaction distance processor, compute_property of any occupancy is minus the match weight times the largest orbit diameter up to which every feature is within match_tol of the target (0 if none), plus the weighted sum of the absolute differences to the target. compute_feature_vector_change for any list of flips, including repeated sites and sites in no cluster, equals the difference of compute_feature_vector after and before, so features recorded by a sampler are those of the recorded occupancies. An occupancy that matches the target exactly has the lowest score possible. A processor saved with as_dict and loaded with from_dict gives the same scores.", "quantifier": "for all cluster subspaces, diameters, targets, weights, tolerances, occupancies, flips and sampler runs", "why_tests_cant": "The change is computed by separate evaluator code for two occupancies; tests compare it for a few random flips, and the matched diameter depends on ties and order of diameters.", "anchors": ["smol/moca/processor/distance.py:38-453", "smol/utils/cluster/evaluator.pyx:319-440", "smol/cofe/space/clusterspace.py:367-381"]}
{"id": "C68", "title": "Optimised bases and ergodic flip tables keep the composition space", "statement": "The rows of CompositionSpace.basis with optimize_basis=True and of CompositionSpace.flip_table with table_ergodic=True keep every linear constraint that the unoptimised basis keeps; the optimised basis has as many rows as before, independent, and for every size at least as many rows changing no more sites; it generates exactly the same flips, so every composition is still enumerated. With table_ergodic=True every composition of the smallest supercell can be reached from every other by rows of the table, and asking for the table does not raise.", "quantifier": "for all integer bases, sets of compositions, numbers of optimisation loops and answers of the nearest neighbour search", "why_tests_cant": "Tests compare the optimised basis of a few spaces; whether a greedy choice of independent combinations generates the same lattice, and whether a neighbour for each composition means a connected graph, cannot be settled by examples that work.", "anchors": ["smol/utils/math.py:568-829", "smol/moca/composition/space.py:371-429"]}
{"id": "C69", "title": "An ensemble made from an expansion samples the energy the expansion predicts", "statement": "Ensemble.from_cluster_expansion with processor_type \"decomposition\" or \"expansion\" gives a processor whose compute_property of an occupancy, and the scalar product of natural_parameters with compute_feature_vector, equal ClusterExpansion.predict of the corresponding structure (its sites in any order), including the electrostatic term; predict with normalized=True is that number per prim cell. compute_property_change is the difference of two predictions. In a sampler run on such an ensemble, after any history of changes of chemical potentials, restrictions and splits, the enthalpy of every recorded row is the prediction for the recorded occupancy less the chemical work. Any other processor_type is refused.", "quantifier": "for all expansions with at most one external term, supercell sizes, occupancies, flips, histories, ushers, decisions, numbers of walkers and steps", "why_tests_cant": "Tests compare a few occupancies of a few expansions within a tolerance; that three separately written evaluations (structure, processor, accumulated trace) agree always follows only from an argument.", "anchors": ["smol/moca/ensemble.py:132-206", "smol/cofe/expansion.py:259-288", "smol/cofe/space/clusterspace.py:684-706"]}
{"id": "C70", "title": "Convergence analysis decides by its documented criteria", "statement": "check_property_converged answers True for a non-empty series exactly if its standard deviation is below min_std, or the last sample and the last last_m running means lie strictly within the tolerance (default: one standard deviation) of the mean; the answer does not change under shifts, nor under a change of unit or sign with the tolerances converted. determine_discard_number returns the first candidate of its grid whose remainder is converged and 0 if there is none; it raises exactly for increment 0 or if everything is discarded initially. Findings: fewer than ten samples require all running means; an even alternation between two values is never converged; the default min_std makes the answer depend on the unit; 0 does not tell success from failure; increment 1 tries nothing.", "quantifier": "for all series of numbers, tolerances, numbers of samples and increments", "why_tests_cant": "Tests try a few random series; boundary cases (slices with -0, strict comparisons, the end of the grid) and invariances need all series.", "anchors": ["smol/moca/analysis/convergence.py:10-155"]}
{"id": "C71", "title": "Orbits are symmetry classes of clusters", "statement": "For symmetry operations that form a group modulo lattice vectors and a cluster of distinct sites, Orbit.clusters does not raise; it lists clusters equivalent to the base cluster, and every cluster that an operation and a lattice vector map to the base cluster is a translate of exactly one of them. The multiplicity times the number of operations that keep the base cluster is the number of operations, and does not depend on the representative cluster or on the order of its sites. An orbit counts as already listed exactly if its clusters are equivalent to those of a listed one. cluster_permutations form a group, each coming from an operation that keeps the cluster, and relate sites with equally many functions.", "quantifier": "for all dimensions, lattices, groups of operations, clusters of any size in any order of sites, and lists of orbits", "why_tests_cant": "Tests count the orbits of a few crystals; that recentering by rounded centroid differences, one-sided subset tests and greedy listing give a partition into group orbits for every group and cluster is a theorem (orbit-stabiliser), not a finite check.", "anchors": ["smol/cofe/space/cluster.py:42-60", "smol/cofe/space/cluster.py:214-219", "smol/cofe/space/orbit.py:161-200", "smol/cofe/space/orbit.py:432-460", "smol/cofe/space/orbit.py:496-500"]}
{"id": "C72", "title": "A subspace made from cutoffs holds every cluster within the cutoffs once", "statement": "ClusterSubspace.from_cutoffs: every orbit of size n consists of n distinct sites of the crystal, with the function numbers of these sites, centroid in the cell and diameter at most the cutoff of its size; no two orbits of a size are equivalent; orbits of a size are listed by diameter. With cutoffs for consecutive sizes that do not grow with the size, every cluster of the crystal whose diameter is within the cutoff of its size belongs to exactly one orbit. Points are always included unless the entry for size 1 is None. (Completeness holds if the margin of the neighbour search covers the cell; the code's margin does not always: a tetrahedron is missed in a cubic crystal. A size without orbits of the size below raises KeyError. {1: 0} does not exclude points.)", "quantifier": "for all dimensions, lattices, groups of operations, crystals, cutoffs and numbers of sizes, and all orders in which neighbours are found", "why_tests_cant": "Tests compare numbers of orbits of a few crystals for a few cutoffs; completeness is about all clusters of an infinite crystal and all sizes, by induction with a geometric estimate, and fails for a common crystal that the tests do not contain.", "anchors": ["smol/cofe/space/clusterspace.py:1281-1350", "smol/cofe/space/clusterspace.py:1353-1394", "smol/cofe/space/clusterspace.py:1397-1477"]}
{"id": "C73", "title": "Sub-orbits and sub-functions are exactly the sub-clusters and factors up to symmetry", "statement": "Orbit.is_sub_orbit(other) is True exactly if other has fewer sites and some set of sites of the cluster is symmetry-equivalent to a cluster of other; the answer does not depend on representatives, is transitive and never holds for an orbit itself. Orbit.sub_orbit_mappings never raises its RuntimeError, returns a mapping exactly if the orbit is a sub-orbit, each returned mapping picks sites of the cluster that are in order the sites of the sub-orbit moved by a symmetry operation, and every other way in which the sub-orbit occurs is a returned one followed by a permutation of the cluster. ClusterSubspace.get_sub_function_ids returns exactly the functions of smaller orbits that are factors of the function: an operation moves the function-labelled sub-cluster into the function-labelled cluster.", "quantifier": "for all dimensions, crystals, symmetry groups, orbits, function classes and members chosen in them", "why_tests_cant": "Tests check that ids of sub-functions of a few subspaces divide the functions; that none is missed although the mappings are incomplete depends on the group structure of the permutations and holds for all crystals only by proof.", "anchors": ["smol/cofe/space/orbit.py:354-384", "smol/cofe/space/orbit.py:386-436", "smol/cofe/space/clusterspace.py:1101-1170"]}
{"id": "C74", "title": "Index arrays of a supercell list its clusters, and correlation vectors have the symmetry of the crystal", "statement": "For every supercell matrix, ClusterSubspace.get_orbit_indices finds every site: the sites of the supercell are the sites of the crystal each once (number of sites of the cell times |det|), and the rows of the array of an orbit are, with their sites in the order of the base cluster, images of the base cluster such that every cluster of the crystal equivalent to it is exactly one row up to lattice vectors of the supercell; there are multiplicity times |det| rows. Consequently the correlation vector that the cluster expansion processor computes for an occupancy is unchanged when the occupancy is moved by any lattice vector, or by any symmetry operation of the crystal that keeps the lattice of the supercell.", "quantifier": "for all crystals and symmetry groups, supercell matrices with non-zero determinant whose sites are farther apart than the tolerance, orbits, site functions, legal occupancies, operations and lattice vectors", "why_tests_cant": "Tests compare the indices and correlations of a few supercells; that no cluster is missed or doubled for skewed matrices and that the vectors are invariant under the whole group needs the bijection of clusters for all matrices and all symmetry groups.", "anchors": ["smol/cofe/space/clusterspace.py:1242-1278", "smol/cofe/space/orbit.py:161-180", "smol/moca/processor/expansion.py:162-180", "smol/utils/cluster/evaluator.pyx:121-168"]}
{"id": "C75", "title": "Functions of a Potts subspace are the concentrations of the decorations they report", "statement": "PottsSubspace.from_cutoffs: for every orbit get_orbit_decorations returns the classes of all species decorations of its cluster up to symmetry, every decoration once, and get_function_decoration(index) the class of that function; every index from 1 to the number of functions belongs to exactly one function, larger ones raise. The correlation of a function is the fraction of the clusters of its orbit decorated in one of the returned ways, divided by the number of these ways. The correlations of the functions of an orbit sum to 1. With remove_last_cluster=True the last class of each orbit is left out, its concentration is what is missing to 1. (The sum is 1 only when each correlation is weighted by its number of decorations: the documented plain sum is 1/2 for mixed pairs. With points only remove_last_cluster removes nothing. get_function_decoration(0) returns decorations of the last orbit although the constant has none.)", "quantifier": "for all species, clusters, permutation groups of the sites, numbers of orbits, supercells and legal occupancies", "why_tests_cant": "Tests check the number of functions and the decorations of one crystal; that the reported decorations are the ones the correlation counts, for all site permutation groups and occupancies, and the sum rule that the documentation claims, need the partition of decorations into classes for all groups.", "anchors": ["smol/cofe/space/clusterspace.py:1700-1722", "smol/cofe/space/clusterspace.py:1868-1905", "smol/cofe/space/clusterspace.py:1907-1964", "smol/cofe/space/basis.py:365-391", "smol/cofe/space/orbit.py:317-334"]}
{"id": "C76", "title": "Averages over sampled states converge to ensemble averages", "statement": "Sampler.run with a Metropolis kernel (UniformlyRandom is the case beta = 0): the Boltzmann ensemble over the states that can be reached from the initial occupancy is stationary, and the average of any property over n samples approaches its ensemble average, the mean square error being at most C/n for all n and all starts. With the Flip usher the states reached are all legal occupancies agreeing with the start on inactive sites, with Swap all of these with the composition of the start. If weights are not all equal the distribution after n steps approaches the ensemble geometrically. thin_by does not change which averages are obtained. (The last fails when all weights are equal: every flip is accepted, binary flips alternate between two halves of the states, and with even thin_by only one half is ever sampled.)", "quantifier": "for all sublattices, ushers built from flips, swaps, multi-steps of these and composites, table flips, enthalpies and biases with exact changes, temperatures, initial occupancies, properties and numbers of samples", "why_tests_cant": "Tests check that a short run yields states and that features agree; convergence is a statement on the distribution of infinitely many runs of unbounded length, and needs connectedness of the state space and a bound uniform in the number of samples.", "anchors": ["smol/moca/kernel/base.py:145-166", "smol/moca/kernel/metropolis.py:31-49", "smol/moca/kernel/random.py:28-36", "smol/moca/sampler/sampler.py:192-209", "smol/moca/kernel/mcusher.py:154-200"]}
{"id": "C77", "title": "Printed mean and spread, and effective cluster weights, are those of random occupancies", "statement": "ClusterExpansion with orthonormal site bases: over occupancies drawn with the concentrations of the bases, the entries of ClusterExpansionProcessor.compute_feature_vector (constant aside) have mean zero, are uncorrelated, and have variance size / function_total_multiplicities. The 'ECI-based Property' line of str(expansion) is the mean of the property per prim cell and the square root of its variance per prim cell: the property computed for a supercell has size times these as mean and variance. effective_cluster_weights[i] is the mean square of the cluster interaction of orbit i over random species of one cluster, and times the multiplicity of the orbit it is the variance per cell of the orbit's share, as the decomposition processor computes it; the shares add up to the printed variance. (Holds for supercells in which no two clusters are on the same sites. It fails on small supercells, where the spread is larger, and for bases that are not orthonormal, such as the default indicator basis, although the line is printed for them as well.)", "quantifier": "for all expansions (also pruned), numbers of species, concentrations, orthonormal bases, supercells without coinciding clusters, all coefficients", "why_tests_cant": "a statement about the mean over all occupancies of supercells of any size; tests evaluate single structures and check the weights against the formula they are computed with", "anchors": ["smol/cofe/expansion.py:231-249", "smol/cofe/expansion.py:414-421", "smol/cofe/space/clusterspace.py:421-450", "smol/moca/processor/expansion.py:162-180"]}
{"id": "C78", "title": "Composition statistics count what is on the sites", "statement": "SampleContainer, after any selection by discard and thin_by: get_sublattice_species_counts(sublattice) lists, for every selected sample and walker, how many sites of the sublattice hold each of its species, in the order of its species, also after the sublattice was split (codes that are not 0, 1, ...) and for species that do not occur. get_species_counts / get_compositions give for every species of any sublattice the number / fraction of all sites that hold it, and the fractions of one sample add up to one. mean_composition, composition_variance and their sublattice versions are mean and variance of these fractions: over all samples and walkers with flat=True, per walker with flat=False. (The last part fails: with flat=False mean_composition and composition_variance average over the walkers and return one value per sample; with a single selected occupancy get_species_counts raises if a sublattice has one species only, and mean_sublattice_composition returns the single number 1 / number of species.)", "quantifier": "for all sublattices (with any encodings), numbers of samples and walkers, all occupancies that are legal for the sublattices", "why_tests_cant": "tests compare the counts of a few random samples with one shape; the claim is about all shapes, splits and missing species, and the axis of flat=False is never compared with an independent value", "anchors": ["smol/moca/sampler/container.py:231-239", "smol/moca/sampler/container.py:278-301", "smol/moca/sampler/container.py:330-378", "smol/moca/sublattice.py:184-195"]}
{"id": "C79", "title": "Samples are the states after multiples of thin_by steps; efficiency is the fraction of accepted steps; orbit factors are the orbits' shares", "statement": "Sampler.run from given occupancies: sample t (from 0) holds for every walker the occupancy after exactly (t + 1) * thin_by steps of its own sequence of proposals, in which refused proposals leave the occupancy as it is; there are nsteps // thin_by samples. Sampler.efficiency / SampleContainer.sampling_efficiency(discard) is, per walker, the fraction of accepted steps among the recorded ones that are not discarded: all steps from number discard on if thin_by is 1, otherwise the last step of each interval; flat=True averages it over the walkers. SampleContainer.get_orbit_factors(ids) lists for each orbit the sum over its functions of natural parameter times feature, for each sample. (The last part holds only for a single selected occupancy: with more the call raises IndexError, or, if there are as many samples as functions, returns sums over samples.)", "quantifier": "for all kernels, proposals, acceptance decisions, numbers of steps and walkers, thinning and discarded numbers", "why_tests_cant": "tests compare efficiencies with the same sum and run few step counts; orbit factors have no test for several samples", "anchors": ["smol/moca/sampler/sampler.py:163-209", "smol/moca/sampler/sampler.py:155-157", "smol/moca/sampler/container.py:131-142", "smol/moca/sampler/container.py:265-276"]}
{"id": "C80", "title": "A composition space keeps the constraints it is given", "statement": "CompositionSpace(site_spaces, sublattice_sizes, charge_neutral, other_constraints): amounts per primitive cell satisfy the stored integer equations _A n = _b exactly if every sublattice is full, the total charge vanishes (if asked for) and every constraint given with 'eq', '==' or '=' holds; and the stored inequalities exactly if those given with 'leq', '<=', 'geq', '>=' hold. integerize_vector and integerize_multiple return the smallest multiple that makes all numbers integers, and exactly the multiples, also when the numbers carry errors less than 1/(2 max_denominator^2); min_supercell_size is therefore the smallest size that makes all vertices integers. rationalize_number raises exactly if no fraction with an allowed denominator is within the tolerance, and the constructor raises exactly for a wrong number of sizes or coefficients, such a coefficient, or as many independent equations as species. (Holds for integer oxidation states and coefficients with denominators up to 1000 only: fractional oxidation states are cut to integers, and 1/1001 is taken for 1/1000, both without an exception.)", "quantifier": "for all site spaces, sizes, oxidation states, constraints and amounts", "why_tests_cant": "tests build a few spaces with simple coefficients and integer charges", "anchors": ["smol/moca/composition/space.py:28-40", "smol/moca/composition/space.py:197-325", "smol/moca/composition/constraints.py:251-293", "smol/utils/math.py:61-143"]}
{"id": "C81", "title": "Saving and loading a composition space changes nothing", "statement": "CompositionSpace.from_dict(space.as_dict()) is a space with the same sublattices, options, equations, inequalities, and the same vertices, minimum supercell size, base solution, basis, flip table and composition grids if they had been computed; different grids never share a key.", "quantifier": "for all composition spaces the constructor makes and all cached results", "why_tests_cant": "a test compares one space saved at one moment", "anchors": ["smol/moca/composition/space.py:680-786", "smol/moca/composition/constraints.py:251-293"]}
{"id": "C82", "title": "The fixed point of Wang-Landau sampling is the density of states", "statement": "While the entropies of a WangLandau kernel are not updated, its steps (with Flip, Swap, MultiStep, Composite or TableFlip) are in detailed balance for the weights exp(-S(bin of the enthalpy)) on the legal occupancies inside the window, and the share of the samples in a bin converges to g(b) exp(-S(b)) over the sum of these, g(b) being the number of occupancies in bin b that can be reached. So the histogram becomes flat, each bin that can be reached getting the same share, exactly when S(b) = log g(b) + const; then dos is g(b) divided by the smallest g, listed in the order of levels. Which occupancies can be reached does not depend on the entropies. The entropies change only at steps divisible by update_period, and then only that of the current bin by mod_factor.", "quantifier": "for all ensembles with exact feature changes, windows, bin sizes, entropies, ushers, initial occupancies in the window and numbers of samples", "why_tests_cant": "Tests run short simulations and check that arrays have the right shapes or that the histogram is filled; that equal shares mean correct entropies is a statement about the limit of all runs and all energy functions.", "anchors": ["smol/moca/kernel/wanglandau.py: WangLandau._accept_step, _do_post_step, dos, levels, entropy"]}
{"id": "C83", "title": "Names select the classes they spell", "statement": "A kernel, step type or bias can be given by its class name or by its words, separated by hyphens or not, each with or without a capital, as long as every word after a word has a hyphen or a capital before it; mckernel_factory, mcusher_factory and mcbias_factory then return an instance of exactly this class, made with the arguments given, and raise NotImplementedError when no concrete class at any depth below the base has the name. Names may be normalised repeatedly. For biases the word bias may be left out. Every name listed by available_mckernels, available_step_types and available_bias_types selects its own class.", "quantifier": "for all strings, all trees of classes with different camel case names, all constructors", "why_tests_cant": "tests try a few spellings of the present classes; users derive their own", "anchors": ["smol/utils/class_utils.py:10-98", "smol/moca/kernel/__init__.py:24-56", "smol/moca/kernel/mcusher.py:714-736", "smol/moca/kernel/bias.py:355-381", "smol/moca/kernel/base.py:220-234"]}
{"id": "C84", "title": "A sampler follows later changes of its ensemble", "statement": "A Sampler made by from_ensemble has one kernel per walker with its seed; without a step type it flips if the ensemble has chemical potentials and swaps, conserving the composition, if not. Whatever is done to the ensemble afterwards (restrict_sites, reset_restricted_sites, split_sublattice_by_species, setting or removing chemical potentials), the steps proposed change only sites active at that moment to species allowed there, restricted sites keep their species until a reset, all active sites can be proposed, and enthalpies are those of the ensemble as it is now or an exception is raised.", "quantifier": "for all ensembles, all histories of operations before and after the sampler is made, interleaved with steps in any way, all ushers built from flips, swaps, multi-steps and composites", "why_tests_cant": "tests make the sampler last; references shared between ensemble and ushers matter only for interleaved histories, of which there are infinitely many", "anchors": ["smol/moca/sampler/sampler.py:94-138", "smol/moca/kernel/base.py:213-238", "smol/moca/kernel/base.py:299-305", "smol/moca/kernel/base.py:356-360", "smol/moca/kernel/mcusher.py:56-59", "smol/moca/ensemble.py:296-310", "smol/moca/ensemble.py:376-382", "smol/moca/sublattice.py:85-106"]}
{"id": "C85", "title": "Sampled averages are thermodynamic averages of the fitted energy", "statement": "Make a processor from a cluster expansion (by either type, with or without an electrostatic term), an ensemble from it, restrict, reset or split its sublattices in any order, optionally set chemical potentials last, and make a sampler with the default step type. Then every step it may propose has its change of enthalpy computed without exception, and it is the change of ClusterExpansion.predict minus the change of sum mu*N. The mean over n samples of any quantity, from any allowed initial occupancy, has mean square deviation at most C/n from the average over all configurations weighted by exp(-beta*E) at fixed composition (no chemical potentials, swaps) or exp(-beta*(E - sum mu*N)) over all configurations (chemical potentials, flips).", "quantifier": "for all expansions, supercells, coefficients, sublattices, histories of ensemble operations, chemical potentials, temperatures, observables, initial states and numbers of samples", "why_tests_cant": "it is a statement about limits of random processes, composed of subspace, processor, ensemble, usher and kernel; tests compare single numbers of each part", "anchors": ["smol/cofe/expansion.py:259-291", "smol/moca/processor/base.py:100-140", "smol/moca/ensemble.py:37-99", "smol/moca/ensemble.py:113-130", "smol/moca/ensemble.py:312-363", "smol/moca/sampler/sampler.py:94-138", "smol/moca/kernel/base.py:299-360", "smol/moca/kernel/metropolis.py:31-56"]}
{"id": "C86", "title": "The rows and targets of a wrangler are those of its own structures", "statement": "StructureWrangler keeps rows of the feature matrix, supercell matrices, site mappings, sizes, properties and weights in the entry objects it is given. add_entry puts the entry last with the given or found matrix and mapping, its correlation vector in the wrangler's subspace and its number of primitive cells, exactly if the names of the properties and weights given are those already there and the structure can be matched, and otherwise changes nothing. update_features and change_subspace raise exactly if the correlation vector of some entry cannot be computed, and otherwise leave every row equal to the correlation vector of its structure in the current subspace; they touch nothing else. After any sequence of operations by any number of wranglers every row of a wrangler is the correlation vector of its own structure in its own subspace. add_properties and add_weights give each structure its own value and leave other names and other wranglers alone. A saved and loaded wrangler has the same rows, properties and weights and shares no object with any other. Violated for the sequences: entries shared by wranglers with different subspaces, a subspace changed in place, entries appended from another wrangler, one dictionary object passed for several entries, and exceptions raised halfway.", "quantifier": "all subspaces, structures, matrices, entries, dictionaries and wranglers, all sequences of operations including ones that raise, any outcome of structure matching and of the correlation computation", "why_tests_cant": "Whether rows are stale depends on the history of all wranglers that hold the same entry objects; tests use one wrangler per set of entries and a few calls.", "anchors": ["smol/cofe/wrangling/wrangler.py:52-61", "smol/cofe/wrangling/wrangler.py:80-114", "smol/cofe/wrangling/wrangler.py:414-453", "smol/cofe/wrangling/wrangler.py:508-668", "smol/cofe/wrangling/wrangler.py:722-793", "smol/cofe/wrangling/wrangler.py:816-885"]}
{"id": "C87", "title": "A subspace computes the correlations of its present orbits and bases", "statement": "ClusterSubspace keeps its correlation functions in basis objects shared by orbits, in arrays and tensors stored in the orbits, in the evaluator and, for supercells, in a dictionary of index arrays. After any sequence of change_site_bases, rotate_site_basis, remove_orbits, remove_corr_functions, computations, reads of tensors and as_dict/from_dict or copy, whether calls raise or not, the correlation vector of an occupancy is one followed by the averages over the clusters in the supercell of the functions the subspace now has, in the site bases it now has. change_site_bases puts the named basis on every site or changes nothing; rotate_site_basis rotates every basis over the site space of the orbit named exactly once, also when orbits share the basis object, or changes nothing; remove_orbits and remove_corr_functions leave all other entries of the vector as they were, an orbit without functions goes, and ids of functions that do not exist are passed over; num_orbits, num_corr_functions and the ids of orbits and functions are those of the present orbits. Calls raise exactly for an unknown basis name, an id that is not that of a one-site orbit, a basis that cannot be rotated, an empty list of orbits or ids outside 1 to num_orbits - 1, or clusters not found in the supercell.", "quantifier": "all histories, subspaces with any number of orbits, functions, site bases and supercells, all occupancies", "why_tests_cant": "Tests change a subspace once and compare with a few structures; stale data shows only for the right order of computing, changing and computing again, and the number of orders is unbounded.", "anchors": ["smol/cofe/space/clusterspace.py:204-220", "smol/cofe/space/clusterspace.py:914-1080", "smol/cofe/space/clusterspace.py:1210-1240", "smol/cofe/space/clusterspace.py:1545-1632", "smol/cofe/space/orbit.py:82-352", "smol/cofe/space/orbit.py:462-488", "smol/utils/cluster/__init__.py:4-15"]}
{"id": "C88", "title": "The diagnostics of a feature matrix mean what they say", "statement": "For the structures (rows) and features (columns) asked for, in that order and with Python's negative indices, or all of them: get_gram_matrix(normalize=False) holds the inner products of the features; with normalize the cosines of the angles between them, so that every entry lies between -1 and 1, the matrix is symmetric with a unit diagonal and an entry is 1 or -1 exactly if the two features are positive or negative multiples of each other. get_feature_matrix_rank is the dimension of the span of the features, never more than the number of features or structures, and equals the number of features exactly if a linear fit of them to the structures is unique; get_feature_matrix_orbit_rank is that rank for the features of the orbit. get_constant_features returns, in order, exactly the features other than the empty cluster that have one value, and if it returns any, no fit of all the features is unique. get_similarity_matrix is symmetric with a unit diagonal, its entries are the fractions of structures for which the two features are close, 1 exactly if all are and 0 exactly if none is, and do not depend on the order in which features are asked for. Calls raise exactly if there are no structures or an index is out of range.", "quantifier": "all feature matrices, all selections of rows and columns", "why_tests_cant": "Tests compare shapes and a few entries for one feature matrix; bounds, equality cases and the relation of rank to uniqueness of fits are statements over all real matrices.", "anchors": ["smol/cofe/wrangling/wrangler.py:74-77", "smol/cofe/wrangling/wrangler.py:158-192", "smol/cofe/wrangling/wrangler.py:216-241", "smol/cofe/wrangling/wrangler.py:342-397"]}
{"id": "C89", "title": "An expansion keeps eci and interactions in step with its coefficients and subspace", "statement": "A ClusterExpansion can be made from a subspace exactly if there is one coefficient for the constant, one per correlation function and one per external term. After any history of predict, cluster_interactions_from_structure, eci, cluster_interaction_tensors, prune and copy, all it computes is about the orbits, functions and coefficients left: predict is the scalar product of the coefficients with the correlation vector and the external terms (times the number of prims if not normalized), eci times the multiplicities are the coefficients, orbit multiplicities times interactions are the sums of the terms of each orbit, and they add up, with the external terms, to the prediction. prune keeps one coefficient per term exactly if neither the constant nor an external term is below the threshold. Whatever was done with coefs and cluster_subspace, as long as lengths match prune(0) and copy() remove nothing and bring everything in step again.", "quantifier": "all subspaces with any history of changes, all coefficients, all histories of operations, all occupancies and supercells", "why_tests_cant": "What is cached depends on which properties were read before which changes; tests read a fresh expansion after a single pruning.", "anchors": ["smol/cofe/expansion.py:124-201", "smol/cofe/expansion.py:259-395", "smol/cofe/space/clusterspace.py:382-450", "smol/utils/cluster/evaluator.pyx:103-119", "smol/utils/cluster/evaluator.pyx:170-209"]}
{"id": "C90", "title": "Vertices and centroid of a composition space", "statement": "If the constraints A n = b have a solution, get_nonneg_float_vertices returns exactly the extreme points of the set of nonnegative solutions, each once, or raises \"not feasible\" exactly if that set is empty. get_centroid_composition returns coordinates whose counts are natural numbers and satisfy all constraints, so one of the entries of get_composition_grid of the same size, and no other allowed composition is nearer, in coordinates, to the average of the vertices of the set of compositions; it raises exactly if no composition is allowed at that size. At the default size (the size that makes the vertices integral) the base solution is always found.", "quantifier": "all constraint matrices, right hand sides, bases, inequality constraints, sizes; all solvers and polytope libraries meeting their contracts", "why_tests_cant": "Tests compare a few polytopes with stored vertices; extreme points of every polytope, and minimality over all lattice points, are quantified statements.", "anchors": ["smol/utils/math.py:297-332", "smol/utils/math.py:339-393", "smol/moca/composition/space.py:297-325", "smol/moca/composition/space.py:508-527"]}
{"id": "C91", "title": "Ushers propose with the probabilities they were configured with", "statement": "Flip and Swap accept sublattice probabilities exactly if there is one per active sublattice and they sum to one (equal ones by default). After any sequence of setting probabilities, adding ushers and restricting or resetting sublattices, the probabilities in force are the last ones set that were accepted; a rejected request changes nothing. A Flip then proposes species e on unrestricted site s of its k-th sublattice with probability p_k/(unrestricted sites*(species-1)); a Swap proposes exchanging s with r with probability p_k/(unrestricted sites*sites holding another species than s), and nothing with the probability of picking a uniform sublattice. A MultiStep uses its lengths with equal probability and hands its sublattice probabilities to its inner usher. A Composite proposes with the weighted mean of its ushers, whichever were given or added. Violated: sublattices fully restricted after construction are still picked and raise, and those reset afterwards are ignored; negative probabilities are accepted and every proposal then raises; setting probabilities on a Composite is accepted without effect; ushers without a weight are dropped silently; weights whose first entries sum to zero raise; the metadata keep the first probabilities and list the ushers of a Composite twice.", "quantifier": "for all sublattices, probabilities, weights, nested ushers, histories of operations, occupancies and steps", "why_tests_cant": "Exact probabilities cannot be measured by sampling, and the histories of reconfiguration and restriction are unbounded.", "anchors": ["smol/moca/kernel/mcusher.py:39-105", "smol/moca/kernel/mcusher.py:147-202", "smol/moca/kernel/mcusher.py:213-308", "smol/moca/kernel/mcusher.py:314-394"]}
{"id": "C92", "title": "Orbits and functions are selected by size and diameter as documented", "statement": "After any removals of orbits and functions: cutoffs lists each size except 1 with the largest diameter of its orbits; function_inds_by_size partitions the ids of all functions but the constant in order, each list holding the functions of the orbits of that size; orbits_from_cutoffs returns exactly the orbits whose diameter is between the bounds, both included, in order, and raises exactly if a requested size is absent or has no lower cutoff; function_inds_from_cutoffs returns exactly the functions of these orbits, increasing for a single upper cutoff; orbits_by_diameter, however often read between removals, gives for each rounded diameter exactly the present orbits. Equal subspaces have pairwise equal orbits, equally many functions and the same types of external terms. Violated: == compares orbits only up to the end of the shorter list and not which of their functions are kept.", "quantifier": "for all orbit dictionaries, diameters, bounds given as numbers or dictionaries, and histories of removals and reads", "why_tests_cant": "Selections after arbitrary histories of removals, with a cached value in between, are unboundedly many; tests check one fresh subspace.", "anchors": ["smol/cofe/space/clusterspace.py:344-381", "smol/cofe/space/clusterspace.py:413-419", "smol/cofe/space/clusterspace.py:564-625", "smol/cofe/space/clusterspace.py:1026-1076", "smol/cofe/space/clusterspace.py:1479-1493"]}
{"id": "C93", "title": "The SQS generator covers the requested shapes, keeps composition and scores what it returns", "statement": "The constructor accepts exactly the documented arguments. There is a processor for the superlattice of every requested supercell matrix, with the given (default zero/one) target and weights; matrices of different superlattices give one processor each, in order; without matrices there is exactly one processor per class of symmetrically equivalent superlattices of the size. A processor is looked up exactly by the rows of a matrix of the right determinant. Over any sequence of generate calls every kept structure belongs to one of the shapes, its score is the value of its occupancy in that shape, and with swap steps it has the composition of the initial occupancies. The visited structures are as many as steps over all temperatures, start from the given / last sampled / drawn occupancy and follow each other, also across temperatures; after a clearing call the queue ends with a best one. compute_score of a kept structure with its supercell matrix returns its score. Violated: another matrix of the same superlattice raises KeyError; processors with left-handed matrices are accepted but cannot be looked up; only the first processor's subspace is compared, and targets given to from_processors are ignored; with one shape and a hop in the first step the composition of the given occupancies is lost.", "quantifier": "for all arguments, numbers of shapes, symmetry groups with inverses, call histories, temperatures, hop periods, proposals and acceptances", "why_tests_cant": "The annealing history across shapes, temperatures and calls is unbounded and random; tests run one generator for a few steps and check that some structure is returned.", "anchors": ["smol/capp/generate/special/sqs.py:75-154", "smol/capp/generate/special/sqs.py:234-343", "smol/capp/generate/special/sqs.py:483-684", "smol/moca/kernel/base.py:643-717", "smol/moca/sampler/sampler.py:384-425"]}
{"id": "C94", "title": "Weights by energy above the hull rank structures against all mixtures", "statement": "weights_energy_above_hull returns one weight per structure, exp(-e/kBT) with e >= 0 the energy per atom less that of the lowest mixture of the same atomic fractions; the weight is in (0, 1], is 1 exactly if no mixture has a lower energy (in particular for the structure of lowest energy per atom), and structures of the same composition are weighted by their relative Boltzmann factor. e is never less than the energy above the structures of the same composition (weights_energy_above_composition), and changes neither when structures are replaced by supercells nor with the zero of energy per atom. It raises exactly for no structures and for elements that neither the expansion's structure nor a pure structure has. The mixtures should be those of the given structures only; violated: artificial elements 1000 above the highest energy take part, which is harmless only as long as the hull of the structures has chemical potentials below that, and can put a structure on the hull thousands above it.", "quantifier": "for all lists of structures, compositions, real energies, elements and temperatures", "why_tests_cant": "The hull is an optimum over infinitely many mixtures of arbitrarily many structures; tests compare a few energies of one data set with precomputed numbers.", "anchors": ["smol/cofe/wrangling/tools.py:143-189"]}
{"id": "C95", "title": "Traces of all walkers are recorded under the names of their kernels", "statement": "A sampling run saves one row per sample under every traced name and keeps earlier rows; the entry of a walker follows from its own initial trace and its own steps only: recorded values are those of its last step, changed values the initial value plus the changes of its accepted steps. A run raises exactly when a walker, a step or the container lacks a name the others have. For a sampler whose kernels were made with a bias, biases can be replaced on any kernel between runs, failed assignments change nothing, and no run raises; the same without any bias. Violated: a bias assigned to the first kernel of a sampler made without one is accepted but then every run raises and saves nothing; one assigned to another walker raises at its first accepted step; multicell kernels with different biases, which the documentation allows, raise when a cell with a bias accepts while the first has none.", "quantifier": "for all names, values, numbers of walkers and samples, thinning, acceptances, histories of bias assignments and kernel classes", "why_tests_cant": "Which names meet depends on the history of assignments, the number of walkers and which steps are accepted; tests run each kernel with one configuration.", "anchors": ["smol/moca/trace.py:8-82", "smol/moca/sampler/sampler.py:190-209", "smol/moca/sampler/sampler.py:417-435", "smol/moca/sampler/container.py:380-393", "smol/moca/kernel/base.py:277-364", "smol/moca/kernel/wanglandau.py:268-288"]}
{"id": "C96", "title": "Clusters survive copying, saving and loading", "statement": "Whatever sequence of making, copying, saving, loading and numbering a cluster comes from, its sites stay at the coordinates it was made from, its fractional coordinates are those shifted by one lattice vector with the centroid in the unit cell, get_distance is the distance of the original coordinates and diameter is the largest of them. A copy and a loaded cluster equal the original and have the same sites, centroid and lattice; a copy of a copy is the same as the copy; both have no id and species in equal shares. to(...) writes JSON or YAML according to the format and the name, nothing else is changed, and from_str and from_file of what was written give the cluster of the dictionary; other formats raise. Violated: species that are vacancies are dropped when loading, so that a vacancy other than the default one is no longer offered; a YAML file is written under its base name in the working directory, so that from_file with the name given to to(...) does not find it; fmt does not override the name; to() without arguments raises.", "quantifier": "for all dimensions, lattices, coordinates, site spaces, vacancies, histories of copies, loads and numberings, formats, file names and existing files", "why_tests_cant": "Tests save one cluster without vacancies in the working directory; the losses appear for other species, directories and histories.", "anchors": ["smol/cofe/space/cluster.py:29-121", "smol/cofe/space/cluster.py:123-219", "smol/cofe/space/cluster.py:280-316", "smol/cofe/space/domain.py:68-80"]}
{"id": "C97", "title": "Processors, composites and the subspaces they share", "statement": "Over any sequence of making subspaces, external terms, processors and composites, adding processors and saving and loading: a processor never changes; a subspace keeps its functions and external terms and only gains terms; a composite only gains parts at the end. All parts of a composite have its supercell matrix and subspaces with its orbits and functions; its coefficients are those of the parts in order; expansions have one coefficient per function; the subspace of an Ewald processor has an Ewald term. add_processor raises exactly for composites, other matrices, and subspaces that differ in orbits, functions or classes of external terms, and then changes nothing. An EwaldProcessor made with a subspace without an Ewald term adds a default one to the shared subspace object. A saved and loaded processor has the same class, matrix and subspace (its own) and coefficients, all other objects are untouched. A composite can be loaded exactly if the subspaces of all its parts have at that time the classes of external terms of its own subspace and distance processors have none; always if all share one subspace object and there is no distance processor. Violated: a composite that accepted a processor over an equal subspace cannot be loaded once an EwaldProcessor is made with its subspace object; a distance processor loses its weights when loaded and cannot be loaded once an EwaldProcessor was made with its subspace; DistanceProcessor.from_dict consumes its dictionary.", "quantifier": "for all sessions of any length over any number of subspaces, terms, processors, composites, coefficients and matrices", "why_tests_cant": "Whether a composite can be loaded depends on all objects that share subspaces and on the order they were made in; tests load one composite made in one way.", "anchors": ["smol/moca/processor/composite.py:39-84", "smol/moca/processor/composite.py:154-175", "smol/moca/processor/ewald.py:51-64", "smol/moca/processor/ewald.py:167-191", "smol/moca/processor/expansion.py:86-94", "smol/moca/processor/distance.py:74-97", "smol/moca/processor/distance.py:177-200", "smol/cofe/space/clusterspace.py:628-643", "smol/cofe/space/clusterspace.py:1479-1493"]}
{"id": "C98", "title": "Records of what was run, and saved work", "statement": "A Metadata record made of numbers, texts, lists and dictionaries, and of records as attributes to any depth, is the same after as_dict and from_dict; whatever it holds, the loaded record has the same attributes and is unchanged by further saving and loading. save_work raises for objects that are not MSONable and then leaves the file as it was; after it succeeds, load_work gives one entry per class name, the last object of that class, whatever the file held before. Violated: records in a list are replaced by their printed text, so that saved samples of every sampler have lost the specifications of the kernels (and composite ushers those of their steps, multicell kernels those of their kernels); an object that cannot be encoded makes save_work destroy the work that was in the file; of several objects of one class only the last is saved, without a warning.", "quantifier": "for all records of any depth and size, all lists of objects, classes and previous files", "why_tests_cant": "Tests compare records of one depth by the attributes they know; which values survive depends on where in the tree of attributes they are.", "anchors": ["smol/moca/metadata.py:24-61", "smol/moca/sampler/sampler.py:50", "smol/moca/kernel/mcusher.py:343-382", "smol/moca/kernel/base.py:539-546", "smol/io.py:17-55"]}
{"id": "C99", "title": "Flips written as reactions", "statement": "The reaction text of a flip (flip_vec_to_reaction, CompositionSpace.flip_reactions) has on the left every species the flip takes away and on the right every species it adds, each once, with its amount and sublattice, and nothing else. The text determines the flip: two flips with the same text are equal, so different flips of a table have different reactions, listed in the order of the table. What is on the right less what is on the left is the change made by the flip, for every quantity depending on sublattice and species; for flips that keep sites and charge both sides have as many sites of each sublattice and the same charge. The reverse flip is written with the sides exchanged. A vector with too few entries raises.", "quantifier": "for all numbers of sublattices, lists of species whose printed forms contain no blanks and differ on each sublattice, flip vectors of any size, tables of flips, weights", "why_tests_cant": "Tests compare a few texts with literals; that no two flips share a text, for amounts and sublattices of any number of digits, is a statement on all pairs of flips.", "anchors": ["smol/moca/composition/space.py:43-70", "smol/moca/composition/space.py:432-439", "smol/moca/occu_utils.py:8-23"]}
{"id": "C100", "title": "Every walker runs its own chain from its own state", "statement": "Sampler.run with initial occupancies of shape (walkers, sites) starts walker i from row i, and every saved sample holds for every walker the state of its own chain, thin_by steps after the sample before; with a single walker a plain occupancy may be given. Samplers without multicell kernels raise for every other shape and only then. One multicell walker given an occupancy for each of its cells hands each cell its own and starts from that of the current cell. Violated for several multicell walkers: given one occupancy, or one for each cell, only the first walker runs, every sample repeats its state for all walkers and the other kernels are never used; occupancies for each cell of each walker are refused; as many occupancies as cells are taken for those of the walkers if there are as many walkers.", "quantifier": "for all numbers of walkers, cells, sites and samples, all thinnings, all arrays of one to four dimensions, all step functions of kernels", "why_tests_cant": "Tests start samplers from arrays of the right shape; which shapes are accepted and what the walkers make of them needs all shapes, and that walkers do not share a chain needs all steps.", "anchors": ["smol/moca/sampler/sampler.py:163-209", "smol/moca/sampler/sampler.py:384-450", "smol/moca/kernel/base.py:692-712", "smol/moca/sampler/container.py:380-393"]}
{"id": "C101", "title": "Setting numbers of threads reaches every evaluator and nothing else", "statement": "Whatever a session does with the num_threads of cluster subspaces and the num_threads and num_threads_full of processors, every evaluator has between one and the most possible threads (one without OpenMP) and all site evaluators of a processor have the same number. Setting a number raises exactly for zero and for values that are not integers, and then changes nothing; otherwise the number meant (at most the most possible, negative numbers counted from it, the default for None) is read back, and no other subspace or processor changes: in particular processors keep theirs when that of their subspace is set. A new processor has the numbers asked for, and for full vectors that of the subspace if none is given. Violated: without a number for local changes the documented use of the subspace's number does not happen; the default is used whatever the subspace has, so they agree only if the subspace has the default. A processor without site evaluators accepts any value and raises when asked for it.", "quantifier": "for all sessions of any length with any number of subspaces, processors and sites, all values, all maximal numbers of threads, with and without OpenMP and OMP_NUM_THREADS", "why_tests_cant": "Tests set a few numbers on one machine; that evaluators never fall out of step and that nothing is shared between processors and subspaces is about all sequences of settings on all machines.", "anchors": ["smol/utils/cluster/numthreads.py:8-57", "smol/utils/setmany.py:31-66", "smol/moca/processor/expansion.py:22-36", "smol/moca/processor/expansion.py:150-160", "smol/moca/processor/expansion.py:359-368", "smol/cofe/space/clusterspace.py:211-215"]}
{"id": "C102", "title": "Saved site bases load with the same functions", "statement": "A site basis over a site space with at least two species can be saved with as_dict and loaded with from_dict (of StandardBasis or DiscreteBasis) at any point: it has the same flavor, function array, measure, rotation array and, if orthonormalised, orthonormalisation array, and its dictionary is the same again. A session of orthonormalisations and rotations ends with the same basis, and later changes raise for the same arguments, however often the basis is saved and loaded in between. Saving raises exactly for bases made over an OrderedDict. basis_factory makes a basis exactly for the five names in any case and at least two species. Dictionaries of class SiteBasis without a rotation array load with the identity as rotation array; full indicator bases load as the identity; other classes are refused. Violated: orthonormalization_array, None for a basis that was not orthonormalised, is array(None) once the basis has been loaded, so that it is not None.", "quantifier": "for all numbers of species, measures, function arrays, all factorisations of numpy, all sequences of orthonormalisations, rotations, saves and loads, all names and dictionaries", "why_tests_cant": "Tests save a fresh or once changed basis for a few species; that saving never interferes with what follows is about all sequences of operations and all numbers of species.", "anchors": ["smol/cofe/space/basis.py:128-165", "smol/cofe/space/basis.py:183-251", "smol/cofe/space/basis.py:333-403", "smol/cofe/space/basis.py:594-620", "smol/utils/class_utils.py:33-56"]}
{"id": "C103", "title": "Directions are chosen with probabilities proportional to their weights", "statement": "choose_section_from_partition, which chooses the direction of a TableFlip, turns a uniform number into the section it falls to when sections as long as the weights are laid out and scaled to [0, 1): the share of uniform numbers that choose a section is its share of the weights, a section of weight zero is never chosen, and only ratios of weights matter, for all non-negative weights of which one exceeds the tolerance of np.allclose. It raises for an empty list, and for negative weights beyond NUM_TOL or beside positive weights unless all are negligible. Violated: weights are not always normalised: any weights scaled down far enough choose all sections alike, also those of weight zero; and weights that are all negative but within NUM_TOL do not raise, the choice is made by absolute values.", "quantifier": "for all lists of weights of any length, all uniform numbers, all tolerances", "why_tests_cant": "Tests draw a finite number of times and compare frequencies; exact probabilities and impossible sections are about all uniform numbers and all weights.", "anchors": ["smol/utils/math.py:869-893", "smol/moca/kernel/mcusher.py:598-616"]}
{"id": "C104", "title": "Containers saved by older versions keep samples and energies", "statement": "A SampleContainer saved by an older version (sublattices, natural parameters and number of energy coefficients instead of an ensemble) loads without an ensemble with sublattices, parameters, samples, number of steps and energies as saved. Given an ensemble it is accepted exactly if the ensemble's sublattices are those saved, in any order, apart from restricted sites; samples and steps are as saved and everything else is the ensemble's. Containers with an ensemble can be saved again as dictionary or hdf5 file and load as they were, whatever ensemble is given. Violated: parameters are not compared, so an ensemble with other coefficients is accepted and get_energies gives energies of coefficients the samples were not drawn with; and a container loaded without an ensemble can not be saved as a dictionary, while to_hdf5 writes it to a file that can not be loaded, with any ensemble.", "quantifier": "for all lists of sublattices, parameters, traces, numbers of coefficients and steps, all ensembles", "why_tests_cant": "Tests load one legacy file with its own ensemble; which ensembles are accepted and what becomes of energies is about all pairs of files and ensembles.", "anchors": ["smol/moca/sampler/container.py:77-104", "smol/moca/sampler/container.py:208-229", "smol/moca/sampler/container.py:481-500", "smol/moca/sampler/container.py:521-688", "smol/moca/sublattice.py:184-195"]}
{"id": "C105", "title": "Temperatures of multicell kernels reach every cell", "statement": "After any assignments of temperature and kB to a MulticellMetropolis and any hops, its temperature and the temperature of every kernel in mckernels is the one assigned last; every kernel's beta is 1 / (kB T) with its own kB. Steps in a cell and hops between cells are accepted at the same beta exactly if the cell's kB is the one assigned last to the multicell kernel; in StochasticSQSGenerator every beta is 1 / T for the temperature assigned last. Violated: kB assigned to a multicell kernel does not reach its cells, so that a kB other than theirs leaves steps and hops at different beta at all later temperatures; a temperature assigned to one cell's kernel is reported by the multicell kernel while it is in this cell although hops keep their beta; a refused temperature is reported although no beta changed.", "quantifier": "for all lists of kernels with any constants, all sequences of assignments and hops", "why_tests_cant": "Tests set one temperature and read it back; agreement of the cells' beta with that of hops is about all sequences of assignments to objects that share their traces.", "anchors": ["smol/moca/kernel/metropolis.py:102-168", "smol/moca/kernel/base.py:397-421", "smol/moca/kernel/base.py:530-571", "smol/moca/kernel/base.py:656-673", "smol/capp/generate/special/sqs.py:505-518"]}
