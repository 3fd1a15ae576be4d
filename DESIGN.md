# Formal model of smol (CederGroupHub/smol): design

The code under study is the Python/Cython package in `/repo` (`smol/`).  It is
read as text only.  The model and proofs are Lean 4 (4.33.0) with Mathlib,
under `lean/Verif`.

## Layout

* `lean/Verif/Model/*.lean`   executable model, function by function, each
  definition citing the file and lines it models;
* `lean/Verif/Spec/*.lean`    small specifications, written without the model's
  helper functions;
* `lean/Verif/Lemmas/*.lean`  helper lemmas;
* `lean/Verif/Props/*.lean`   the property theorems (one file per area), the
  non-vacuity examples, and the negations with witnesses where the code
  violates the property;
* `properties.jsonl`, `MANIFEST.json`, `seeded/LOG.jsonl`.

## Modelling conventions

* Floating point numbers are idealised: rational or real numbers, or an
  arbitrary field/ordered field `K`.  Rounding, NaN, overflow and tolerance
  (`np.isclose`) are outside the model; where the code compares with a
  tolerance this is said at the definition.
* numpy arrays: lists, or functions from indices when the length is fixed and
  every index used is in range.  In-place mutation is modelled as returning
  the new value, except in the multicell kernel (C27, C28), where aliasing is
  the point and a small heap of arrays is modelled.
* Exceptions are values (`Except`/`Option`).
* Random numbers.  A program that draws is an element of the tree type
  `Prog α` (`ret a` or `pick weights k`: draw an index with the given
  probabilities and go on).  The same program is read in three ways: as
  the set of outcomes possible for some draws (used for "for every
  random stream" properties), as a finite probability distribution (detailed
  balance), and as a deterministic function of a stream (reproducibility).
  `rng.random()` in the acceptance test is a real number `u` in (0,1).
* Unbounded loops whose termination is part of the claim are modelled by
  well-founded recursion or by fuel with a theorem that enough fuel exists.

## Trusted base

* Lean's kernel and the axioms `propext`, `Classical.choice`, `Quot.sound`
  (checked by `#print axioms` in `Verif/Audit.lean` for every theorem listed in
  `MANIFEST.json`).  No other axiom, no `sorry`, no `native_decide`,
  no `bv_decide`.
* The reading of the Python/Cython text by which each model definition was
  written.  Nothing is run; the correspondence is by citation.
* Behaviour assumed of libraries: numpy indexing/broadcasting/`unique`/`sort`,
  `Generator.choice` (uniform, without replacement when asked), python dicts
  and slices, h5py datasets (append and read back), LP/MIP solvers (oracle:
  only the constraints they receive and the decoding of their result are
  modelled), pymatgen symmetry and geometry (oracle: cluster index arrays,
  Ewald matrices, lattice points are inputs), `Fraction.limit_denominator` (a
  hypothesis: its documentation).

## Per property plan

| id | modelled | how proved |
|----|----------|------------|
| C01 | `single_step`, `_compute_step_trace`, `_do_accept_step`, `compute_initial_trace`, `Sampler.sample` loops with thinning and walkers, random decisions as arbitrary booleans | invariant: accumulated = recomputed, induction over steps; hypothesis "change = difference on proposed steps" discharged by C02-C07 |
| C02 | evaluator.pyx correlation loops, processor wrapper with per-site cluster lists | finite-sum identity: clusters not containing the site cancel; induction over the flip list |
| C03 | interaction loops | as C02 |
| C04 | `delta_ewald_single_flip`, `get_ewald_occu`, `value_from_occupancy` | expansion of the quadratic form over index sets |
| C05 | `CompositeProcessor` | induction on the list of parts |
| C06 | `Ensemble.compute_feature_vector(_change)` | finite sums; witness for a repeated site |
| C07 | `_accept_step` as function of the uniform draw | measure of the accepting set |
| C08-C11 | ushers as `Prog`, Metropolis transition probability | symmetry of proposal probabilities by counting; ratio formula for TableFlip; witness for dropped factor |
| C12 | all ushers as `Prog` | predicate on all outcomes, structural |
| C13-C15 | ushers + `single_step` | invariants by induction over runs |
| C16 | `Sublattice` operations | invariant over operation lists, list algebra |
| C17 | descriptor state machine | invariant over operation lists |
| C18 | `occu_utils` | counting lemmas |
| C19 | bias classes | finite-sum algebra |
| C20-C23 | `SampleContainer`, `Sampler.run` with streaming | refinement to the list of saved samples; witnesses |
| C24-C26 | Wang-Landau state machine | invariants over runs; witness |
| C27-C28 | multicell kernel with heap of arrays | invariant over runs; witness |
| C29 | stream semantics of `Prog`, one or several generators | functional dependence; witness programs that read a second stream |
| C30-C32 | gcdex, SNF, diophantine solver | well-founded recursion, matrix identities; witnesses |
| C33-C34 | one-dim solutions, natural solutions recursion, grid cache | induction on dimension; LP bounds as oracle |
| C35-C36 | HNF generator, supercell enumeration | explicit column reduction; greedy filtering lemma |
| C37 | `flip_weights_mask` | index lemma |
| C38 | format conversions | linear algebra with exactness hypotheses |
| C39-C40 | lexing and parsing of constraint strings, constraint manager | text as typed, any spacing, to the linear relation it denotes; witness |
| C41 | encode/decode, `get_sublattices` | list lemmas; witness |
| C42 | parallel loop as arbitrary interleaving of slot writes | disjoint writes commute |
| C43-C44 | orbit/function id bookkeeping, prune | invariant over removals; witness |
| C45 | `bit_combos` | orbit partition |
| C46 | strides | mixed radix |
| C47 | interaction tensors | finite-sum algebra |
| C48-C49 | mappings, aliasing groups | graph closure; partition lemma |
| C50-C52 | ground state terms, variables, solver cache | sum over one-hot assignments; state machine witness |
| C53 | random occupancy generators as `Prog` | outcome predicates |
| C54 | bounded queue | invariant; witness |
| C55-C56 | filters, index sets | partition lemmas; witness |
| C57 | dict round trips | state equality; witnesses |
| C58 | thermal kernel state, anneal | invariants |
| C59 | lattice point order | permutation invariance |
| C60 | `composition_select`, `gaussian_select` | counting argument, greedy invariant |
| C61 | processor and subspace conversions between structures and occupancies | round trips; witness |
| C62 | energies above composition, weights | order/sum algebra |
| C63 | wrangler property dictionaries | invariant over operation lists; witnesses |
| C64 | `full_row_rank_select` | triangular independence; witnesses |
| C65 | site bases (`basis.py`) | linear algebra; trigonometric sums; witnesses |
| C66 | correlation functions of an orbit under independent species; `rotation_array` | induction over the sites; completeness of orthonormal bases; witnesses |
| C67 | distance processors (`distance.py`) | grouped loop against a declarative spec; equality of two evaluators; witnesses |
| C68 | flip table utilities (`utils/math.py` 568-829) | greedy selection as in a matroid; lattices as integer spans; witnesses |
| C69 | `corr_from_structure`, `predict`, `Ensemble.from_cluster_expansion` | composition of C47, C04, C05, C17, C61 and C01: end to end from structure to recorded trace |
| C70 | `analysis/convergence.py` | loops and slices against textbook statistics; witnesses |
| C71 | geometric orbits (`cluster.py`, `orbit.py`) | group action modulo lattice vectors; orbit–stabiliser |
| C72 | orbits from cutoffs (`clusterspace.py` 1281-1477) | invariant of the loop; induction on the size with the triangle inequality; a cubic crystal as witness against completeness |
| C73 | `is_sub_orbit`, `sub_orbit_mappings`, `get_sub_function_ids` | sub-clusters up to symmetry; the mappings returned generate all under the permutations of the cluster |
| C74 | `_gen_orbit_indices` with orbits, correlation tensors and processors | lattice points = cosets of the supercell lattice (counted by the determinant), sites and rows in bijection with sites and clusters modulo that lattice; symmetry permutes rows |
| C75 | `PottsSubspace` with `IndicatorBasis`, orbits and processors | indicator tensors count codes; species and codes in bijection, so bit combos (C45) are classes of decorations; every cluster in one class |
| C76 | Metropolis sampling as a random process, `sampler.py` loop with thinning | finite Markov chain: detailed balance (C08-C11) gives a stationary ensemble, symmetric moves make the reached states a connected class; Poisson equation and second moments bound the error of averages by C/n; Doeblin contraction for the distribution |
| C77 | `effective_cluster_weights`, the `ECI-based Property` line of `__str__`, both processors over random occupancies | products of site functions named by the function each site has; different products are orthonormal, no product occurs twice (C45 classes, distinct site sets), so variances are sums of squares; witnesses for coinciding clusters and indicator basis |
| C78 | composition statistics of `SampleContainer` (counts, compositions, means, variances) | counting spec by site and species; the code lists found codes, appends missing ones in any order and reorders by encoding: position in the joined list; folds over sublattices add up disjoint sites; shapes after `squeeze` treated case by case |
| C79 | samples of a run, `sampling_efficiency`, `get_orbit_factors` | a walk defined by the decisions alone; invariant of the walkers by rounds; recorded flags are those of the last round of an interval; masks and broadcasting of arrays as the code applies them, witnesses for several samples |
| C80 | `rationalize_number`, `integerize_*`, constructor of `CompositionSpace`, filing of constraints, `min_supercell_size` | closest fractions as documented by python; fractions with denominators up to N are 1/N² apart, so small errors cannot change the result; solutions of the rows = solutions of the constraints; witnesses for fractional charges and 1/1001 |
| C81 | `as_dict` / `from_dict` of `CompositionSpace` | round trip: integer rows are a fixed point of the constructor; decimal keys decode |
| C82 | Wang-Landau acceptance as a random event; `levels`, `entropy`, `dos` | Metropolis-Hastings algebra with the weights exp(-S), the chain theorems of C76 on the states reached inside the window, counting states per bin |
| C83 | `class_name_from_str`, `get_subclasses`, factories of kernels, step types and biases | the scanner on every spelling of a list of words; induction over the class tree |
| C84 | sublattices as shared objects, ushers holding references, `Sampler.from_ensemble` | refinement of the value model of the ensemble; invariant over interleaved operations and steps |
| C85 | expansion, processor, ensemble, sampler and Metropolis kernel together | composition of C69, C06, C17, C84 and C76; the chemical work table is shown to be Σ μ N with N counted from the occupancy |
| C86 | wranglers, entries, dictionaries and subspaces as numbered objects | invariant over histories of operations of any number of wranglers; matching and correlations are arbitrary functions |
| C87 | subspaces with everything they store: shared basis objects, arrays and tensors of orbits, evaluator data, index arrays | refinement: any history of operations against the same operations on plain lists of orbits, functions and bases |
| C88 | feature matrix selections, Gram matrix, ranks, constant features, similarities | Cauchy-Schwarz with its equality cases, rank-nullity; decision logic for the lists returned |
| C89 | `ClusterExpansion` with `eci`, interaction tensors and evaluator data through predict, reads, prune, copy | invariant: what is stored is what would be computed now; refinement to plain lists of orbits and coefficients |
| C90 | vertices of the composition polytope, centroid composition | extreme points through an injective affine map; solver and polytope library by contract; link to the grid of C33 |
| C91 | configuration of ushers, probabilities of proposals | histories of set/add/restrict/reset; exact probability of each step from the tree of draws |
| C92 | selecting orbits and functions by size and diameter, equality of subspaces | invariant of the dictionary over histories; stability of sorting; cache invariant |
| C93 | setup, annealing and scoring of the SQS generator | decision logic of the constructor; invariant of kernel, queue and samples over calls; refinement to C27, C36, C54 |
| C94 | weights by energy above the hull | refinement of the hull of points to mixtures; order and invariance of weights; decision logic of raising |
| C95 | names and values of traces over walkers and runs | refinement of stacked arrays to single walkers; exact condition for raising; invariant over bias assignments |
| C96 | cluster objects: copies, saving, loading, files | invariant over histories; round trip; decision logic of formats and names; violations |
| C97 | processors, composites and shared subspaces; saving and loading | invariant over sessions with references; exact conditions for loading; violations with sessions |
| C98 | records of runs and saved work | round trip by mutual induction on values; idempotence; exact conditions for raising; violations for all records |
| C99 | reactions written for flips | both sides characterised for all flips; injectivity of the text by unique cutting at blanks and brackets; balance for every weight |
| C100 | starting states and chains of walkers | decision logic on shapes; refinement of the loop over walkers to single chains; violations for all shapes concerned |
| C101 | numbers of threads of subspaces and processors | invariant over sessions; exact effect of every setting; violation for all subspaces |
| C102 | saved site bases, names of bases | round trip; refinement of sessions with saves to sessions without; decision logic of names and classes; violation with exact condition |
| C103 | choices by weight | exact condition on the uniform number; measure; scaling; violations for all small and all negative weights |
| C104 | containers saved by older versions | exact condition for accepted ensembles; round trip; violations for all containers |
| C105 | temperatures of multicell kernels | invariant over sessions; exact condition for equal beta; violations for all kernels |

## What is modelled and what is not

Modelled, with line citations at each definition (`lean/Verif/Model`):

| model | code |
|-------|------|
| Evaluator, Threads | `smol/utils/cluster/evaluator.pyx` loops (correlations, interactions, their changes), parallel execution, `num_threads` |
| Ewald, Composite, Expansion, Decomposition, Orbit, Distance | `smol/moca/processor/*` and the parts of `smol/cofe/expansion.py`, `smol/cofe/space/orbit.py` they use |
| Sublattice, OccuUtils, Ensemble, FromExpansion | `smol/moca/sublattice.py`, `occu_utils.py`, `ensemble.py`, predictions of an expansion |
| Usher, Kernel, Bias, WangLandau, Multicell, Run, Container, Seed | `smol/moca/kernel/*`, `smol/moca/sampler/*` |
| IntLinAlg, NatSolutions, FlipTable, Composition, ConstraintString, Supercell | `smol/utils/math.py`, `smol/moca/composition/*`, supercell enumeration |
| SiteSpace, SiteBasis, OrbitSpace, Hierarchy, OrbitIndices | `smol/cofe/space/*`: site spaces, site bases, orbit and function numbering, hierarchies, index tables |
| GroundVars, GroundTerms | `smol/capp/generate/groundstate/*` |
| Convergence | `smol/moca/analysis/convergence.py` |
| OrbitGen | clusters, geometric orbits and their generation from cutoffs (`smol/cofe/space/cluster.py`, `orbit.py`, `clusterspace.py`), in exact coordinates; symmetry operations and the search in a sphere are inputs |
| Chain, WLChain | `single_step` and the sampling loop as averages over all draws; Wang-Landau steps while the entropies are fixed (convergence of the entropies themselves, which change at every update, is not modelled) |
| ClassNames | `smol/utils/class_utils.py` and the factories of kernels, step types and biases; names in ASCII |
| Session | sublattice objects shared by an ensemble and the ushers of its samplers; `Sampler.from_ensemble` up to the choice of kernels and seeds; the natural parameters and metadata copied at creation. `TableFlip` left out (its copies are in C13) |
| Potts | `PottsSubspace`: generation, removal of last classes, decorations |
| Variance | `effective_cluster_weights`; mean and variance printed by `__str__` |
| SampleStats | species counts, compositions, their means and variances from selected samples |
| TraceStats | sampling efficiency, orbit factors |
| RandomOccu, Sqs | `smol/capp/generate/random.py`, `smol/capp/generate/special/*` |
| Wrangle, WranglerState, Select | `smol/cofe/wrangling/*` |
| WranglerObjects | wranglers sharing entry objects, dictionaries and subspaces; structure matching and correlations are arbitrary functions, refined structures left out |
| SubspaceState | `ClusterSubspace` with lazily stored data of orbits, `get_orbit_data`, evaluator and index arrays; orbits as one list in the order of `orbits`; site bases are abstract (site space, values, rotation, factory) and compared by identity; a rotated function array is seen through stored views; external terms left out |
| Diagnostics | `get_gram_matrix`, ranks, `get_constant_features`, `get_similarity_matrix`; `matrix_rank` is the rank (no numerical tolerance), condition numbers left out |
| ExpansionState | `ClusterExpansion` over the subspace of SubspaceState: `__init__`, `eci`, `cluster_interaction_tensors`, `predict`, `cluster_interactions_from_structure`, `prune`, `copy`, `_set_evaluator_data`, changes of `coefs` and `cluster_subspace` from outside; structures are given by occupancy and supercell, external terms by values; regression data left out (C44, C57) |
| Centroid | `get_nonneg_float_vertices`, `get_natural_centroid`, `get_centroid_composition`; null space, pseudoinverse, extreme points, emptiness and the integer solver are arguments with contracts; for flat or unbounded polytopes the contract of `extreme` is not claimed to hold |
| UsherConfig | constructors, `sublattice_probabilities`, `add_mcusher` and `propose_step` of Flip, Swap, MultiStep, Composite as live objects over shared sublattices; numpy's validation of `p` with an exact sum; one generator; TableFlip is in Usher |
| SubspaceSelect | `cutoffs`, `orbits_by_diameter` with its cache, `function_inds_by_size`, `orbits_from_cutoffs`, `function_inds_from_cutoffs`, `__eq__` of clusterspace.py; a diameter is a function of the orbit object; the dictionary is in order of size |
| SqsGen | constructor, `from_processors`, `_get_structure_processor`, `compute_score`, `generate`, `_sample_sqs` of sqs.py over the multicell kernel; a subspace is a number with its sizes and symmetries; determinants are exact; lattice reduction of results not modelled |
| HullWeights | `_pd`, `_energies_above_hull`, `weights_energy_above_hull` of cofe/wrangling/tools.py; pymatgen's `PhaseDiagram` by contract; tolerances of qhull and vacancies as species not modelled |
| TraceRun | `Trace`, `StepTrace`, the loops over names of `setup_sample`, `sample`, `save_sampled_trace`, names of all kernels, setter of the bias; shapes and dtypes not modelled, values of steps given from outside |
| ClusterIO | `Cluster` apart from symmetry and printing: construction, `copy`, `assign_ids`, `==`, distances, `as_dict`, `from_dict`, `to`, `from_str`, `from_file`; pymatgen's `Site.as_dict`/`from_dict` (a `Vacancy` becomes a `DummySpecies`) and the formats JSON and YAML by contract, compression of files left out |
| ProcObjects | constructors, `add_processor`, `as_dict`, `from_dict` of expansion, Ewald, distance and composite processors as objects with references; `add_external_term`; orbits of a subspace as a number, the saved Ewald summation and the match tolerance left out |
| Records | `Metadata`, the list of kernel specifications in the record of a sampler, `save_work`, `load_work`; monty's `jsanitize` and decoder by contract, order of attributes and `@version` left out |
| Reaction | `flip_vec_to_reaction`, `flip_reactions`, character by character; printed forms of species are a parameter; negative indices do not occur |
| WalkerStart | `setup_sample`, `_reshape_occu`, `set_aux_state`, the loop of `sample`, `save_sampled_trace`, for occupancies in arrays of one to four dimensions; steps of kernels are a parameter; rows of other lengths than the number of sites are left out |
| ThreadSettings | `SetNumThreads`, `SetMany` and their uses in `ClusterSubspace` and the expansion processors; warnings are left out; the maximal number of threads stays the same during a session |
| BasisIO | `as_dict` and `from_dict` of the site bases, `basis_factory` on names in ASCII, sessions of `orthonormalize`, `rotate`, save and load on the bases of SiteBasis; `tolist` keeps numbers; compositions are taken to survive pymatgen's dictionaries |
| SectionChoice | `choose_section_from_partition` and numpy's `Generator.choice` with probabilities, by cumulative sums and one uniform number; tolerances are parameters |
| LegacyContainer | `_from_legacy`, `from_dict`, `from_hdf5`, `as_dict`, `to_hdf5` and `get_energies` of `SampleContainer` with and without an ensemble; ensembles and samples are taken to survive saving (Serialize, Container); metadata is left out |
| MultiThermal | temperature, `kB` and `beta` of `MulticellMetropolis` and of its cells' kernels, which are taken to be different objects; hops are given by the cell hopped to; divisions by zero raise |

Not modelled: floating point rounding; symmetry analysis, structure matching and
Ewald sums (pymatgen, spglib); solvers
(cvxpy, MIP, LP) except through what they are given and what is done with their
answer; reporting helpers (`__str__`, metadata); file formats below the level of
datasets; notebooks and scripts.

For C59 the pymatgen functions `lattice_points_in_supercell`,
`Structure.make_supercell` and `coord_list_mapping_pbc` are modelled although
they are not in the repository, after their published source; that reading is
part of the trusted base for C59.

## Findings (code violates the property)

Proved, with the theorem that shows it:

* **Composite features** (C05_mixed_shapes_fail): `np.append(features[0],
  features[1:])` (composite.py:129,152) fails when the second, third, ... parts
  have features of different shape.
* **Repeated site in a step** (C06_repeated_site_fails): the chemical-work entry
  of the change is wrong.
* **Yielded traces** (C01_kept_traces_fail): `Sampler.sample` yields one and the
  same object.
* **Compound ushers** (C11_multi_of_mixed_fails, C11_table_inside_fails):
  `MultiStep(Composite(Flip, Swap))` is not symmetric; `TableFlip` inside
  `Composite`/`MultiStep` drops its a-priori factor.
* **Restrictions after building an usher** (C13_restrict_after_table_fails).
* **Splitting a fully restricted sublattice** raises
  (C16_split_after_full_restriction_fails).
* **Chemical potential table** not rebuilt by `reset_restricted_sites`
  (C17_reset_leaves_unpriced).
* **Container**: allocated unused rows are returned (C20_unused_rows_returned);
  the tail after the last full chunk is lost (C21_tail_lost), annealing with a
  remainder makes the next streaming run raise (C21_keep_remainder_raises), as
  does streaming after in-memory samples (C21_stream_after_memory_raises);
  minimum-energy occupancy of one selected sample or several walkers is wrong
  (C23_single_sample_fails, C23_walkers_fail).
* **Wang-Landau**: starts outside the window are accepted
  (C24_started_outside); mean features are wrong for `update_period > 1`
  (C26_update_period_fails).
* **Multicell**: remembered occupancies are overwritten
  (C28_memory_overwritten, C28_resumes_elsewhere).
* **Seeds**: `TableFlip` and named inner ushers draw from unseeded generators
  (C29_table_flip_fails, C29_named_inner_ushers_fail); charge-neutral random
  occupancies ignore the generator given (C53_neutral_not_seeded).
* **compute_snf** does not give a divisor chain (C31_not_a_chain).
* **solve_diophantines** accepts inconsistent redundant systems and loses
  solutions with two redundant equations (C32_inconsistent_accepted,
  C32_redundant_loses_solutions); the default right-hand side raises unless the
  matrix is square (C32_default_raises).
* **Composition grid**: reducing size and step by their gcd may reach a size
  without integer compositions and raise (C34_gcd_reduction_raises); a base
  solution may exist but not be found (C38_base_solution_missing).
* **Constraint manager**: the second assignment is ignored, unknown relations
  are dropped (C40_second_assignment_ignored, C40_unknown_relation_dropped).
* **Numbers in constraint strings**: a number at the start of a side followed by a sign is
  dropped (C39_leading_number_ignored), a sign at the end of a side counts as one
  (C39_trailing_sign), and since `np.isclose` is relative, numbers from 50001 on lose
  their fractions (C39_large_fractions_lost).
* C83: capitalisation is not ignored by `class_name_from_str` as documented: "FLIP" and
  "tableflip" select nothing (C83_case_not_ignored). A `KeyError` inside a constructor
  is reported as "not implemented" (C83_key_error_masked).
* C84: a sublattice all of whose sites are restricted when the sampler is made is left out of
  the usher for good; `reset_restricted_sites` does not bring it back (C84_reset_not_followed).
  `split_sublattice_by_species` after the sampler was made leaves the old sublattice in the
  usher, which then changes restricted sites (C84_split_not_followed). Stored metadata keep
  the chemical potentials of the moment the sampler was made (C84_metadata_stale).
* **get_sublattices**: a site is claimed twice when site spaces differ only in
  amounts or in an implied vacancy (C41_double_claim, C41_double_claim_vacancy);
  too short occupancies are encoded (C41_short_occupancy_accepted).
* **Prune** with a small constant or external coefficient misaligns
  coefficients or raises (C44_prune_misaligned, C44_prune_raises).
* **Hierarchies**: `min_size` ignored, `KeyError` for a removed size, no
  termination on cyclic tables (C48_min_size_ignored, C48_missing_size_raises,
  C48_complete_diverges).
* **Ground states**: cached occupancy after a second solve (C52_stale_occupancy);
  values truncated, not rounded (C52_truncated_solution).
* **Random occupancies**: code 0 for left-over sites and for sublattices without
  composition, `KeyError` for unnamed species (C53_leftover_gets_code_zero,
  C53_remaining_sublattices_zero, C53_missing_species_raises,
  C53_neutral_inactive_raises).
* **SQS**: continuing a search raises (C54_continue_raises_iff,
  C54_continue_new_raises), may lose the best (C54_lost_after_exception), keeps
  duplicates of earlier calls (C54_duplicates_kept).
* **Wrangling**: duplicate search compares too few columns
  (C55_matching_compares_too_little), `rm_external_terms=False` raises
  (C55_external_terms_raise), index sets not updated by removals
  (C56_removal_breaks, C56_not_updated), missing properties and weights are not
  checked (C63_missing_property_accepted, C63_weights_unchecked).
* **Temperature**: a refused assignment of 0 leaves temperature and beta
  inconsistent (C58_refused_assignment_inconsistent).
* **Selection**: `composition_select` does not end for as many samples as
  structures (C60_never_returns); `gaussian_select` raises for one sample
  (C60_gaussian_raises_iff); `full_row_rank_select` is not maximal
  (C64_not_maximal) and may select a zero row (C64_zero_first_selected).
* **Saving and loading**: ensembles with sublattices frozen or released after
  setting chemical potentials cannot be loaded or price sites differently
  (C57_ensemble_unloadable, C57_ensemble_work_differs,
  C57_ensemble_change_differs); unused rows of a container come back as samples
  (C57_container_differs); Potts subspaces lose one more decoration per orbit
  (C57_potts, C57_potts_differs); pruned expansions with regression data cannot
  be loaded or copied (C57_expansion_pruned); decomposition processors lose
  custom coefficients (C57_decomposition_differs).
- `rotation_array` of a binary site basis is wrong after an even number of
  rotations: basis.py:295 multiplies by the array that line 331 multiplies by
  again (C65_rotation_array_binary, _fails). `rotate` compares index numbers,
  so the last function can be rotated with itself as `-1`; by 60 degrees it
  becomes zero (C65_rotate_same_function, _destroys).
- `Orbit.rotation_array` is the change of basis only for orthonormal bases; for merely
  orthogonal ones it is off by the squared norms, even with no rotation at all
  (C66_needs_orthonormal). After an even number of rotations of a binary basis it is wrong by a
  sign (C66_rotation_array_fails).
- Distance processors lose `target_weights` and `match_tol` on loading, which can reverse the order
  of two occupancies (C67_reload_changes_ranking).
- `get_optimal_basis` may return independent rows that generate only part of the flips, which loses
  compositions (C68_optimal_loses_compositions, with three flips; impossible with two). An "ergodic"
  flip table need not connect all compositions (C68_not_ergodic; the docstring of
  `get_ergodic_vectors` says so, that of `flip_table` does not). A space with one composition raises
  (C68_single_composition_raises).
* **Convergence analysis**: fewer than ten samples require every running mean
  (C70_short_series); an even alternation between two values never converges
  (C70_two_values_never); the default `min_std` is absolute (C70_units_matter); a
  discard number of 0 is ambiguous (C70_zero_ambiguous) and the only answer for
  one increment (C70_single_increment).
* **Cutoffs**: neighbours are searched within cutoff + distance of the farthest
  *site* from the middle of the cell (clusterspace.py:1423-1437; the comment
  claims the maximum over all clusters), while centroids lie anywhere in the cell.
  For one site in the middle of a cubic cell and cutoffs 1.5 a for sizes 2 to 4 the
  regular tetrahedron of face diagonals is missing (C72_cubic_incomplete); with
  the origin on the site it is found. With a margin that covers the cell the
  search is complete (C72_complete_partial). A size without clusters of the size
  below raises `KeyError` (C72_gap_raises, C72_no_clusters_raises). `{1: 0}` does
  not exclude points as documented, `{1: None}` does (C72_point_entry_ignored,
  C72_points_excluded).
* **Potts subspaces**: "sum of corr for all labelings = 1" holds only with each
  correlation weighted by its number of equivalent decorations (C75_sum_fails,
  C75_sum_partial); `remove_last_cluster=True` removes nothing when only points
  are asked for (C75_removal_fails; `_wo_last_cluster` is still set, so that loading
  removes functions); `get_function_decoration(0)` returns decorations of the last
  orbit (C75_constant_fails).
* **Thinning at equal weights**: with `UniformlyRandom` or a constant enthalpy every
  flip of a binary site is accepted and the chain alternates between two halves of
  the states; with even `thin_by` only one half is sampled, for any number of
  samples (C76_thinned_fails). Otherwise thinned averages converge as well
  (C76_thinned_partial).
* **Printed spread of an expansion**: `ECI-based Property : mean std` is the mean and
  spread per cell of random occupancies only for orthonormal bases and supercells
  without coinciding clusters (C77_property_partial); it is printed for the default
  indicator basis as well, where both are wrong (C77_indicator_fails), and does not hold
  for small supercells (C77_aliased_fails).
* **Mean composition per walker**: `mean_composition(flat=False)` and
  `composition_variance(flat=False)` average over the walkers and return one value per
  sample, as `get_species_counts` transposes its arrays (C78_mean_over_walkers_fails);
  the sublattice versions average per walker. With a single selected occupancy
  `get_species_counts` raises if a sublattice has one species
  (C78_single_occupancy_raises), and `mean_sublattice_composition` is the number
  1 / number of species (C78_single_occupancy_mean_fails).
* **Orbit factors**: `get_orbit_factors` applies the mask of functions to the axis of
  samples: right for a single occupancy only (C79_orbit_factors_partial), otherwise
  an IndexError (C79_orbit_factors_raise) or, with as many samples as functions, sums
  over samples (C79_orbit_factors_fail).
* **Energies of samples** use the natural parameters the ensemble has when they are
  asked for: after chemical potentials are removed from the ensemble, `get_energies`
  returns the enthalpies of the earlier samples (C20_live_parameters_fail).
* **Fractional oxidation states** in a `CompositionSpace` are cut to integers
  (`get_oxi_state`), so "charge neutral" compositions are charged and neutral ones are
  refused (C80_fractional_charge_fails).
* **Coefficients with large denominators**: `rationalize_number` takes any fraction with a
  denominator up to 1000 within 1e-6; neighbouring fractions are closer than that, so
  1/1001 is silently taken for 1/1000 and the equation changes
  (C80_small_coefficient_fails).
* **Vacancies** that are not the default vacancy are unreadable after
  `refine_structure` (C61_other_vacancy).

Noticed while reading, outside the theorems:

* `MultiStep` with `step_probabilities` raises `AttributeError`
  (mcusher.py:257/274); an usher without active sublattices divides by 0.
* Metropolis: `log(rng.random())` raises if a draw is exactly 0.
* Kernel construction runs a step on the all-zeros occupancy, which may not be
  legal after a split.
* `np.allclose` on integer constraint counts tolerates an error of one above 1e5.
* `FugacityBias` compares a float sum with 1 exactly; too few or too many
  dictionaries are accepted.
* Container: `get_orbit_factors` indexes the wrong axis.
* Multicell: `self.kernel_p` for `_kernel_p` (base.py:503/542); stale bias on
  hops.
* `get_first_dim_extremes` checks the first solution after the second solve
  (math.py, near 478).
* `composition_select` takes `np.unique(..., axis=1)`: distinct columns, where
  distinct compositions (rows) are meant.
* Uniform amounts 1/n do not always sum to 1 in floating point, which raises for
  explicit vacancies or loses the implied one.
* `hasattr(self, "eci")` in prune evaluates a cached property.
* `is_sub_orbit` uses `np.all` of a generator, which is always true.
* `ClusterExpansion.from_dict` assigns a class attribute.
* `PottsSubspace` with point clusters only returns before removing the last
  decoration (clusterspace.py:1952-1953 against 1961-1964).
* `compute_average_drift` (processor/base.py) draws `rng.integers(self.size)`,
  the number of prim cells, where the number of sites is meant: other sites are
  never tried.
* Assigning `coefs` of an expansion after `eci` or
  `cluster_interaction_tensors` were read leaves these cached values stale.
* `EwaldProcessor` adds a default `EwaldTerm` to the subspace it is given if
  there is none.
* Sampling efficiency of thinned runs counts only the last of the thinned steps.
* `natural_params` of a kernel are captured when it is made; later changes of
  the ensemble's parameters are not seen.
* `DistanceProcessor.from_dict` pops keys from the dictionary it is given.
* A container without samples loses the dimensions of its trace on loading.
* Site bases without a rotation come back with `array(None)` as rotation.
* `Orbit.rotation_array` raises if `bit_combos` was never read.
* `remove_orbits([])` raises (`min` of an empty sequence).
* `cutoffs.pop(1)` removes the entry from the caller's dictionary.
* `Cluster.sites` hold the coordinates before the cluster is moved into the cell,
  `frac_coords` those after (cluster.py:55-66).
* Orbits of the size below are skipped beyond the cutoff without the tolerance 1e-8
  that new ones are given (clusterspace.py:1440, 1459).
* `sub_orbit_mappings` moves every cluster of the sub-orbit by the vector that fits
  its base cluster, and visits each cluster of the orbit with its sites in one order
  only, so that some mappings are left out (C73_mappings_left_out). Those left out
  differ from returned ones by a permutation of the cluster's sites, and
  `get_sub_function_ids` compares with all permuted rows of a function, so its
  answer is exact (C73_mappings, C73_sub_functions). The hypothesis of
  C48_sub_functions (mappings closed under the permutations of the sub-orbit) need
  not hold for the mappings returned; C73_sub_functions does not use it.
* `sub_orbit_mappings` tests membership with the default tolerance 1e-8 of
  `is_coord_subset`, elsewhere `SITE_TOL` (1e-6) is used: coordinates that differ by
  more than 1e-8 give no mappings, although `is_sub_orbit` holds, and a
  `RuntimeError`.
* The composite usher appends the specification of each part twice when it is made
  from a list (mcusher.py:357, 382).
* `utils/math.py:656` compares counts with `np.isclose`, whose relative tolerance
  1e-5 exceeds 1 for counts above 1e5.
* Wranglers with different subspaces that hold the same entry objects overwrite each
  other's rows (`C86_shared_entry`); `append_entries` keeps rows of another subspace and
  a subspace changed in place leaves old rows until `update_features`
  (`C86_stale_rows`); a raising `change_subspace` leaves rows of both
  (`C86_mixed_rows`).
* `process_entry` stores the caller's dictionary object (wrangler.py:781-791), so one
  dictionary passed for two entries gives both the value added last
  (`C86_shared_dictionary`).
* A verbose `add_entry` that raises because rows have different lengths has added the
  entry (`C86_raises_after_adding`).
* A feature that is zero on all selected structures makes the normalized Gram matrix
  hold NaN, although `get_gram_matrix` documents entries between -1 and 1
  (`C88_gram_nan_witness`).
* `get_similarity_matrix` uses `np.isclose`, which is relative to its second argument:
  the similarity of two features depends on which is asked for first
  (`C88_similarity_order_witness`).
* `ClusterExpansion.coefs` and `.cluster_subspace` can be changed without `eci`,
  `cluster_interaction_tensors` and the interactions in the evaluator following
  (`C89_stale_coefs_witness`, `C89_stale_bases_witness`,
  `C89_stale_functions_witness`); `prune(0)` or `copy()` repairs it (`C89_refresh`).
* `prune` with a constant below the threshold removes its coefficient but not the
  constant: it raises after functions and coefficients are gone
  (`C89_prune_constant_witness`), or, with one function left, does not raise and leaves
  interactions with the coefficient of the function as constant
  (`C89_prune_silent_witness`).
* `get_nonneg_float_vertices` takes a least squares solution as base point, so
  contradictory constraints give vertices that violate them instead of an error
  (`C90_inconsistent_witness`).
* `get_centroid_composition` minimizes the distance in coordinates, which depends on the
  basis: another composition can be nearer in counts (`C90_basis_dependence_witness`).
* Ushers keep the list of sublattices that were active at construction: sublattices
  restricted completely later are still picked and the proposal raises
  (`C91_restricted_later_raises`), sublattices reset later are never touched
  (`C91_reset_later_ignored`).
* Only number and sum of `sublattice_probabilities` are checked, so `[2, -1]` is
  accepted and every proposal raises (`C91_negative_accepted_witness`); the metadata
  keep the probabilities of the constructor (`C91_probabilities_in_force`).
* `Composite` accepts `sublattice_probabilities = ...` without any effect on its
  proposals (`C91_composite_set_without_effect`), drops ushers when fewer weights than
  ushers are given, raises for weights such as `[0, 1]`, and lists every usher twice in
  its metadata (`C91_composite_constructed`).
* `ClusterSubspace.__eq__` zips the orbits, so that a subspace can equal one with more
  orbits (`C92_eq_more_orbits`), and does not compare which functions of an orbit are kept
  (`C92_eq_other_functions`).
* `ClusterSubspace.orbits_by_cutoffs` calls `self.iterorbits()`, which is defined nowhere
  in smol: every call raises `AttributeError` (found by reading; not modelled).
* SQS generator: a matrix of the superlattice of a processor raises `KeyError` unless its
  rows are the same (`C93_same_lattice_not_found`); processors with left-handed matrices
  are accepted but raise when looked up (`C93_left_handed`); only the first processor's
  subspace is compared and `from_processors` ignores `target_vector`
  (`C93_mixed_processors`).
* With one supercell shape and a hop due in the first step (`kernel_hop_periods=1`) the SQS
  search continues from the zeros the kernel was constructed with, so structures of another
  composition are kept (`C93_one_shape_hop`).
* `compute_feature_distance` returns the feature vector of the processor, not a distance
  (found by reading).
* `weights_energy_above_hull` mixes the structures with artificial elements at 1000 above the
  highest energy per atom. With energies spread over thousands of eV (codes with all
  electrons) these lower the hull: a structure on the hull of the given structures is put
  more than 5000 eV per atom above it (`C94_artificial_entries`).
* Assigning `kernel.bias` on a sampler that was made without a bias is accepted, but the
  container has no place for it: every later run raises `AttributeError` and saves nothing
  (`C95_late_bias`). Kernels of a multicell kernel may not differ in having a bias, although
  the documentation says so (`C95_multicell_mixed_bias`). A bias cannot be removed, and the
  metadata keep the bias of the constructor (found by reading).
* `Cluster.from_dict` leaves out the species that were vacancies instead of making vacancies of
  them (`C96_vacancies_lost`); with the default vacancy the site space adds it again
  (`C96_offered`), another one is no longer offered. Copies and loaded clusters have species in
  equal shares and no id (`C96_copy`, `C96_reload`).
* `Cluster.to` writes YAML files under the base name in the working directory
  (`C96_yaml_misplaced`), lets the name `.json` win over `fmt="yaml"` and raises without
  arguments, although documented to give JSON (`C96_format_ignored`).
* `EwaldProcessor` adds an Ewald term to the subspace object it is given. A composite that
  accepted a processor over an equal but other subspace object can then no longer be loaded
  (`C97_unloadable`; exact condition in `C97_reload_composite`), and a distance processor over the
  subspace neither (`C97_distance_stale`). `DistanceProcessor.from_dict` takes the entries out of
  the dictionary it is given, so that it works once (`C97_dict_consumed`).
* `Metadata.as_dict` calls `jsanitize` without `recursive_msonable`: records in lists are saved as
  their printed text (`C98_listed`), among them `kernels` of every sampler (`C98_kernels_lost`),
  `steps` of composite ushers and `mckernels` of multicell kernels.
* `save_work` opens the file before encoding: an object that cannot be encoded (for example regression
  parameters that hold an estimator) destroys the work that was in the file (`C98_work_lost`).
* A sampler of several multicell kernels given one occupancy, or one for each cell, runs only the
  first kernel; numpy repeats its row when the sample is saved, so that all walkers seem to have
  run the same chain (`C100_walkers_repeated`). Arrays of shape (walkers, cells, sites) are
  refused, although `setup_sample` has a branch for three dimensions (`C100_walker_cells_refused`).
* `num_threads=None` for a processor is documented to take the number of the cluster subspace
  (expansion.py:79-82), but only `num_threads_full` does; local changes run with the default number
  whatever the subspace has (`C101_subspace_ignored`).
* `StandardBasis.from_dict` puts `np.array(None)` where a basis that was not orthonormalised has `None`:
  `orthonormalization_array is None` becomes false by loading (`C102_array_not_none`).
* `choose_section_from_partition` is documented to normalise weights, but weights that are all at most
  `1e-8` choose all sections alike, also those of weight zero (`C103_not_normalized`); weights that are
  all negative and at least `-1e-6` pass its check and choose by absolute values
  (`C103_negative_accepted`). `TableFlip` reaches neither: it swaps if all weights are close to zero.
* A legacy container loaded with an ensemble takes its natural parameters without comparing them with
  those saved, so that `get_energies` can give energies of other coefficients
  (`C104_parameters_unchecked`). Loaded without an ensemble, `to_hdf5` writes `null` for the ensemble and
  the file can not be loaded again, even if an ensemble is given; `as_dict` raises (`C104_lost`).
* `kB` assigned to a `MulticellMetropolis` does not reach the kernels of its cells, while temperatures do, so
  that steps and hops are accepted at different `beta` (`C105_constant_not_passed`). The generator of special
  quasirandom structures assigns both (`C105_sqs`). A temperature assigned to one cell's kernel is reported
  by the multicell kernel while it is in this cell (`C105_cell_assigned`).
