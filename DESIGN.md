# Formal model of camilbancioiu/mbtk — design

## 1. Approach

The model is written in Lean 4 under `lean/Verif/`, one sub-directory per part of the Python
package.  Every definition that models code cites the file and lines in `/repo` it models, and says
where it simplifies.  Property theorems either live in `lean/Verif/Props/*.lean` or, for the newer
parts (`Data`, `Exp`, `Struct`), at the end of the module that models the code; each stands next to
a small specification that does not mention the model's helpers (`*/Spec.lean`, or a section
`Spec`), and next to `example`s showing that its hypotheses are met by a concrete, non-trivial case.

* Python exceptions are values of `Except Err` (`Verif/Py.lean`); operations that raise half-way
  return the changed object together with the exception (`Outcome`), so partial effects are visible.
* Dictionaries are association lists in insertion order (`dictGet`, `dictSet`, `dictAdd`).
* Sets whose iteration order matters are lists in an arbitrary order; theorems quantify over it.
* Unbounded loops and recursions are either well-founded (the measure is part of the proof) or take
  fuel together with a theorem that the fuel suffices, or that no fuel does (endless recursion).
* Integers are `Nat`/`Int`; probabilities are exact (`ℚ`, `ℝ`, or an arbitrary ordered field).
* Memoisation, counters, logs and caches are explicit state threaded through histories of calls.
* Crashes: a program is a list of atomic effects; a crash leaves the result of any prefix, possibly
  with a part of the next effect (truncated file, some of the parent folders).

Where the code does not satisfy the property a user would expect, the negation is proved on a
concrete witness, the part that holds is proved as a theorem (suffix `_partial` if it is weaker than
the property), and the finding is listed in section 5.

## 2. Trusted base

* Lean 4.33.0's kernel, and Mathlib's definitions used in statements (lists, finite sets,
  `Relation.ReflTransGen`, `Real.log`, `MeasureTheory.volume` for C38, `ProbabilityTheory.iIndepFun` and Lebesgue measure for C67, C68).
* Axioms: at most `propext`, `Classical.choice`, `Quot.sound`.  No axiom is added, nothing is
  admitted, no compiled evaluation (`native_decide`, `bv_decide`) is used; concrete witnesses are
  evaluated by the kernel (`decide`, `decide +kernel`, `rfl`).
* The hand translation from Python to Lean: nothing was executed; the only tie to the code is the
  reading of it, recorded in the citations.
* Behaviour assumed of the environment (each is a parameter or a definition of the model, not an
  axiom): numpy/scipy matrices hold exact values and index as lists do; a Matrix Market file gives
  back the matrix written to it; `pickle` gives back the state tuple handed to it; `random` is an
  arbitrary state machine (`Rng`), for C38, C67 and C68 an i.i.d. uniform sequence of reals; the file system is a
  dictionary of paths; `str.strip`, `str.split`, text-mode newlines and `int()` are modelled on
  character lists (for `int()` only ASCII digits).
* Floating point: in the modules under `Fp/` (C80 onwards) every operation on `float`s is followed by rounding
  to binary64, half to even, with subnormal numbers (`Fp/Binary64.lean`); overflow does not occur there, because
  all numbers are probabilities, counts or their reciprocals.  All other modules compute with exact numbers.
* Not modelled: rounding errors of `log`, wall-clock timings,
  progress printing, plotting, the lark parser generator (its result is determined by the grammar, C110), threads (and
  processes, except several processes running one experiment in C90), sklearn classifiers, scipy's chi-squared CDF (an arbitrary function in C31/C34).

## 3. What is modelled

| module | code | modelled | not modelled |
|---|---|---|---|
| `Py` | — | exceptions, dictionaries, Python slices | |
| `ADTree/*` | structures/ADTree.py, DynamicADTree.py, ContingencyTree.py, adtree-server.py, tests/ADTreeClient.py | construction with leaf-list threshold and MCV elision, `query`, `query_count`, contingency trees, `make_pmf`, `make_cpmf` inputs, pickling, dynamic expansion, node counters, the server and its clients, `ADTree__debug.py` (C99) | debug printing, timing |
| `Graph/*` | BayesianNetwork.py graph part | `as_directed_graph`, `as_undirected_graph`, `from_directed_graph`, three path searches, the memo of the cached one, `d_separated`, `conditionally_independent` | |
| `BN/*` | BayesianNetwork.py, VariableNode, ProbabilityDistributionOfVariable | finalization, IDs, sampling order, joint PMF, partial joint PMF, subnetworks, sampling, CPTs | |
| `Bif/*` | utilities/bif/Grammar.py, Transformers.py, `read_bif_file`/`parse_bif_file` of BayesianNetwork.py | the grammar: terminals, tokens, layout, which texts derive which document, a recursive-descent parser proved exact, the tree of a document; all transformers callback by callback, the pickle cache with crash points | lark itself (trusted to return the tree of a derivation, or to raise if there is none); `float()`/`int()` of tokens are arbitrary functions |
| `MB/*` | demo.py (the series of discoveries), algorithms/mb/iamb.py, ipcmb.py, pcmb.py, setcache.py | all loops, for an arbitrary CI test and heuristic, with arbitrary set iteration order | ks.py is empty |
| `Stats/*` | math/PMF.py, Variable.py, infotheory.py, CMICalculator.py, DoFCalculators.py, CITestResult.py, DSeparationCITest.py, BNCorrelationEstimator.py, algorithms/basic/IGt.py, the G-tests | PMFs, CPMFs, marginalisation, conditioning, instances lists, MI/CMI, the three G-test implementations with their caches, logs and joint-entropy table, all DoF calculators, IGt | chi-squared CDF, timings, number formatting |
| `Data/*` | dataset/DatasetMatrix.py, ExperimentalDataset.py, ModelBuildingExperimentalDataset.py, BinaryExperimentalDataset.py, sources/* | matrix/label operations, save/load, split, trimming, RCV1v2, synthetic and sampled sources | `get_matrix` of the ADTree server scripts, dense/sparse choice |
| `Exp/*` | utilities/LockablePath.py, experiment.py (commands, index selection), experiment/*.py, dataset/ExperimentalDatasetDefinition.py, experiments/experiment_dcmi/restructure.py, experiments/gtest_enum.py, experiments/experiment_dsep/analysis.py, commands.py | locks, folder deletion, experiment runs with crash points, several processes running one experiment at the same time, building and loading experimental datasets, evaluation counts, `--index`, the set-ups of both experiments (arguments, run parameters, tags, preloading), summaries and plot data of the dcMI experiment, summary of the d-separation experiment with its LaTeX row and histogram | argument parsing, `--key`, the layout of other printed text |
| `Fp/*` | math/PMF.py, CMICalculator.py, BayesianNetwork.py, infotheory.py, algorithms/basic/IGt.py, G_test__unoptimized.py, G_test__with_AD_tree.py, G_test__with_dcMI.py, ADTree.py (make_pmf) again, with rounding | probabilities of data, mutual information and selection of features (`math.log2` assumed accurate to 2⁻⁵² relative), instances lists, `==`, `min_instance_count_for_accuracy`, samples, joint PMFs and exact data of networks, sessions of the unoptimised G-test, of the G-test with an AD-tree and of the G-test with dcMI (`math.log` assumed accurate to 2⁻⁵² relative, `sum` of floats accurate to two roundings per element, which left-to-right addition is proved to meet, `chi2.cdf` arbitrary) | overflow |
| `Struct/*` | structures/ContingencyTable.py, ContingencyTree.py 4-25, 69-128 | all operations on counts and columns; tree arithmetic on a heap of nodes (sharing is visible), with the recursion limit as a parameter | printing |

## 4. Per-property plan and outcome

| id | what is modelled | proof |
|----|------------------|-------|
| C01, C03, C07 | `ADTree`/`ADNode`/`VaryNode` construction and queries | representation predicate node↔rows, induction on the query |
| C02 | same with the `DynamicADTree` overrides, state threaded | predicate preserved by every query; induction on the history |
| C04, C05 | contingency trees, `make_pmf` | uniform-depth invariant, lookups = counts |
| C06 | `__getstate__`/`__setstate__` as a tree map | predicate preserved; inside the session theorem too |
| C08 | counters threaded through construction and expansion | invariant over histories |
| C09, C10 | path searches (recursive, cached, stack machine) | sound and complete for simple paths; simulation of the stack machine |
| C11 | directed/undirected views | dictionary invariants |
| C12–C15 | path blocking | induction along paths; d-separation specified by open paths and descendants. C13 is false of the code (only children of a collider are looked at): counterexample and `_partial` |
| C51 | memo table of the path search, kept when the graph is replaced | the answers of every history determined exactly; the claim itself is false: witness and `_partial` |
| C16–C18, C52 | IAMB over an arbitrary test and heuristic | loop invariants; graph lemma (the blanket shields) for the d-separation instance |
| C19–C21 | IPC-MB with arbitrary iteration order | loop invariants, local Markov lemma. C20 is false for the shipped test: witness and `_partial` |
| C22 | SetCache | refinement to a map on finite sets |
| C23, C24 | IGt sort/slice; binary MI | sort lemmas; algebra over ℝ |
| C25–C29, C53, C59 | PMF/CPMF dictionaries, key flattening | list sums, induction. C27 is false for one remaining variable: witness and `_partial` |
| C30–C34 | CMI, G-tests, caches, DoF, logs | Gibbs inequality; cache invariants; sessions |
| C35–C38 | BN ordering, joint PMF, partial PMFs, sampling | termination measure, product/sum exchange, Lebesgue measure on the unit cube |
| C39 | DatasetMatrix operations | refinement to a table of labelled samples; induction on the history |
| C40, C54 | label files, Matrix Market files, crash points | string lemmas; prefixes of the write list |
| C41, C42 | split and trimming | permutations; commuting of projections |
| C49 | RCV1v2 line state machine, matrix filling | induction on lines; text round trip |
| C50, C55, C56 | synthetic and sampled sources, seeding | arbitrary generator; permutations |
| C43, C45 | locks and folders | invariants over histories of several definitions sharing folders |
| C44, C57 | experiment runs | effect lists, crash states, induction over attempts |
| C58 | `ExperimentalDatasetDefinition`-driven build/load | effect lists, crash states |
| C46, C47 | evaluation counts, index parsing | induction, digit lemmas |
| C48 | ContingencyTable | sums over dictionaries |

Properties appended later are described in section 6.

## 5. Findings (the code as it is)

Proved (theorem in brackets) unless marked *(read)*, which means observed while reading.

*AD-tree and contingency*: a dataset smaller than the leaf-list threshold raises TypeError
(`adtree_small_dataset_raises`); the value −1 is lost from PMFs because −1 marks the MCV
(`adtree_minus_one_is_lost`); an empty dataset raises (`adtree_empty_dataset_raises`).
ContingencyTable: with columns not in increasing order `marginalize_column` removes the wrong
column (`marginalize_removes_wrong_column`); `set_column_order` with part of the columns loses
counts (`partial_order_loses_counts`).

*Graphs*: `d_separated` is not d-separation, only the children of a collider are consulted
(`d_separated_not_d_separation`); stale paths after the graph is replaced
(`path_cache_stale_after_reload`); the two path searches differ when start = end or the start is
unknown (`path_searches_differ`).

*Markov blankets*: IPC-MB with the shipped test is not exact (`ipcmb_shipped_not_exact`); IAMB with
the path-length heuristic can raise (`iamb_bn_heuristic_raises`). PCMB: the candidate set of
`GetPCD` is always the single dependent variable least correlated with the target
(`pcd_is_the_weakest`); `discover_mb` returns the empty boundary or raises, and never returns a
variable (`pcmb_outcome`, `pcmb_never_finds`); a target independent of everything raises ValueError
(`pcmb_isolated_raises`).

*PMFs*: conditioning down to one variable stores 1-tuple keys that `p()` cannot address
(`condition_on_single_unreachable`); `create_instances_list` emits zero-probability instances and
recurses on the empty PMF (`create_instances_list_zero_emitted`, `create_instances_list_empty`);
lazily loaded joint variables of unequal length are not validated (`joint_lazy_not_validated`);
`==` is not transitive, distinguishes absent from zero-probability keys, ignores the probabilities of
one-element-tuple keys and cannot tell large samples apart (`pmf_eq_not_transitive`, `pmf_eq_zero_key`,
`pmf_eq_blind_on_single_tuples`, `pmf_eq_large_samples`); `min_instance_count_for_accuracy` can be too
small (`min_instance_count_not_accurate`), and the `exact` dataset can hold impossible samples
(`exact_dataset_impossible_sample`);
`sum_over` of the only variable raises (`sum_over_single_raises`).
`JointVariables` drops Omega and index variables silently, the `SortedJointVariables` constructor is
broken *(read)*.

*CI tests*: an integer logarithm base fails an assertion (`integer_base_raises`); dcMI refuses the
structural DoF calculator (`dcmi_structural_raises`); a joint-entropy table loaded without its DoF
cache raises KeyError (`reload_without_cache_raises`); binary MI is wrong (may be negative) on
non-binary data (`mi_binary_not_binary`); a negative `Q` slices from the end (`igt_negative_Q`).
Test indices start at 0 for `DSeparationCITest` and at 1 for the G-tests;
`DSeparationAsCorrelationHeuristic.end()` raises AttributeError; `BNCorrelationEstimator` returns 0
without logging *(read)*.

*Bayesian networks*: PMFs of single-variable networks and of a single root cannot be queried
(`joint_pmf_single_variable_unreachable`, `partial_pmf_of_root_unreachable`); finalizing twice makes
the joint PMF recurse endlessly (`finalize_twice_breaks_joint_pmf`); a subnetwork of a subnetwork
raises KeyError (`partial_pmf_of_subnetwork_keyError`); the ordering loop never ends on cycles or
unknown parents (`sampling_order_cycle`, `sampling_order_terminates_iff`); a roll beyond the total of
a row raises TypeError, roll 0 selects an impossible first value, recursive sampling raises
AttributeError (`roll_beyond_total_is_typeError`, `zero_roll_selects_impossible_value`,
`recursive_sample_attributeError`).

*Datasets*: `keep_rows` with unsorted, repeated, out-of-range or negative rows misaligns or corrupts
(`keep_rows_*`), `delete_columns_*` with negative indices corrupts
(`delete_columns_negative_corrupts`), a selection from a finalized dataset cannot delete
(`selected_from_final_cannot_delete`); an empty last label is lost and a line break splits a label,
silently (`empty_last_label_lost`, `line_break_in_label_splits`); loading into a final object leaves
it CSR (`load_into_final_stays_csr`); a crash while overwriting loads a mix of two datasets
(`crashed_overwrite_undetected`); a negative training fraction is accepted, an empty part raises
(`negative_fraction_accepted`, `split_empty_raises`); RCV1v2: duplicate IDs raise IndexError, an
unknown feature type yields zeros, token lines starting with `.W` or `.I ` are misread
(`duplicate_request_indexError`, `unknown_feature_type_zeros`; the last is the exclusion in
`PlainLine`); synthetic source: a probability above 1 gives a misshapen dataset, no columns raise,
the configured seed passed later does not reseed (`probability_above_one_misshapen`,
`synthetic_no_columns`, `configured_seed_not_reseeded`); sampling zero instances raises IndexError
(`no_samples_indexError`). `ModelBuildingExperimentalDataset.build` ignores
`after_build__finalize_and_save=False`; its `save` refers to an exception that is not imported
*(read)*.

Variables of a dataset that is not final are loaded when first read, so after a deletion a variable
can carry the data of another column (`lazy_variable_misnamed`).

*BIF*: the cache is not invalidated when the file changes (`bif_cache_stale`); a crash while writing
it makes every later cached read raise (`bif_crash_blocks_cache`); the declared number of values is
not checked (`bif_value_count_ignored`); of repeated declarations the last wins silently (part of
`bif_read_exact`). A variable without probability block keeps `probdist = None`, finalizing raises
AttributeError *(read)*.

*CMI from the network*: with `X > Y` the joint probabilities are looked up transposed: two independent
coins have CMI `log 3 / 4` (`cmi_source_argument_order`).
- Because `d_separated` only looks at the children of a collider, the graph oracle reports variables as
independent that determine each other (`graph_oracle_wrong`, an XOR network).

*Test results*: `==` on a new result raises TypeError (`eq_fresh_raises`), depends on the order of the
conditioning set (`order_counts`), is not transitive (`eq_not_transitive`); the integer −1 is shown as
`unnamed`, the variable −1 as `-1` (`unnamed_differs`).

*Commands*: `exp-def show` makes the folder it reports on and so always reports `folder_exists: True`
(`exp_def_show_exact`), after which `exp delete` of an experiment that never ran succeeds
(`delete_after_show`); `exds lock` of a missing folder raises while `exp lock` makes it
(`lock_missing_folder`); a dataset that is not locked is never ready and is built again by every
`exds build` and `exp run` (`exds_without_lock_rebuilt`); `command_parameters_show` cannot be reached and
would raise *(read)*.

*Summary of the d-separation experiment*: the average size of the conditioning sets is that of their texts
(`condset_average_overestimates`: 1 for unconditional tests, at least three times the truth for two or more
variables); a target with an empty true blanket, an experiment without tests, an unchecked test stop the
command (`summary_errors`); on the network source precision, recall and distance are all reported as 0
(`summary_exact`).

*Set-up of the d-separation experiment*: the format of the sample count is never checked because a string is
compared with the list `['ds']` (`format_never_checked`); `1e3` and `1000` give the same data twice
(`datasets_kept_apart`). The dcMI experiment and three other scripts cannot start at this commit: they call
`read_bif_file` of a module that does not have it *(read)*.

*Runs with a classifier*: an empty blanket ends the run (and the experiment) with `ValueError`, because `select_columns_X([])` raises (`empty_blanket_raises`); the blanket is discovered in the whole dataset, so test samples take part in learning (`test_data_leaks`).

*Run logs*: `MultiFileWriter.close` closes every destination but `sys.__stdout__`; if `sys.stdout` was replaced (captured output) and runs are logged to it, which is the default, the first run that ends closes it and the experiment ends with `ValueError` (`redirected_console_closed`).  The repository's test of log files switches logging to the console off.

*Sampling in floating point* (C81): the cumulative sums of 0.29, 0.57, 0.08, 0.06 end at 1 - 2^-52 in binary64, so the
largest value of `random.random()` (1 - 2^-53) selects no value and `sample()` raises a `TypeError`; a first value of
probability zero is drawn for the random number 0.0, because the comparison is `<=`.


*The dcMI test in floats*: the statistic is a difference of four rounded entropies and nothing keeps it from being slightly negative (the other two tests take the absolute value); the proved bound is two-sided.

*Contingency trees*: `a.sum(b)` and `a.subtract(b)` reuse, not copy, the subtrees of `a` that `b` lacks (ContingencyTree.py 75-81), so a later `sum_in_place` on the result changes `a` (`sum_shares_subtrees`); paths only `b` has are dropped, so `sum` is not commutative (`sum_drops_paths`). The AD-tree uses only `subtract_in_place` on fresh trees and is not affected.

*Summaries of the dcMI experiment* (C89): a summary that was shown before the results were there ('No CI tests found') is shown for good unless `--refresh` is given (`stale_summary`); a tag without tests in the middle of the sorted tags shifts the legend of the plot, so that a misspelt tag is shown with the line of another (`wrong_legend`).

*Several processes* (C90): `run` looks for the lock only at its beginning and sets it at its end, so two processes can both run the experiment: it can be locked while a data point is empty (`locked_while_incomplete`), locked for good with an incomplete data point or one with zeros if the second process dies (`locked_incomplete_after_crash`, `zeros_after_crash`), and results that differ in length can be mixed in one file (`mixture_of_results`).

*Memoised methods* (C91): after a row of a table is changed, `create_joint_pmf` goes on giving the old distribution if it was called before, while `create_partial_joint_pmf` for new tuples gives the new one (`old_joint_new_partial`); samples follow the change only after some partial distribution was asked for (`partial_query_changes_samples`); `pmf.IDs(...)` on a returned distribution changes what later calls return (`relabel_is_remembered`).

*Repeated tests*: IAMB can repeat the last test of its growing phase in the shrinking phase, and IPC-MB's symmetry check makes tests again with the roles of the variables swapped (`iamb_can_repeat_a_test`, `ipcmb_repeats_tests_swapped`): no result is remembered between `RecognizePC` calls.

*Restructuring*: when a non-empty data folder exists at both the old and the new place, `rename` raises an `OSError` that restructure.py does not catch: the script aborts and subexperiments listed later are not moved (`restructure_aborts_on_occupied`); the folder `dcMIEvExpII_` (no name after the prefix) replaces the shared data folders (`restructure_blank_name`); an existing lock file at the new place is overwritten silently; the plots of a subexperiment are not moved, although the set-up looks for them in the new folder (`plots_not_moved`).

*AD-tree server*: a request that is not `make_pmf` or `query_count` gets no reply, so the next `recv` violates the alternation of the REP socket and ends the server for all clients; an exception of the tree does the same (`unknown_request_ends_server`, `failing_request_ends_server`).

*Debug AD-tree*: `ADTreeDebug` ignores the requested leaf-list threshold (it passes 0 on), its node classes `ADNodeDebug`/`VaryNodeDebug` are never used (the base class does not call `get_ADNode_class`), so that the histogram of node counts and the leaf-list counters are never filled; `query_count_in_leaf_list_node` passes `self` twice and would raise `TypeError`, but cannot be reached. The number of queries printed after a CI test is always 0, because `make_pmf` resets it and makes no query (`debug_tree_reports_no_queries`).

*Debug G-tests*: the unoptimised and the dcMI `G_test_debug` pass the Boolean answer to `print_ci_test_result`, so that with `ci_test_debug >= 1` every decided test raises `AttributeError` (`unopt_debug_test`); the dcMI one reads `self.debug` before it is set and cannot be constructed at all (and its `get_joint_entropy_term` returns `None`); the AD-tree one prints before the d-separation is looked up, so that every result counts as inaccurate and `ci_test_results__print_accurate` has no effect; with `ci_test_debug >= 2` and a given plain tree its constructor raises, leaving the tree unusable for debug tests (`ad_debug_poisoned_tree`).

*Sharing entropies*: `ci_test_jht_preloaded` must have been through `end()` with `ci_test_jht_path__save` set, otherwise it has no `'reads'` entry and the next test object raises `KeyError` (`shared_jht_needs_save_path`).

*ContingencyTable*: `duplicate` after `set_column_order` loses the positions, so that `marginalize_column` of the copy removes another column (`duplicate_loses_order`); `append` with a value that already has rows replaces counts instead of adding them (`append_replaces_counts`), and with `None` sets no columns (`append_none_no_columns`).

*Distributions of nodes*: `==` iterates over the names of the conditioning variables and reads `.values` of a string, so that comparing two conditioned distributions with equal tables raises `AttributeError` (`distribution_eq_exact`, `distribution_eq_copy`); `get_nodes_by_name` before `finalize()` keeps one node only (`nodes_by_name_unfinalized`).

*d-separation test*: `extra_info` of its results is a number, and `str(result)` appends it to a text: printing a logged result raises `TypeError` (`dsep_logged_unprintable`); `DSeparationAsCorrelationHeuristic.end` reads an attribute that does not exist (`dsep_end`).

*AD-trees*: static nodes are pickled without their level, so that `to_latex()` of a loaded tree raises `AttributeError` (`to_latex_loaded`).

*Variables*: `SortedJointVariables` cannot be constructed (`sorted_joint_never`); `JointVariables` drops `Omega` and index variables without an error (`joint_members`, `joint_degenerate`).

*Correlation estimator*: a call that returns 0 is not recorded (`compute` returns before appending), so the saved heuristic results cannot be matched one to one with the calls; two unconnected variables raise `ValueError` if `Z` is empty but give 0 if it is not (C109).

*BIF text*: a file that was cut off before its probability blocks is read without an error, as a network whose variables have no distribution; values such as `0.5`, comments and properties of several words are refused, although the BIF format has them; keywords need no space after them (`networkx{}`) (C110).

*Printed accuracy* (C112): from 20000 tests on, `summary` prints `100.0%` accurate tests although a test is wrong (`hundred_percent_with_errors`).

**C115.** `mpprint` (mpprint.py 8-12) acquires its lock without `try`/`finally`: an argument that is not a text raises `AttributeError` with the lock held, and every later call of `mpprint` in any process waits forever (`lock_lost`).

**C116.** `shorten_path` (mbtk/utilities/experiment.py 29-39) gives the same text for `Root/x` and `Root.parent/x`, so the printed folders of two different set-ups can be the same (`shorten_ambiguous`).

*Experiments*: locks are per subexperiment: deleting through one subexperiment removes locked data
of the others, `delete_subfolder('locks')` removes all locks (`delete_folder_removes_locked_sibling`,
`delete_subfolder_removes_sibling_data`, `delete_locks_subfolder_unlocks_all`); asking whether a
folder is locked creates folders (in `is_locked_iff`'s state); `LockablePath.delete_folder` refuses
with AttributeError (`base_delete_attributeError`); only the lock type `experiment` protects a run
(`other_lock_types_do_not_protect`); running a part of the parameters locks the whole experiment
(`partial_run_locks_experiment`); an unpicklable data point leaves a truncated file
(`pickle_failure_leaves_part`); a dataset folder locked before it is built is never built, without
auto-lock it is always rebuilt (`locked_before_build_never_built`, `unlocked_always_rebuilt`);
`--index -1` selects nothing, a third part of `a-b-c` is ignored (`select_negative`,
`select_ignores_rest`); a single prediction is broadcast (`evaluation_broadcasts`).
`MultiFileWriter.close` closes a replaced `sys.stdout`; `command_parameters_show` is broken *(read)*.

## 6. Properties appended later

| id | what is modelled | proof |
|----|------------------|-------|
| C60 | columns and lazily loaded variables of DatasetMatrix | a variable is a closure over the dataset object; stability over histories on the final dataset |
| C61 | PCMB | case analysis of the loops for arbitrary oracles: the outcome is determined; the expected property is false |
| C62 | BIF documents | document → tree → dictionaries; embeddings of declared variables; composition with the joint PMF of C36 |
| C63 | the pickle cache next to the BIF file | induction over histories of reads, crashes, edits, removals |
| C64 | CITestResult, HeuristicResult (`Stats/CiResult.lean`, `Stats/CiPrinted.lean`) | case analysis; decoding of the texts |
| C65 | CMICalculator with the network as source | event-wise masses of the partial joint PMF; the tables describe the distribution of the network; the identity of `infotheory` on correct tables (C22) |
| C66 | graphs of finalized networks, d-separation and the distribution | moral graph of the ancestral set: an open walk exists wherever the moral graph connects; sums of products factorise along a separation of the moral graph; composed with C11, C13, C17, C20, C65 |
| C67 | samples, sample_matrix | the k-th sample reads block k of the random numbers; blocks of independent uniforms are independent and uniform on the cube; volume of the event of one assignment (C12); product of volumes; strong law of large numbers for indicators of blocks |
| C68 | CMICalculator and the unoptimised G-test on sampled data | empirical frequencies of the data converge (C67); CMI is a continuous function of finitely many probabilities; statistic = 2·N·CMI (C22) tends to infinity where the CMI of the network is positive, degrees of freedom stay bounded; finitely many calls up to equality |
| C69 | IAMB and IPC-MB with the three G-tests on data | simulation between the run with a test object and the run answered by definition from the data: the algorithms ask only proper questions (invariant on candidates and on the cache of separating sets), every test object keeps its invariant (C31, C32, C34) |
| C70 | `sample_matrix` followed by `discover_mb` with the G-tests and the CMI heuristic | frequencies converge almost surely (C67/C68), so from some sample size on no test lacks data, no dependence is missed and CMI ranks dependent above independent candidates (`Telling`); with such one-sided answers both algorithms keep the whole blanket (`MB/Superset.lean`); C69 transfers this to every G-test |
| C71 | `handle_command` and every command, over the file system with locks and runs | per command, which entries it leaves as they are (`Intact`), then induction on the history of commands; listing after a run from the run theorem of C44 and the survival theorem |
| C72 | `PMF.__eq__`, `CPMF.__eq__`, `pmf_diff`, `cpmf_diff` with the tolerance and the key flattening of `p()` | unfolding to a pointwise statement on dictionaries; counterexamples for transitivity and one-element keys |
| C73 | `min_instance_count_for_accuracy`, `create_instances_list` with zero probabilities | rounding lemma; the loop over the sorted keys empties the budget exactly at the last positive key |
| C74 | `create_exact_instances`, `create_dataset_matrix` with its three branches | joint PMF = chain rule (C36), exact instances (C73), table of labelled samples (C39) |
| C75 | `create_exact_instances` followed by CMI, G-tests, `discover_mb` | frequencies in the data are the probabilities, so data CMI = network CMI; independence gives G = 0, dependence G growing linearly; a simulation restricted to proper questions carries the exactness theorems of C18/C20 over to the G-tests |
| C76 | `experiments/experiment_dsep/analysis.py` | loop invariant over the runs; counters as multisets; text length of conditioning sets from the representation of variables (C64) |
| C77 | `experiments/experiment_dsep/expsetup.py` | names built from parts without underscore: splitting at the first / last underscores is unique, so all names are injective |
| C78 | `AlgorithmRun.py` 8-98, `AlgorithmRunDatapoint.py` 8-24; algorithm and classifier are arbitrary functions | selection of columns (C39) computed for sorted indices; counts from C46; the loop over the parameters is a map |
| C79 | `MultiFileWriter.py`, output of `ExperimentRun.py` 22-115 as a sequence of writes to streams that may be closed | effect of one run as a relation on worlds that composes; induction over the runs |
| C80 | `PMF.py` 17-24, 124-166, 202-213 with every operation rounded to binary64 | relative error 2^-53 of one rounding (proved for the rounding function), integrality of counts |
| C81 | `BayesianNetwork.py` 70-95, 277-299, 564-625, 686-696, 730-745 with tables and cumulative sums rounded to binary64, 53-bit random numbers | error of the rounded cumulative sums by induction, monotonicity of rounding, counting of multiples of 2^-53, box of independent coordinates |
| C82 | `BayesianNetwork.py` 153-187, `PMF.py` 146-166, `SampledBayesianNetworkDatasetSource.py` 62-71 with tables and products rounded to binary64 | relative plus absolute error of a rounded product by induction over the recursion; counts are within 1/2 of whole numbers |
| C83 | `G_test__unoptimized.py` 45-147, `infotheory.py` 29-48, `PMF.py` 169-199 with every float operation rounded | the rounded run keeps the same keys and zeros as the exact run (simulation), with relative errors; the error of a cell is bounded by its weight, weights sum to one; sums by induction |
| C84 | `G_test__with_AD_tree.py` 79-214, `ADTree.py` 79-90 with every float operation rounded | simulation with a state: the rounded run goes through the same trees and caches as the exact one; then the error bound of C83 |
| C85 | `G_test__with_dcMI.py` 13-139, `PMF.py` 135-136 with every float operation rounded | error of a rounded sum by induction, per-term error bounded by the weight, weights sum to one; invariant on the table of entropies over any history |
| C86 | `ContingencyTree.py` 4-25, 69-128 on a heap | frame lemmas for trees on a heap, loop invariants relating finished children to the operands, induction on the depth |
| C87 | the algorithms of C69 with the tests of C83-C85 and `CMICalculator.compute` in floating point | simulation of the run with floats by the run with exact numbers, through worlds that refuse unclear questions; unique-maximum lemma for the scan of IAMB; the bounds of C83-C85 |
| C88 | arguments, run parameters, tags and preloading of the dcMI experiment | injectivity of the names by splitting at separators; induction over the list of runs and over the preloading loop; bounds of binary64 rounding for the sample count and the threshold |
| C89 | `summary show` and `plot create` of the dcMI experiment over the files that runs left | case distinction over the files with lemmas for the loaders; invariant 'the file of a summary holds what was shown last' over series of invocations; induction over the sorted tags for lines and legend |
| C90 | any number of processes running the same experiment, interleaved step by step, with deaths | invariant over schedules: either nobody opened the file, or the last who opened it has written a correct beginning at its position and everybody else writes correct pieces; monotonicity of the lock; explicit schedules for the findings |
| C91 | the memories of the network's methods, of its nodes and of its subnetworks, with edits of the shared tables | invariant (memories agree with the tables) for calls only; for edits: memories only grow, a computation is repeated from memory entry by entry (`jointC_replay`), results do not depend on the cumulative sums (`noSums`) |
| C92 | `sample_matrix`, CMI calculator, G-tests and discovery of C67/C68/C70, for a fixed number of samples | Hoeffding's inequality for the blocks of random numbers (`blocks_indep`, `block_deviation`), union over all assignments, a modulus of continuity of conditional mutual information (`Stats.Info.cmi_close`), degrees of freedom ≤ number of combinations |
| C93 | IAMB and IPC-MB of C09-C19, any world | a cost that CI tests and heuristics increase by bounded amounts, carried through every loop (`Costs`, `Part`); binomial sums for the cut set sizes; equality in worlds where everything is dependent |
| C94 | restructure.py on the file system of `Exp/Fs`, with a budget of operations after which the process is killed | every operation is one of six kinds of steps on what is in the repository; steps lose nothing, invent nothing and do not change what the final result is (`Restructured` has one solution); loops by invariants stable under steps |
| C95 | adtree-server.py and ADTreeClient.py as a transition system over any set of clients, with the AD-tree of C01-C06 | an invariant on who waits for what and where the request or reply is; a measure that every step of server or network decreases |
| C96 | infotheory.py (mutual_information) and IGt.py with every operation rounded to binary64 | relative error of each summand (absolute for the complement probabilities of the binary variant), induction over the sum, then a comparison of the orders that exact and rounded scores induce |
| C97 | BayesianNetwork.py (finalize, sample, sample_matrix) with every operation rounded and 53-bit random numbers, then the runs of C87 | a 53-bit number is coupled with the real number it is cut off from; both select the same value unless the real one is near a cumulative sum; laws of finitely many random numbers are products, hence equal; then C92 with a margin for the errors of C87, and a world that filters bad answers, simulated by the run |
| C98 | `ADTree/Size.lean`: on the tree model of C01-C08, whose representation invariant now also fixes the most common value and the order of the columns | every AD node holds at most half of its parent's rows (the most common value has no node); weighted node count bounded by induction on the number of halvings, binomial sums by the hockey-stick identity; dynamic against static tree by induction on the remaining columns |
| C99 | `ADTree/Debug.lean`: `ADTreeDebug` as a state monad over its counters, with the debug `query_count` at every recursive call; printing and the never-filled histogram are not modelled | simulation of the debug query by the plain one, including errors; counters by induction on the query and on the series of requests; bound by a geometric sum |
| C100 | `Stats/DebugTest.lean`: the debug G-tests around the models of C31/C34, with Python attributes of tree objects (a missing one raises) and the console as state | simulation of the plain test by the debug one, counting `make_pmf` calls, composed along the monadic code; induction on the calls |
| C101 | `Exp/GtestEnum.lean`: `itertools.combinations`, the generator, the dictionaries and the report, for any iteration orders of the sets; numbers as rationals | each test once by uniqueness of sublists; the figures by bijections with pairs, products and power sets; the report by an invariant of the flattening loop; the cost from C32 |
| C102 | `MB/Shared.lean`: the loop of `demo.py` around the discoveries of C69, with what is handed over as a store | invariant of the store (tree counts right, entropies and cached degrees of freedom those of the data), kept by each run through the simulation of C69; induction on the series |
| C103 | `Struct/ContingencyTable2.lean`: the remaining methods of the table of C48; keys after `finalize` are tuples or plain values | sums over dictionaries; dictionary of dictionaries as a partial function |
| C104 | `BN/Lookup.lean`: lookups as loops over dictionaries, sizes as products, distributions as objects with the attributes of `__init__` | dictionaries as partial functions; number of branches of the recursion of C36; case analysis on the short-circuit `and` |
| C105 | `Stats/CiText.lean`, `Stats/CiPrinted.lean`: `__str__` as a function of the attributes, number formats as parameters; a session of calls with an arbitrary network as oracle | case analysis; induction on histories of setters and on calls |
| C106 | `ADTree/Latex.lean`: `to_latex` as a mutual recursion with `'\n'.join` and `replace('\n\n', '\n')`; specification: the list of nodes in preorder, one line each | mutual induction with an invariant about the ends of texts that makes `replace` compositional; counters from C08 |
| C107 | `Stats/VarObjects.lean`: variables on a heap, loaders as arbitrary sequences of results, joint variables as lists of references | preorder `Later` on objects preserved by every use, induction on histories; induction on columns for `zip` |
| C108 | `Data/Compare.lean`: `diff` as successive appends and `strip` | reduction to five Boolean flags (all 32 combinations by the kernel), then case analysis on the parts |
| C109 | `MB/Estimator.lean`: constructor, `compute`, log, `end`; independent distance `Reach` | simple paths ↔ least number of links; induction over histories |
| C110 | `Bif/Text.lean`: terminals, tokens, layout, grammar as token sequences, recursive-descent parser; `Bif/TextRead.lean`: `parse_bif_file` of a text; the whole `survey.bif` as example | soundness and completeness of parser combinators; joining and cutting of spellings |
| C111 | `Bif/Discover.lean`: no new model; the headers of the text as specification | composition of C110, C62, C66, C19, C20, C75 through the correspondence of headers, declared nodes and edges between IDs |
| C112 | `Exp/NumberText.lean`: the formats `.pf` and `.p` of floats as texts, with a reader as specification; `Exp/SummaryText.lean`: percentage, LaTeX row, histogram | reading the text gives the number rounded to the shown places (exact arithmetic on digits); monotonicity of rounding; the float of 99.995 is above 99.995; bounds on log2 between powers of two |
| C113 | `Exp/GtestPrint.lean`: `Test.str`, `as_bits`, `Test.bits` as texts; readers as specification | induction over the features for the binary value; fixed places by lengths; `takeWhile`/`filter` of the line |
| C114 | `Data/Describe.lean`: the counts, labels and `info` of a dataset or of a new one | from C39 (histories keep the shape); the text of `info` is a prefix code: quoted strings decode uniquely |
| C115 | `Exp/Mpprint.lean`: processes with program counters, buffers and the lock; a schedule is a list of (process, step) | an invariant of all reachable states (one active process, what it has written); a measure for termination; prefix codes for the tags |
| C116 | `Exp/PathSet.lean`: POSIX paths as lists of parts, `relative_to`, the printed text | cases of the prefix relation; the text is split at line breaks and read back |
