{"id": "C01", "title": "AD-tree counts are exact", "statement": "For a dataset whose column_values list every value of each column once, and a leaf_list_threshold not exceeding the number of rows, ADTree.query_count(values) returns exactly the number of dataset rows that match every column=value pair of the query, for any query over existing columns (including values that never occur), whatever value was elided as most common at any level and whatever subtree became a leaf list.", "quantifier": "every integer matrix, every leaf-list threshold <= row count, every query dictionary over existing columns", "why_tests_cant": "The answer is reconstructed from elided most-common-value nodes by inclusion/exclusion; correctness depends on the whole matrix and tree shape, which cannot be enumerated.", "anchors": ["mbtk/structures/ADTree.py: ADTree.query_count, ADNode, VaryNode"]}
{"id": "C02", "title": "Dynamic AD-tree is transparent", "statement": "DynamicADTree.query_count returns the exact row count for every query, at every point of any sequence of earlier queries and contingency-table requests, i.e. lazily expanding the tree never changes an answer.", "quantifier": "every matrix, threshold, and every finite history of query_count/make_pmf calls", "why_tests_cant": "The tree is mutated by queries; the property ranges over all histories.", "anchors": ["mbtk/structures/DynamicADTree.py: DynamicADNode.get_Vary_child_for_column", "mbtk/structures/ADTree.py: ADTree.query_count"]}
{"id": "C03", "title": "AD-tree conditional probability is the frequency ratio", "statement": "ADTree.query/p(values, given) equals (#rows matching values and given)/(#rows matching given) whenever the conditioning count is non-zero, values overriding given on a shared column; it raises ZeroDivisionError exactly when no row matches given.", "quantifier": "every matrix, every pair of query dictionaries", "why_tests_cant": "Ranges over all data and all queries.", "anchors": ["mbtk/structures/ADTree.py: ADTree.query, ADTree.p"]}
{"id": "C04", "title": "AD-tree contingency tables are exact", "statement": "ADTree.make_pmf(variables) (and ADNode.make_contingency_table) over any non-empty set of distinct existing columns, on data that does not use the value -1, associates with every value combination exactly the number of rows that show it (explicitly, or by absence when the number is 0), in ascending column order, for static and dynamic trees.", "quantifier": "every matrix without the value -1, every threshold <= row count, every non-empty set of columns", "why_tests_cant": "Tables are obtained by subtracting subtrees in place; only an invariant over the whole construction shows no key is lost.", "anchors": ["mbtk/structures/ADTree.py: ADNode.make_contingency_tree, ADTree.make_pmf", "mbtk/structures/ContingencyTree.py: ContingencyTreeNode"]}
{"id": "C05", "title": "AD-tree PMFs sum to one", "statement": "Every PMF produced by ADTree.make_pmf has non-negative entries summing to exactly 1 (over exact arithmetic).", "quantifier": "every matrix with at least one row, every non-empty column set", "why_tests_cant": "universal over data", "anchors": ["mbtk/structures/ADTree.py: ADTree.make_pmf"]}
{"id": "C06", "title": "Pickling an AD-tree preserves its answers", "statement": "Saving and reloading an AD-tree (static or dynamic) keeps the answer to every subsequent query_count/make_pmf; what is dropped from the state (levels, row selections of non-leaf static nodes) is never needed by a static tree.", "quantifier": "every tree, every later query", "why_tests_cant": "ranges over all trees and later histories", "anchors": ["mbtk/structures/ADTree.py: ADNode.__getstate__/__setstate__, VaryNode.__getstate__/__setstate__", "mbtk/structures/DynamicADTree.py: DynamicADNode.__getstate__"]}
{"id": "C07", "title": "AD-tree construction never fails on a well-formed dataset", "statement": "Building a static AD-tree from a non-empty matrix with covering column_values terminates without an exception, and the root counts all rows.", "quantifier": "every non-empty matrix and threshold", "why_tests_cant": "universal over data", "anchors": ["mbtk/structures/ADTree.py: ADTree.__init__, ADTree.create"]}
{"id": "C08", "title": "AD-tree node counters", "statement": "After construction (and after every dynamic expansion) ad_node_count and vary_node_count equal the number of AD nodes and Vary nodes present in the tree; a dynamic tree never holds two Vary children for one column, and never has more nodes of a kind than were counted.", "quantifier": "every matrix, threshold, history of queries", "why_tests_cant": "ranges over histories", "anchors": ["mbtk/structures/ADTree.py: ADNode.__init__, VaryNode.__init__"]}
{"id": "C09", "title": "Path enumeration is exactly the simple paths", "statement": "BayesianNetwork's undirected path search between two nodes (recursive form) returns every simple path exactly once and nothing else, and terminates on cyclic (undirected) graphs.", "quantifier": "every finite undirected graph, every pair of nodes", "why_tests_cant": "The number of graphs is unbounded.", "anchors": ["mbtk/structures/BayesianNetwork.py: find_all_paths_recursive"]}
{"id": "C10", "title": "The two path searches agree", "statement": "The non-recursive generator yields the same paths in the same order as the recursive search whenever start and end differ, also when one end does not occur in any edge.", "quantifier": "every graph, every pair of distinct nodes", "why_tests_cant": "The generator is an explicit-stack machine; equivalence needs a simulation argument.", "anchors": ["mbtk/structures/BayesianNetwork.py: find_all_undirected_paths_nonrecursive, find_all_paths_recursive"]}
{"id": "C11", "title": "Undirected view of the network", "statement": "The undirected adjacency built from the directed adjacency is symmetric, sorted, duplicate-free, and links two nodes iff the network has an edge between them in either direction.", "quantifier": "every directed adjacency dictionary", "why_tests_cant": "universal over graphs", "anchors": ["mbtk/structures/BayesianNetwork.py: as_undirected_graph, from_directed_graph"]}
{"id": "C12", "title": "d_separated is symmetric", "statement": "d_separated(X,Z,Y) = d_separated(Y,Z,X) for every finalized network.", "quantifier": "every graph, X, Y, Z", "why_tests_cant": "universal over graphs", "anchors": ["mbtk/structures/BayesianNetwork.py: d_separated"]}
{"id": "C13", "title": "d_separated decides d-separation", "statement": "conditionally_independent(X,Y,Z) is true iff X and Y are d-separated given Z (every path is blocked, where a collider is open iff it or any descendant is in Z).", "quantifier": "every DAG, X, Y, Z", "why_tests_cant": "universal over graphs and conditioning sets (the shipped code violates it: only direct children of colliders are examined)", "anchors": ["mbtk/structures/BayesianNetwork.py: d_separated, is_path_blocked, is_node_collider"]}
{"id": "C14", "title": "d_separated never reports a false connection", "statement": "Whenever d_separated answers false (for X != Y) X and Y really are d-connected given Z; consequently it errs only towards independence.", "quantifier": "every DAG, X,Y,Z", "why_tests_cant": "universal", "anchors": ["mbtk/structures/BayesianNetwork.py: d_separated"]}
{"id": "C15", "title": "Adjacent nodes are never separated", "statement": "For an edge between X and Y, d_separated is false for every Z not containing X or Y.", "quantifier": "every graph, every conditioning set", "why_tests_cant": "universal", "anchors": ["mbtk/structures/BayesianNetwork.py: d_separated"]}
{"id": "C16", "title": "IAMB returns a well-formed blanket", "statement": "For any CI test behaviour and any heuristic, AlgorithmIAMB.select_features terminates and returns a strictly increasing list of feature indices, a subset of the dataset columns without the target.", "quantifier": "every CI oracle (including insufficient-data answers), heuristic and number of variables", "why_tests_cant": "ranges over all oracle behaviours", "anchors": ["mbtk/algorithms/mb/iamb.py: AlgorithmIAMB"]}
{"id": "C17", "title": "IAMB finds the true Markov blanket under the d-separation oracle", "statement": "With DSeparationCITest on any DAG and the d-separation heuristic, AlgorithmIAMB returns exactly the parents, children and other parents of children of the target.", "quantifier": "every DAG, every target", "why_tests_cant": "unbounded graphs; greedy search order", "anchors": ["mbtk/algorithms/mb/iamb.py: AlgorithmIAMB", "mbtk/math/DSeparationCITest.py", "mbtk/structures/BayesianNetwork.py: d_separated"]}
{"id": "C18", "title": "IAMB is correct for any faithful oracle and any sound heuristic", "statement": "If the oracle's answers satisfy: (a) every non-blanket variable is independent given any superset of the blanket, (b) whenever part of the blanket is missing the heuristic's best candidate is dependent, and (c) blanket members are dependent given any set that together with them covers the blanket, IAMB returns exactly the blanket.", "quantifier": "every oracle/heuristic meeting the three conditions", "why_tests_cant": "universal over oracles", "anchors": ["mbtk/algorithms/mb/iamb.py"]}
{"id": "C19", "title": "IPC-MB output is well-formed for every oracle", "statement": "AlgorithmIPCMB.select_features terminates without exception, and returns a strictly increasing list of feature indices without the target, for any CI oracle and any set iteration order.", "quantifier": "every oracle, every iteration order, every number of variables", "why_tests_cant": "ranges over oracle behaviours and hash orders", "anchors": ["mbtk/algorithms/mb/ipcmb.py: AlgorithmIPCMB"]}
{"id": "C20", "title": "IPC-MB finds the true Markov blanket under the d-separation oracle", "statement": "With DSeparationCITest on any DAG AlgorithmIPCMB returns exactly parents, children and spouses of the target, whatever the set iteration order.", "quantifier": "every DAG, every target, every iteration order", "why_tests_cant": "unbounded", "anchors": ["mbtk/algorithms/mb/ipcmb.py: AlgorithmIPCMB.IPCMB, RecognizePC", "mbtk/structures/BayesianNetwork.py: d_separated"]}
{"id": "C21", "title": "IPC-MB's candidate parents-children set", "statement": "RecognizePC(T) returns a superset of the true neighbours of T, and excludes every variable that some subset of the tested size range separates; all tests condition on subsets of the current adjacency, smallest sizes first.", "quantifier": "every oracle under which adjacent variables are never independent", "why_tests_cant": "universal", "anchors": ["mbtk/algorithms/mb/ipcmb.py: RecognizePC"]}
{"id": "C22", "title": "SetCache is an order-insensitive map", "statement": "After any sequence of add calls, SetCache.get/contains depend only on the set of elements of the key, a get returns the most recently added value for that set, and unknown keys are not contained.", "quantifier": "every history of add/get/contains", "why_tests_cant": "histories", "anchors": ["mbtk/algorithms/mb/setcache.py"]}
{"id": "C23", "title": "IGt selects the top-Q features", "statement": "AlgorithmIGt.select_features returns min(Q, number of features) distinct features and no unselected feature has a strictly higher score than a selected one (ties by sort stability).", "quantifier": "every score assignment and Q", "why_tests_cant": "universal", "anchors": ["mbtk/algorithms/basic/IGt.py"]}
{"id": "C24", "title": "Binary and general mutual information agree", "statement": "The specialised MI__binary computation equals the general MI of the two variables for all binary data.", "quantifier": "all binary columns", "why_tests_cant": "universal over data", "anchors": ["mbtk/algorithms/basic/IGt.py"]}
{"id": "C25", "title": "PMF is the relative frequency", "statement": "PMF(variable).p(v) equals (#occurrences of v)/(#instances), 0 for unseen values, and probabilities sum to 1 for non-empty variables.", "quantifier": "every variable", "why_tests_cant": "universal", "anchors": ["mbtk/math/PMF.py: PMF", "mbtk/math/Variable.py"]}
{"id": "C26", "title": "Marginalisation", "statement": "PMF.sum_over(variableID) yields the marginal distribution: each remaining key gets the sum over the removed position, total preserved, and marginalising two variables gives the same result in both orders.", "quantifier": "every joint PMF", "why_tests_cant": "universal", "anchors": ["mbtk/math/PMF.py: sum_over"]}
{"id": "C27", "title": "Conditioning", "statement": "condition_on yields conditional probabilities such that p(rest|given)*p(given) equals the joint probability for every key.", "quantifier": "every joint PMF, every split", "why_tests_cant": "universal", "anchors": ["mbtk/math/PMF.py: condition_on, CPMF"]}
{"id": "C28", "title": "Key flattening", "statement": "Joint keys nested by Cartesian products are flattened to plain tuples with the same leaves in order, for any nesting.", "quantifier": "every nested tuple", "why_tests_cant": "universal over nesting depth", "anchors": ["mbtk/utilities/functions.py: flatten", "mbtk/math/PMF.py: process_pmf_key"]}
{"id": "C29", "title": "create_instances_list returns exactly n instances", "statement": "PMF.create_instances_list(n) terminates and returns exactly n instances all drawn from the PMF's values, for every non-empty PMF whose probabilities are non-negative and sum to a positive number.", "quantifier": "every PMF and n", "why_tests_cant": "The redistribution recursion depends on rounding; universal over rationals.", "anchors": ["mbtk/math/PMF.py: create_instances_list"]}
{"id": "C30", "title": "Conditional mutual information is non-negative and symmetric", "statement": "The CMI computed from the joint, and the G statistic, are >= 0 for every dataset and do not depend on the order of X and Y; the value is 0 iff the empirical distribution factorises.", "quantifier": "all datasets", "why_tests_cant": "real analysis over all data", "anchors": ["mbtk/math/infotheory.py", "mbtk/math/CMICalculator.py"]}
{"id": "C31", "title": "All G-test implementations compute the same statistic", "statement": "The unoptimised (PMF product), AD-tree and dcMI (joint entropy) G-tests give the same G value over exact real arithmetic for every dataset and X,Y,Z.", "quantifier": "all datasets and all X,Y,Z", "why_tests_cant": "universal", "anchors": ["mbtk/math/G_test__unoptimized.py", "mbtk/math/G_test__with_AD_tree.py", "mbtk/math/G_test__with_dcMI.py"]}
{"id": "C32", "title": "Joint-entropy cache is transparent", "statement": "In the dcMI test, for any history of conditionally_independent calls, each value read from the joint entropy cache equals the entropy recomputed from data; hit/miss counters match the history.", "quantifier": "every history", "why_tests_cant": "histories", "anchors": ["mbtk/math/G_test__with_dcMI.py"]}
{"id": "C33", "title": "Structural degrees of freedom", "statement": "StructuralDoF computes (|X|-1)(|Y|-1) summed over the observed Z values counting only X/Y values seen with that z, at least 1, symmetric in X,Y; the cached variant always returns the same number as the uncached one.", "quantifier": "all datasets, histories", "why_tests_cant": "universal", "anchors": ["mbtk/math/DoFCalculators.py"]}
{"id": "C34", "title": "CI-test logs", "statement": "After any sequence of conditionally_independent calls the recorded results are in call order, one per call, indexed consecutively.", "quantifier": "every history", "why_tests_cant": "histories", "anchors": ["mbtk/math/G_test__unoptimized.py", "mbtk/math/DSeparationCITest.py", "mbtk/math/CITestResult.py"]}
{"id": "C35", "title": "Sampling order is topological", "statement": "The sampling order computed when finalizing a network lists every variable exactly once, after all of its parents, for every acyclic network, and the computation terminates.", "quantifier": "every DAG", "why_tests_cant": "universal", "anchors": ["mbtk/structures/BayesianNetwork.py: detect_optimal_variable_sampling_order"]}
{"id": "C36", "title": "Joint distribution of a network is normalised", "statement": "The joint PMF of a network has exactly one entry per assignment of declared values, equal to the product of the CPT entries the assignment selects; p() returns it for networks of two or more variables; if each table row is a distribution the entries are non-negative and sum to 1.", "quantifier": "every DAG and CPTs", "why_tests_cant": "universal", "anchors": ["mbtk/structures/BayesianNetwork.py: joint_values_and_probabilities, create_joint_pmf"]}
{"id": "C37", "title": "Partial joint PMFs are marginals", "statement": "p() of create_partial_joint_pmf(vars) equals, for every combination of values, the total probability in the full joint PMF of the entries agreeing with it on vars (only the ancestral closure being evaluated), whatever the iteration order of sets; the one exception is a single variable without parents, whose partial PMF stores one-element tuples that p() never finds.", "quantifier": "every DAG, CPTs, variable subset", "why_tests_cant": "universal", "anchors": ["mbtk/structures/BayesianNetwork.py: create_partial_joint_pmf, get_subnetwork_node_IDs"]}
{"id": "C38", "title": "Sampling a network", "statement": "For normalised tables sample() never fails, assigns exactly one declared value to every variable, namely the one whose inverse-CDF interval contains that variable's roll given its sampled parents; with independent uniform rolls every assignment is sampled with exactly its joint probability.", "quantifier": "every DAG network and every roll sequence", "why_tests_cant": "random choices", "anchors": ["mbtk/structures/BayesianNetwork.py: sample, sample_roll"]}
{"id": "C39", "title": "Dataset rows, columns and labels stay aligned", "statement": "Take any sequence of row/column deletions, keeps, selections, finalize and unfinalize calls with meant arguments (keep_rows given strictly increasing valid indices, deletions given valid indices). Afterwards every remaining cell is the one the original dataset held for the same sample label and column label; nothing else was lost; selections do not change their source; and once final every deletion raises and changes nothing. Arguments outside that range are shown to break the alignment or corrupt the object.", "quantifier": "every operation sequence, every dataset", "why_tests_cant": "histories", "anchors": ["mbtk/dataset/DatasetMatrix.py"]}
{"id": "C40", "title": "Saving and loading a dataset matrix", "statement": "load returns the dataset that was last saved under the label, value for value, after any saves of other datasets, for any finalized dataset whose labels have no line breaks, no surrounding white space and no empty last label; a list of labels survives exactly under these conditions; saving a dataset that is not final raises and writes nothing.", "quantifier": "every finalized dataset, every sequence of saves before and after", "why_tests_cant": "universal over datasets and histories of saves", "anchors": ["mbtk/dataset/DatasetMatrix.py: save, load, __eq__"]}
{"id": "C41", "title": "Train/test split is a partition", "statement": "For every permutation that random.sample can produce, the split puts every row in exactly one of train and test, both sorted, train has int(N*fraction) rows, and the two matrices hold exactly the samples of those rows; if one set would be empty ValueError is raised.", "quantifier": "every dataset, permutation and fraction", "why_tests_cant": "random permutations", "anchors": ["mbtk/dataset/ModelBuildingExperimentalDataset.py"]}
{"id": "C42", "title": "Threshold trimming", "statement": "After building a binary dataset with trimming, exactly those features and objectives remain whose share of non-zero values lies within the thresholds in the full, the training and the test samples; the three matrices have identical columns and the train/test matrices hold exactly the train/test rows of the trimmed full matrix.", "quantifier": "every dataset, every thresholds, every permutation", "why_tests_cant": "universal", "anchors": ["mbtk/dataset/BinaryExperimentalDataset.py"]}
{"id": "C43", "title": "Locked folders are never deleted", "statement": "lock_folder and unlock_folder are idempotent and act on one lock type only; folder_is_locked tells exactly whether the lock (or, without a type, any lock) is held; while a lock is held on the folder of an object, delete_folder and delete_subfolder of that object raise, and over any history of calls on it (other than unlocking that type) and on objects with unrelated folders the lock stays and nothing in the folder is removed; without any lock delete_folder removes the folder and nothing else.", "quantifier": "every file system, every history of calls, every lock type", "why_tests_cant": "histories", "anchors": ["mbtk/utilities/LockablePath.py", "mbtk/experiment/ExperimentDefinition.py"]}
{"id": "C44", "title": "Experiment locking protects completed runs", "statement": "ExperimentRun.run on an experiment locked with type 'experiment' raises, runs nothing and changes no file; if nothing raises it runs exactly the parameters not to be skipped, in order, saves each one's data point and locks; if a run raises, exactly the data points of the runs before it are saved and the experiment is not locked; whatever the crash point (also in the middle of a call), an experiment left locked has all its data points complete. However it ends, a run changes no file other than the logs (<ID>.log) and data points (<ID>.pickle) of its runs that are not skipped and the lock.", "quantifier": "every run list, every behaviour of the algorithms, every crash point", "why_tests_cant": "crash points", "anchors": ["mbtk/experiment/ExperimentRun.py", "mbtk/experiment/ExperimentDefinition.py"]}
{"id": "C45", "title": "Deleting through one subexperiment", "statement": "delete_folder called through a subexperiment succeeds exactly if that subexperiment holds no lock, whatever locks its siblings hold, and then removes the data and the locks of all of them; delete_subfolder likewise removes the siblings' data.", "quantifier": "every file system, every pair of subexperiments", "why_tests_cant": "histories (a user would expect the siblings to be protected)", "anchors": ["mbtk/experiment/ExperimentDefinition.py", "mbtk/utilities/LockablePath.py"]}
{"id": "C46", "title": "Algorithm run evaluation", "statement": "For every pair of vectors of equal length TP, TN, FP and FN are the numbers of positions with these combinations, they add up to the number of instances, TP+FN is the number of positive instances, TP+FP that of predicted positives, and FP=FN=0 exactly if every prediction is right; vectors of different lengths (neither 1) raise ValueError.", "quantifier": "every pair of vectors", "why_tests_cant": "universal", "anchors": ["mbtk/experiment/AlgorithmRun.py: evaluate_classifier_predictions"]}
{"id": "C47", "title": "Run index selection", "statement": "The index 'a' selects only run a, 'a-b' exactly the runs a..b inclusive in order, no index all runs; any other string selects a contiguous part of the runs or raises ValueError.", "quantifier": "all a, b, all strings, all lists of runs", "why_tests_cant": "universal", "anchors": ["mbtk/utilities/experiment.py: get_parameters_by_index, get_parameters_index, create_slice_from_string"]}
{"id": "C48", "title": "Contingency table operations", "statement": "marginalize_column (columns in increasing order or set by set_column_order) and marginalize_last_column remove one column and change no count of values of other columns; append_column, prepend_column and insert_column add a column with one value and change no other count; set_column_order with a permutation of the columns changes no count; deduct subtracts count by count or raises KeyError; get(row) is the number of instances that show the row (0 if none does).", "quantifier": "every table, every combination of values", "why_tests_cant": "universal", "anchors": ["mbtk/structures/ContingencyTable.py"]}
{"id": "C49", "title": "Document parsing and term counts", "statement": "For every token file with distinct document IDs and every list of distinct requested IDs present in it, the RCV1v2 source yields one row per requested document in the requested order, whose features are exactly the sorted vocabulary of the requested documents with the number of occurrences (wordcount) or presence (binary), and whose objectives are exactly the assigned topics; a missing document raises KeyError; the text of a written token file is read back exactly.", "quantifier": "every token file, topic assignment, list of IDs, feature type", "why_tests_cant": "universal over files", "anchors": ["mbtk/dataset/sources/RCV1v2DatasetSource.py"]}
{"id": "C50", "title": "Synthetic binary dataset source", "statement": "For every configuration with probabilities in [0,1] and at least one feature and objective, and every shuffle, the generated dataset has row_count samples labelled row0, row1, ..., its columns are the configured names sorted, and the column of a name holds zeros and exactly int(row_count*p) ones.", "quantifier": "every configuration and every result of random.shuffle", "why_tests_cant": "random shuffles", "anchors": ["mbtk/dataset/sources/BinarySyntheticDatasetSource.py"]}
{"id": "C51", "title": "Memoised path search is transparent", "statement": "d_separated answers according to the current graph of the network object, for any history of queries and graph loads, although the path search is memoised.", "quantifier": "every history of d_separated / from_directed_graph calls on one object", "why_tests_cant": "histories (the shipped code violates it across graph loads)", "anchors": ["mbtk/structures/BayesianNetwork.py: find_all_paths_recursive_cached, from_directed_graph"]}
{"id": "C52", "title": "IAMB with the path-length heuristic", "statement": "With DSeparationCITest and BNCorrelationEstimator on a DAG in which every candidate is joined to the target by some undirected path, AlgorithmIAMB returns exactly the Markov blanket; a candidate without any path makes the heuristic raise ValueError.", "quantifier": "every DAG, target and set iteration order", "why_tests_cant": "universal over graphs and iteration orders", "anchors": ["mbtk/math/BNCorrelationEstimator.py: compute", "mbtk/algorithms/mb/iamb.py: select_features"]}
{"id": "C53", "title": "Conditional PMF from data", "statement": "CPMF(variable, given): for every pair of variables with the same number of instances, given(z).p(x) is the share of x among the instances where the conditioning variable shows z, and 0 when x does not occur with z.", "quantifier": "every pair of variables of equal length, every x and z", "why_tests_cant": "universal over data", "anchors": ["mbtk/math/PMF.py: CPMF"]}
{"id": "C54", "title": "Crash while saving a dataset", "statement": "If the process dies during the first save under a label, load raises instead of returning a half-written dataset, and datasets saved under other labels still load unchanged, for every crash point between file writes.", "quantifier": "every dataset, every crash point", "why_tests_cant": "crash points", "anchors": ["mbtk/dataset/DatasetMatrix.py: save, load"]}
{"id": "C55", "title": "Generated datasets are reproducible", "statement": "The sequence of datasets a new generating source produces depends only on its configuration and the seeds passed to its calls, not on prior use of random; a call with its own seed (different from the configured one and -1) always yields the same dataset whatever calls came before.", "quantifier": "every generator state, every history of calls", "why_tests_cant": "histories", "anchors": ["mbtk/dataset/sources/BinarySyntheticDatasetSource.py: create_dataset_matrix", "mbtk/dataset/sources/SampledBayesianNetworkDatasetSource.py: create_random_instances"]}
{"id": "C56", "title": "Dataset sampled from a Bayesian network", "statement": "For every instance matrix and every list of objectives of the network, the dataset has one sample per instance in order, its objectives are the configured names, its features all other variables, both sorted, and every value is the instance's value of the variable of that name; an unknown objective raises ValueError.", "quantifier": "every instance matrix, every list of objectives", "why_tests_cant": "universal", "anchors": ["mbtk/dataset/sources/SampledBayesianNetworkDatasetSource.py: create_dataset_matrix"]}
{"id": "C57", "title": "Rerunning a crashed experiment", "statement": "After any number of attempts to run an experiment that crashed at any point (or were ended by exceptions) without leaving it locked, running it again succeeds and leaves exactly the data points of a run that was never interrupted.", "quantifier": "every number of attempts, every crash point", "why_tests_cant": "crash points and histories", "anchors": ["mbtk/experiment/ExperimentRun.py"]}
{"id": "C58", "title": "The experimental dataset is loaded completely or rebuilt", "statement": "After any number of attempts to prepare the experimental dataset that were interrupted at any point, also in the middle of a file, preparing it gives the complete dataset of one single build, never a mix; a complete and locked dataset is loaded unchanged without touching the disk.", "quantifier": "every dataset, every number of attempts, every crash point", "why_tests_cant": "crash points and histories", "anchors": ["mbtk/experiment/ExperimentRun.py: prepare_exds", "mbtk/dataset/ExperimentalDataset.py", "mbtk/dataset/ModelBuildingExperimentalDataset.py", "mbtk/dataset/ExperimentalDatasetDefinition.py: exds_ready"]}
{"id": "C59", "title": "Flattening of keys", "statement": "flatten terminates on every nesting of lists and tuples (also empty ones) and returns the atoms from left to right; two keys with the same atoms address the same PMF entry.", "quantifier": "every nested value", "why_tests_cant": "unbounded nesting", "anchors": ["mbtk/utilities/functions.py: flatten", "mbtk/math/PMF.py: process_pmf_key"]}
{"id": "C60", "title": "Columns and variables of a dataset matrix", "statement": "get_column_X/Y return the column of the matrix at that position, get_column_by_label that of the first column with the label (ValueError if there is none), get_values_per_column_X the distinct values of every column (ValueError for another matrix label than X and Y); get_variable gives a variable with the name of that column, and for a final dataset its instances are exactly the values of that column, before and after any other calls.", "quantifier": "every dataset, every column, every history of deletions and finalisation", "why_tests_cant": "universal and histories (variables of datasets that are not final are loaded only when first read)", "anchors": ["mbtk/dataset/DatasetMatrix.py: get_column_X, get_column_by_label, get_values_per_column, get_variable", "mbtk/math/Variable.py"]}
{"id": "C61", "title": "PCMB", "statement": "What AlgorithmPCMB.discover_mb() returns for any CI test, any correlation heuristic and any iteration order of sets: a user relies on it to be the Markov boundary. The shipped code returns the empty boundary whenever it returns at all; the candidate set of GetPCD always consists of the single dependent variable least correlated with the target; with a target independent of all others it raises ValueError.", "quantifier": "every CI test, heuristic, target, set of variables and iteration order", "why_tests_cant": "universal over oracles and iteration orders", "anchors": ["mbtk/algorithms/mb/pcmb.py"]}
{"id": "C62", "title": "Reading a BIF document", "statement": "For every document that the BIF grammar allows, the transformation of its parse tree succeeds exactly if all variables mentioned in probability blocks are declared (else KeyError); the network then has the declared name and properties, exactly the declared variables with their values and properties, and each has the parents in the order of the document and the table of probabilities of the document (of repeated declarations the last); after finalization the joint probabilities are the products of the document's entries.", "quantifier": "every document of the grammar, in any order of blocks", "why_tests_cant": "unbounded documents", "anchors": ["mbtk/utilities/bif/Transformers.py", "mbtk/utilities/bif/Grammar.py"]}
{"id": "C63", "title": "Cached reading of BIF files", "statement": "Whatever reads were completed or interrupted at any point, whatever edits of the file and removals of the cache happened, a network returned by from_bif_file is the network of a text that the file had; of the present text if use_cache=False or the file was never edited.", "quantifier": "every history, every crash point", "why_tests_cant": "histories and crash points", "anchors": ["mbtk/structures/BayesianNetwork.py: read_bif_file, parse_bif_file"]}
{"id": "C64", "title": "Results of CI tests", "statement": "For two results of CI tests: a == b exactly if a.diff(b) is None, and one raises exactly if the other does; == is symmetric, reflexive once the statistic and the p-value are set, and equal results agree on verdict, variables and reference and up to the tolerance on the numbers; for results made with the setters, == holds exactly if all attributes agree and the statistic and the p-value differ by at most 1e-11. After any history of setters a result is undecided, or decided with exactly one of independent and dependent true, or insufficient with neither. The recorded texts of X, Y, Z are equal exactly if the same IDs were given in the same order, however they were given.", "quantifier": "every pair of results, every history of setters, every argument of set_variables", "why_tests_cant": "universal and histories", "anchors": ["mbtk/math/CITestResult.py", "mbtk/math/HeuristicResult.py: get_variable_representation"]}
{"id": "C65", "title": "Conditional mutual information from the source network", "statement": "With the Bayesian network as source of probabilities, CMICalculator.compute(X, Y, Z) is the conditional mutual information of X and Y given Z in the distribution that the network defines by the chain rule: never negative, zero exactly when X and Y are independent given Z, and independent of the order of Z and of the iteration order of sets.  (True if the ID of X is smaller than that of Y; otherwise the code looks up transposed probabilities.)", "quantifier": "every well-formed network, every pair of variables X < Y and every conditioning set", "why_tests_cant": "universal over networks and tables", "anchors": ["mbtk/math/CMICalculator.py: compute, make_pmfs_from_source_bn", "mbtk/structures/BayesianNetwork.py: create_partial_joint_pmf", "mbtk/math/PMF.py: sum_over, condition_on", "mbtk/math/infotheory.py: conditional_mutual_information"]}
{"id": "C66", "title": "The graph of a network and its distribution", "statement": "The graphs that finalize() computes are those of the declarations.  Variables d-separated by Z in them are independent given Z in the distribution that the network defines by the chain rule (global Markov property), the d-separation test reports them as independent, and the conditional mutual information from the tables is 0.  Each variable is independent of its non-descendants given its parents, and given its Markov blanket of everything else; the sets that IAMB and IPC-MB return with the d-separation test shield the target in this sense.  Where conditionally_independent() decides d-separation (C13), its answer True means independence in the distribution.", "quantifier": "every well-formed network with normalised tables, every pair of variables, every conditioning set", "why_tests_cant": "connects the graph side with the probability side for all networks; tests compare the two on a few networks", "anchors": ["mbtk/structures/BayesianNetwork.py: finalize, as_directed_graph, as_undirected_graph, conditionally_independent, create_joint_pmf", "mbtk/math/DSeparationCITest.py", "mbtk/algorithms/mb/iamb.py", "mbtk/algorithms/mb/ipcmb.py"]}
{"id": "C67", "title": "Many samples", "statement": "For every network with unique acyclic declarations and normalised tables, samples(n) and sample_matrix(n) succeed and give n samples, the k-th computed from its own block of consecutive random numbers; if the random numbers are independent and uniform, the samples are independent and each assignment appears at each position with exactly its chain-rule probability (the probability of any sequence is the product); the relative frequency of every assignment converges almost surely to its probability.", "quantifier": "every network, every n, every sequence of assignments, almost every stream of random numbers", "why_tests_cant": "probability statement over all streams and a limit", "anchors": ["mbtk/structures/BayesianNetwork.py: BayesianNetwork.samples, sample, sample_matrix"]}
{"id": "C68", "title": "Large samples: CMI and G-tests are consistent", "statement": "For data drawn by sample_matrix from a network, the conditional mutual information that CMICalculator computes from the data converges almost surely to that of the network's distribution, and almost surely there is an N such that in every session of valid calls of the unoptimised G-test on more than N samples every pair that is dependent given its conditioning set in the network is reported dependent.", "quantifier": "every network, all variables and conditioning sets, every session of calls, almost every stream of random numbers", "why_tests_cant": "limit statement over infinite streams of random numbers", "anchors": ["mbtk/structures/BayesianNetwork.py: BayesianNetwork.sample_matrix", "mbtk/math/CMICalculator.py: CMICalculator.compute", "mbtk/math/G_test__unoptimized.py: G_test.conditionally_independent"]}
{"id": "C69", "title": "Markov blanket discovery does not depend on the G-test implementation", "statement": "For every usable dataset, target, parameters and iteration order of sets, IAMB (with the CMI heuristic) and IPC-MB end without exception with each of the three G-test implementations (AD-tree static or dynamic, dcMI with any frozenset order), return the same strictly increasing list of variables other than the target, make the same tests in the same order and record the same results.", "quantifier": "every dataset, configuration, target, iteration order of sets and choice of test", "why_tests_cant": "the sequence of tests is adaptive; every dataset and order must be covered", "anchors": ["mbtk/algorithms/mb/iamb.py: AlgorithmIAMB.discover_mb", "mbtk/algorithms/mb/ipcmb.py: AlgorithmIPCMB.select_features", "mbtk/math/G_test__unoptimized.py: G_test", "mbtk/math/G_test__with_AD_tree.py: G_test", "mbtk/math/G_test__with_dcMI.py: G_test"]}
{"id": "C70", "title": "Markov blanket discovery is complete on large samples", "statement": "For a faithful network and a source of independent uniform random numbers, with probability one there is a sample size from which on, for every target, every iteration order of sets and every supported G-test, IAMB (with the CMI heuristic) and IPC-MB on the matrix sampled from the network end without exception and return a list that contains the whole Markov blanket of the target; given the returned variables, the network makes the target independent of every other variable.", "quantifier": "every faithful network, target, iteration order, G-test and significance below 1, almost every sequence of random numbers, all large sample sizes", "why_tests_cant": "an almost sure limit statement about random data and adaptive algorithms", "anchors": ["mbtk/structures/BayesianNetwork.py: BayesianNetwork.sample_matrix", "mbtk/algorithms/mb/iamb.py: AlgorithmIAMB.discover_mb", "mbtk/algorithms/mb/ipcmb.py: AlgorithmIPCMB.select_features", "mbtk/math/G_test__unoptimized.py: G_test"]}
{"id": "C71", "title": "Commands of an experiment script", "statement": "handle_command does something exactly for the commands in its table. While an experiment (or its experimental dataset) is locked, any history of commands that does not take off that lock keeps it locked, runs no algorithm (for the experiment), and leaves everything in the folder as it was; show and list commands change no file; an unreadable --index has no effect; exp run --index i runs exactly the selected runs that are not skipped and datapoints list --index i then prints exactly their results, also after any such history if the experiment is locked automatically; exds build of a locked dataset happens once.", "quantifier": "every setup, every history of commands, every file system, every behaviour of algorithms, sources and pickle", "why_tests_cant": "a test runs a few command sequences on one folder; the guarantee concerns every history of commands and every state of the disk", "anchors": ["mbtk/utilities/experiment.py:handle_command", "mbtk/experiment/ExperimentRun.py:ExperimentRun.run", "mbtk/utilities/LockablePath.py:LockablePath", "mbtk/dataset/ExperimentalDatasetDefinition.py:ExperimentalDatasetDefinition.exds_ready"]}
{"id": "C72", "title": "Equality and difference of PMFs", "statement": "PMF == PMF exactly if both have the same keys and, key by key, the probabilities differ by at most the tolerance 1e-10 (as p() reads them); == is reflexive and symmetric, ignores variable names, and after remove_zeros decides closeness of the distributions; conditional PMFs are compared condition by condition. pmf_diff / cpmf_diff report exactly the keys on which the two differ, with both values. (== is not transitive, tells zero-probability keys from absent keys, and does not look at the probabilities of one-element-tuple keys.)", "quantifier": "every pair of PMFs and conditional PMFs, all keys and probabilities", "why_tests_cant": "universal over dictionaries; a test compares a few", "anchors": ["mbtk/math/PMF.py: PMF.__eq__, CPMF.__eq__, pmf_diff, cpmf_diff "]}
{"id": "C73", "title": "Smallest instances list of a PMF", "statement": "min_instance_count_for_accuracy is the whole number nearest to the reciprocal of the smallest positive probability (ValueError when there is none); with every size n for which n*p is whole for all keys, so with the recommended one when every probability is a multiple of the smallest, create_instances_list contains every value exactly n*p(value) times.  (For probabilities that are not multiples of the smallest one the recommended count can leave a value out.)", "quantifier": "every PMF, every size", "why_tests_cant": "universal over probability tables", "anchors": ["mbtk/math/PMF.py: PMF.create_instances_list, PMF.min_instance_count_for_accuracy"]}
{"id": "C74", "title": "Exact datasets from a network", "statement": "SampledBayesianNetworkDatasetSource with method exact: if n times every joint probability is whole, the matrix has exactly n rows and one column per variable, in the order of the variable IDs, and every assignment appears exactly n times its chain-rule probability; the labels are the variable names; an unknown method raises. (If n*p is not whole, impossible assignments can appear.)", "quantifier": "every well-formed network, every sample size", "why_tests_cant": "universal over networks and sizes", "anchors": ["mbtk/dataset/sources/SampledBayesianNetworkDatasetSource.py", "mbtk/structures/BayesianNetwork.py: create_joint_pmf", "mbtk/math/PMF.py: create_instances_list"]}
{"id": "C75", "title": "Exact data: CMI, tests and discovery are exact", "statement": "For data made by create_exact_instances with whole counts: CMICalculator.compute returns the conditional mutual information of the network; in no session of tests does the G-test call variables dependent that the network makes independent given the conditioning set; from some size on it answers independent or dependent exactly as the network says; and for a faithful network IAMB (CMI heuristic) and IPC-MB return, with every supported G-test, target and iteration order of sets, exactly the Markov blanket (IPC-MB asked for parents and children: exactly these). Suitable sizes exist for every network (all multiples of some number).", "quantifier": "every well-formed network with normalised tables (faithful for discovery), every session of tests, every target, iteration order of sets and G-test, all large whole sizes", "why_tests_cant": "universal over networks, sessions and sizes; adaptive algorithms", "anchors": ["mbtk/dataset/sources/SampledBayesianNetworkDatasetSource.py: create_exact_instances", "mbtk/math/CMICalculator.py", "mbtk/math/G_test__unoptimized.py", "mbtk/algorithms/mb/iamb.py", "mbtk/algorithms/mb/ipcmb.py"]}
{"id": "C76", "title": "What the summary of the d-separation experiment reports", "statement": "The summary is produced exactly if all result files and data points are there, every test was checked against d-separation, there is at least one test and (dataset source) every blanket found on the network itself is there and non-empty; otherwise an exception. Its counts, percentage, errors, averages of precision, recall and distance, duration and histogram are the corresponding numbers over all runs; average distance 0 iff no errors iff every blanket found is the true one; all values in their ranges. Finding: 'Avg. cond. set size' is the mean length of the text of the conditioning sets: never below the true mean, equal to it only if every test had exactly one conditioning variable with a one-digit ID.", "quantifier": "all experiments: any runs, any results, any blankets, any conditioning sets", "why_tests_cant": "universal over experiments and their histories", "anchors": ["experiments/experiment_dsep/analysis.py: create_citr_analysis, create_algrun_citr_analysis, create_algrun_mb_analysis, create_condset_size_counter, calculate_condset_average", "mbtk/math/CITestResult.py: accurate, set_variables"]}
{"id": "C77", "title": "Set-up of the d-separation experiment keeps runs apart", "statement": "The experiment can be set up exactly if algorithm, kind of source and network are known, the network can be read and (dataset) the sample count is given and accepted by int(float()). There is exactly one run per variable, in order. Two runs of any two set-ups have the same ID, data point file, test-result file or heuristic-result file exactly if they are about the same network, algorithm, target and text of the sample count (so no run overwrites another one's files, even with sample counts that contain underscores); the summary of a dataset experiment reads the true blanket from exactly the data point of the network experiment's run for the same network, algorithm and target. Findings: the format of the sample count is never checked; two texts of one number give the same data in two folders.", "quantifier": "all pairs of arguments, roots, networks, parsers of numbers and runs", "why_tests_cant": "universal over pairs of configurations; string injectivity", "anchors": ["experiments/experiment_dsep/expsetup.py: DsepAlgsEvalExpSetup", "experiments/experiment_dsep/analysis.py: create_algrun_mb_analysis", "mbtk/experiment/ExperimentRun.py: save_algorithm_run_datapoint"]}
{"id": "C78", "title": "A run with a classifier", "statement": "A finished AlgorithmAndClassifierRun has the blanket that the algorithm finds in the whole dataset; its classifier was fitted to exactly the training samples restricted to the blanket (columns in increasing order) with their objective, predicted for exactly the test samples restricted the same way, and the evaluation counts compare predictions and objective of the test samples and add up to their number. Other columns, and the order in which the blanket lists its columns, do not matter. An empty blanket ends the run with ValueError (finding); the test samples take part in discovering the blanket (finding). Data points keep all parameters, callables unchanged, anything else as text.", "quantifier": "every algorithm, every classifier, all training and test data, every blanket and objective, every dictionary of parameters", "why_tests_cant": "Tests run one classifier on one small dataset; the claim is over all data and all classifiers.", "anchors": ["mbtk/experiment/AlgorithmRun.py: AlgorithmRun.run, discover_mb, AlgorithmAndClassifierRun.evaluate_classifier", "mbtk/experiment/AlgorithmRunDatapoint.py: AlgorithmRunDatapoint"]}
{"id": "C79", "title": "Console and log files of an experiment", "statement": "Every destination of a MultiFileWriter gets exactly the text that is written, in order and once; closing it closes every destination but sys.__stdout__ and raises ValueError if one is closed already. For every list of runs, with sys.stdout the real console or not used for logging: the experiment ends with the exception of the first run that raises; the console gets exactly the messages of the experiment and (if asked for) what the runs print, in order; the log file of every ID holds exactly what the last run with that ID printed, up to its exception if it raised; exactly the runs that ended have their data points saved; all log files are closed, also after an exception, and nothing else is touched. Finding: if sys.stdout was replaced (output captured inside Python), the first run that ends closes it, and the experiment ends with ValueError right after, unless it is quiet and no run follows.", "quantifier": "every list of runs with any output and any exceptions, all settings, every state of the open streams", "why_tests_cant": "quantifies over all sequences of runs and exceptions; tests run under a replaced sys.stdout with logging to it switched off", "anchors": ["mbtk/utilities/MultiFileWriter.py: MultiFileWriter", "mbtk/experiment/ExperimentRun.py: run, run_algorithm, get_algorithm_run_stdout_destination"]}
{"id": "C80", "title": "Probabilities of data in floating point", "statement": "With every operation rounded to binary64: for every variable with 1 to 2^53 instances, PMF(variable).p(value) is the relative frequency rounded once (relative error at most 2^-53), zero exactly for values that do not occur, the stored probabilities sum to one up to 2^-53, and (up to 2^52 instances) a more frequent value has a larger probability. For up to 2^50 instances, create_instances_list(n) of that PMF has every value exactly as often as the data, and min_instance_count_for_accuracy is a whole number nearest to n divided by the count of the rarest value. Two PMFs of data whose sample sizes multiply to at most 9*10^9 are == exactly when all relative frequencies are the same.", "quantifier": "every variable (single or joint) with up to 2^53 (2^50) instances, every pair of variables with sample sizes multiplying to at most 9*10^9", "why_tests_cant": "rounding errors depend on the individual counts; tests compare a few probabilities with a tolerance", "anchors": ["mbtk/math/PMF.py: PMF.__init__, normalize_counts, p, create_instances_list, min_instance_count_for_accuracy, __eq__"]}
{"id": "C81", "title": "Samples of a network in floating point", "statement": "With tables rounded when read, cumulative sums rounded after every addition and random.random() returning a multiple of 2^-53: sampling a well-formed, normalised network gives an assignment exactly when the random number of every variable selects its value in the rounded cumulative sums of its row. Of all sequences of random numbers, exactly a product of counts give a certain assignment, where the count of a variable with k values differs from 2^53 times its conditional probability by at most 4k+2; values of probability zero are never drawn, except a first value, for the single random number 0.0. Random numbers up to 1 - K*2^-52 (K the largest number of values) never fail, at most 2k+1 of the 2^53 random numbers select no value in a row, and a random number further than k*2^-52 from every exact cumulative sum selects the same value as exact arithmetic.", "quantifier": "every well-formed network with normalised tables and at most 2^40 values per variable, every assignment, every sequence of random numbers", "why_tests_cant": "the failing random numbers have probability about 10^-15, and the distribution is a statement about all 2^(53 n) sequences", "anchors": ["mbtk/structures/BayesianNetwork.py: BayesianNetwork.sample, VariableNode.sample, ProbabilityDistribution.sample, create_cummulative_probabilities, finalize"]}
{"id": "C82", "title": "Joint PMF and exact data of a network in floating point", "statement": "With tables rounded when read and every product rounded: create_joint_pmf of a normalised network of m variables has one entry per assignment; the entry of an assignment of exact probability P lies in [0,1], is zero if P is zero, and differs from P by at most m*2^-51*P + m*2^-1073; the sum of all N entries differs from one by at most m*2^-51 + N*m*2^-1073. create_instances_list(n) of any non-empty table ends with exactly n instances. If n times every exact probability is a whole number and n*(m+1) <= 2^48, create_exact_instances(n) lists every assignment exactly that often in spite of all roundings, so the CMI of the data is the CMI of the network; for any n it gives n assignments.", "quantifier": "every well-formed network with normalised tables and at most 2^40 variables, every assignment, every sample count", "why_tests_cant": "the accumulated rounding error depends on all table entries and the depth of the recursion; tests use networks with few variables and compare with tolerances", "anchors": ["mbtk/structures/BayesianNetwork.py: create_joint_pmf, joint_values_and_probabilities", "mbtk/math/PMF.py: create_instances_list", "mbtk/dataset/sources/SampledBayesianNetworkDatasetSource.py: create_exact_instances"]}
{"id": "C83", "title": "The unoptimised G-test in floating point", "statement": "With every operation on floats rounded to binary64 and a logarithm accurate to a relative error of 2^-52 on every double: for every history of valid calls of the unoptimised G-test nothing is raised, the log has one entry per call numbered from 1, its degrees of freedom and sufficiency verdict are exactly right, its statistic differs from the G statistic of the data by at most 2*n*(k+15)*(log n+2)/2^53 (n rows, k value combinations that occur; at most 0.0001 up to 100000 rows), and p-value, decision and answer are those of the logged statistic. If the distribution function is monotone and no threshold lies within that error of the statistic, the answers are exactly those computed with real numbers.", "quantifier": "every dataset with 1 to 2^40 rows, every calculator of degrees of freedom, every distribution function, significance and criterion, every history of valid calls", "why_tests_cant": "rounding errors depend on all frequencies and add up over all cells; a test compares a few statistics with a tolerance", "anchors": ["mbtk/math/G_test__unoptimized.py: conditionally_independent, G_test_conditionally_independent, G_value", "mbtk/math/infotheory.py: conditional_mutual_information", "mbtk/math/PMF.py: condition_on, normalize_counts"]}
{"id": "C84", "title": "The G-test with an AD-tree in floating point", "statement": "With every operation on floats rounded to binary64 (make_pmf divides the counts of the tree as floats) and a logarithm accurate to a relative error of 2^-52: for every history of valid calls of the G-test with a static or dynamic AD-tree nothing is raised, every log entry has exactly the right number, degrees of freedom and sufficiency verdict, a statistic within 2*n*(k+15)*(log n+2)/2^53 of the G statistic of the data, and the p-value, decision and answer of that statistic. If no threshold lies within that error of the statistic, the AD-tree test and the unoptimised test, with floats or with real numbers, return the same answers.", "quantifier": "every usable dataset with at most 2^40 rows, both kinds of tree, every leaf-list threshold, every calculator of degrees of freedom, every monotone distribution function, every history of valid calls", "why_tests_cant": "the counts come out of the tree in another order and are divided in other places than in the unoptimised test; tests compare the two on a few datasets", "anchors": ["mbtk/math/G_test__with_AD_tree.py: G_test_conditionally_independent, calculate_pmf_from_AD_tree, make_cpmf_PrXYcZ, make_cpmf_PrXcZ, G_value", "mbtk/structures/ADTree.py: make_pmf", "mbtk/math/infotheory.py: conditional_mutual_information"]}
{"id": "C85", "title": "The G-test with dcMI in floating point, and agreement of the three tests", "statement": "With every operation on floats rounded to binary64, a logarithm accurate to 2^-52 and a sum accurate to two roundings per element: for every history of valid calls of the dcMI G-test nothing is raised, log numbers, degrees of freedom and sufficiency verdicts are exactly right, the statistic is within 2*n*8*(k+5)*(log n+1)/2^53 of the G statistic of the data (at most 0.001 up to 100000 rows), and p-value, decision and answer are those of that statistic. The table of entropies holds exactly the sets that were needed, each entropy within (2k+6)(log n+1)/2^53 of the joint entropy of the data, with exact counts of reads and misses, also after saving and loading. If no threshold lies within the error of the statistic, the unoptimised test, the AD-tree test and the dcMI test return the same answers, those of exact arithmetic.", "quantifier": "every dataset with 1 to 2^40 rows (usable, for agreement), every iteration order of frozensets, every accurate logarithm and sum, every calculator of degrees of freedom except the structural one, every monotone distribution function, every history of valid calls", "why_tests_cant": "the statistic is a difference of four rounded entropies, each a sum over all value combinations, cached across calls; tests compare a few values with a tolerance", "anchors": ["mbtk/math/G_test__with_dcMI.py: G_test_conditionally_independent, G_value, get_joint_entropy_term, prepare_JHT, end", "mbtk/math/PMF.py: expected_value", "mbtk/math/G_test__unoptimized.py: conditionally_independent"]}
{"id": "C86", "title": "Arithmetic of contingency trees, with sharing of objects", "statement": "For contingency trees of the same depth below the recursion limit, sum and subtract raise nothing, change no existing object and return a new tree with the labels and paths of the first operand whose count at every path is the sum (difference) of both counts, or the first count where the second operand lacks the path. sum_in_place and subtract_in_place on a tree without shared objects change exactly the leaf counts of that tree, to the same values; this also when both operands are the same object. Adding then subtracting restores the counts; the in-place subtraction is the value-level subtraction used for AD-tree contingency tables. If the second operand has every path of the first, the result consists of new objects only and later in-place changes of it leave the operands alone; otherwise it shares the missing subtrees and such changes leak into the first operand. A leaf combined with an inner node is a TypeError, a tree at the recursion limit a RecursionError.", "quantifier": "all heaps of nodes, all pairs of trees of any depth and width, all integer counts, all recursion limits", "why_tests_cant": "correctness of in-place updates depends on which objects are shared, and on every path of trees of any shape; the tests use two fixed trees", "anchors": ["mbtk/structures/ContingencyTree.py: sum, subtract, sum_in_place, subtract_in_place, append_child"]}
{"id": "C87", "title": "Markov blanket discovery in floating point", "statement": "IAMB (with the CMI heuristic) and IPC-MB on a dataset of at most 2^40 rows, with all numbers computed in binary64 and any of the supported G-tests: discover_mb ends without exception and returns a strictly increasing list of variables other than the target; the recorded CI results are one per test, numbered from 1, with statistics within the error of the test of the exact G and p-values, decisions and answers that go with the recorded statistic. If no test of the run with exact numbers has its significance threshold within the error of its statistic, and (for IAMB) every candidate chosen is ahead of the remaining ones by more than the errors of the heuristic, the run with floats makes exactly the same tests in the same order and returns the same Markov blanket, with each of the tests.", "quantifier": "all datasets with good columns, all targets, significance levels and monotone distribution functions, all iteration orders of sets, all accurate logarithms and summations, every kind of test and DoF calculator it supports", "why_tests_cant": "a rounding error in one decision can change all later tests; whether this happens depends on every value on the path of the algorithm", "anchors": ["mbtk/algorithms/mb/iamb.py: AlgorithmIAMB", "mbtk/algorithms/mb/ipcmb.py: AlgorithmIPCMB", "mbtk/math/CMICalculator.py: CMICalculator", "mbtk/math/G_test__unoptimized.py: G_test", "mbtk/math/G_test__with_AD_tree.py: G_test", "mbtk/math/G_test__with_dcMI.py: G_test"]}
{"id": "C88", "title": "The runs of the dcMI experiment", "statement": "Setting up the dcMI experiment succeeds exactly for the dataset names alarm, andes and munin and a sample count of the form digits-e-digits (ValueError otherwise, OverflowError for a number no float can hold); the number of samples is exactly a*10^b when that is at most 2^53. Creating the run parameters never raises and gives, numbered from 0, each kind of CI test (d-separation, unoptimized, AD-tree of each type and threshold, dcMI) for each target exactly once, with the test class, DoF calculator, tree and caches of its kind. IDs are pairwise different; data point files and CI result files of two runs (also of different experiments in the same root) coincide exactly if dataset, sample-count text, kind and target do; two runs share an AD-tree file exactly if dataset, sample-count text, tree type and threshold agree, and the file and threshold are those of `adtree build`; the threshold is count*llt/1000 rounded down although computed in floats; the dcMI caches are shared exactly by the dcMI runs of one experiment. The tag of a kind selects exactly its runs in the order of targets. Preloading succeeds exactly if every needed tree file can be opened, opens each once, gives two runs the same tree exactly if they need the same file and changes nothing else.", "quantifier": "all arguments, all numbers of variables, all pairs of experiments and runs, all sets of existing files", "why_tests_cant": "two runs with the same file name overwrite each other silently, which only happens for particular combinations of arguments and targets; rounding of the threshold depends on the sample count", "anchors": ["experiments/experiment_dcmi/algrun_parameters.py: create_algrun_parameters", "experiments/experiment_dcmi/expsetup.py: DCMIEvExpSetup", "mbtk/utilities/experiment.py: ExperimentalSetup"]}
{"id": "C89", "title": "Summaries and plots of the dcMI experiment", "statement": "For each kind of run, `summary show` gives the number of its runs; if all files of CI results of the kind are there with some test in them, it gives their number, total, average, rate, greatest and median duration, the number and total duration of the data points that are there, what was saved about the tree of exactly this kind, and for dcMI the sizes, reads, misses, hits and hit rate of the caches; with one file missing it says that no tests were found. It raises exactly if the analysis of the tree of the kind is missing, if the durations add up to 0, or if the dcMI caches are missing, unread or empty; a tag that only begins with 'adtree' always raises. Through any series of `summary show` of any experiments in one folder, each summary is either marked as cached and equal to the last one shown for this tag of this experiment, or made from the files of the moment; it is cached exactly if no refresh is asked for and one was shown before, so without refresh a summary is never updated (finding). Tags are shown in order up to the first that raises. `plot create` draws, in the order of the sorted distinct tags, the durations or their running totals of the tags that have tests, and fails exactly if a file is missing or lengths differ from the first; the legend names the right lines exactly if no tag without tests comes before one with tests (finding: a misspelt tag takes the name of another's line).", "quantifier": "all contents and absences of files, all numbers of variables, all tags, all series of invocations of any experiments", "why_tests_cant": "which files exist when a summary is first shown, and in which order tags sort, decide what is shown later; tests look at one complete set of files", "anchors": ["experiments/experiment_dcmi/commands.py: create_summary", "experiments/experiment_dcmi/commands.py: command_summary_show", "experiments/experiment_dcmi/commands.py: load_adtrees_analysis", "experiments/experiment_dcmi/plotting.py: make_plot_data", "experiments/experiment_dcmi/plotting.py: plot"]}
{"id": "C90", "title": "Several processes running one experiment at the same time", "statement": "Any number of processes call `run` of the same experiment (the whole or parts of it) and their steps - making folders, opening files, writing pieces at their own positions, looking for the lock - are interleaved in any way; processes may die at any step. If all processes that write a data point write the same bytes, none of them dies and none is still in the middle of its run, then, as soon as one has finished, the data point is there complete, as if one process had run alone; with disjoint parts it is complete whatever the other processes do or whether they die. Data points that nobody is to write stay as they were. A finished process leaves the experiment locked (if it is to be) and no run removes a lock; once it is locked and every process has ended or has not yet looked for the lock, nothing that exists on the disk changes any more and no process starts. Otherwise (findings, by explicit schedules): the experiment can be locked while a data point is empty; a process that dies leaves a locked experiment with an incomplete data point, or one with zeros at the beginning; results of different lengths can end up as a mixture.", "quantifier": "all experiments, all numbers of processes and parameters, all ways of cutting the content into pieces, all interleavings and all deaths of processes", "why_tests_cant": "interleavings of processes and the moments at which they die cannot be chosen in a unit test", "anchors": ["mbtk/experiment/ExperimentRun.py: ExperimentRun", "mbtk/utilities/LockablePath.py: LockablePath", "mbtk/experiment/ExperimentDefinition.py: ExperimentDefinition"]}
{"id": "C91", "title": "A network answers from memory, through any series of calls and edits", "statement": "`create_joint_pmf`, `create_partial_joint_pmf`, `get_subnetwork` and `probability_of_value` remember what they returned. Through any series of calls (including samples) on a finalised network, each call gives exactly the answer or the exception of a network that remembers nothing. If the user also writes rows into the tables: calls never touch the tables; a joint distribution, once returned, is returned ever after, in every way of writing the call; so is a partial distribution for its tuple of variables and a table entry; the first joint distribution (if no entry was read before), and the partial distribution for a tuple not asked for before, are those of the tables as they are then; samples stay those of the tables at `finalize()` as long as no partial distribution is asked for. Findings: after an edit the old joint and a new partial distribution contradict each other; asking for a partial distribution silently makes later samples follow the edit; an entry read before the edit gives a joint distribution that is neither old nor new; relabelling a returned distribution changes what later calls return.", "quantifier": "all networks, all series of calls, edits and relabellings, all rolls", "why_tests_cant": "the histories of calls and edits are unbounded, and what is remembered depends on all of them", "anchors": ["mbtk/structures/BayesianNetwork.py: BayesianNetwork", "mbtk/structures/BayesianNetwork.py: VariableNode", "mbtk/math/PMF.py: PMF"]}
{"id": "C92", "title": "How many samples suffice", "statement": "For a source of independent uniform random numbers and `M` the number of combinations of values of a network: the relative frequency of a combination of values in any columns of `sample_matrix(n)` is off its probability by \u03b5 or more with probability at most 2 exp(-2n\u03b5\u00b2); the CMI calculator is off the network's conditional mutual information by \u03b5 or more, for any variables whatsoever, with probability at most 2M exp(-2n(\u03b5/8M)\u2074); and if every dependence of a faithful network has conditional mutual information at least \u03bc, n > 5M, and the distribution function exceeds the significance from n\u03bc on, then except with probability 2M exp(-2n(\u03bc/16M)\u2074) IAMB and IPC-MB on the sampled data, with any of the G-tests, any target and any iteration order of sets, end without exception and return the whole Markov blanket. Such a \u03bc exists for every network, so for every failure probability there is a number of samples from which on it is not exceeded, whatever the source.", "quantifier": "all well-formed networks (discovery: faithful), all sample sizes, tolerances, columns, targets, orders of sets, all sources of independent uniform random numbers", "why_tests_cant": "probabilities over infinitely many streams of random numbers, for every network and every sample size", "anchors": ["mbtk/structures/BayesianNetwork.py: BayesianNetwork", "mbtk/math/CMICalculator.py", "mbtk/math/G_test__unoptimized.py", "mbtk/algorithms/mb/iamb.py", "mbtk/algorithms/mb/ipcmb.py"]}
{"id": "C93", "title": "How many CI tests discovery makes", "statement": "With n variables, whatever the CI test and the heuristic answer and in whatever order sets are visited: IAMB makes at most 2(n-1) CI tests and n(n-1)/2 computations of the heuristic; IPC-MB makes at most n(n-1)2^(n-2) + (n-1)(n-2) tests, and if every variable can be found marginally dependent on at most d others (with the d-separation test: is d-connected to at most d others given nothing), at most (d+1)(n-1+d(2^(d-1)-1)) + d(d-1); one call of RecognizePC never makes the same test (same candidate, same conditioning set) twice. If every test answers 'dependent', IAMB makes exactly 2(n-1) tests and IPC-MB exactly n(n-1)2^(n-2). Not promised: IAMB can repeat a test of the growing phase while shrinking, and IPC-MB makes tests again with the roles of the variables swapped.", "quantifier": "all CI tests, heuristics, iteration orders of sets, sets of variables, targets, d", "why_tests_cant": "the number of tests for every number of variables and every sequence of answers", "anchors": ["mbtk/algorithms/mb/iamb.py: AlgorithmIAMB", "mbtk/algorithms/mb/ipcmb.py: AlgorithmIPCMB", "mbtk/math/DSeparationCITest.py"]}
{"id": "C94", "title": "Restructuring the results loses nothing", "statement": "For every content of the experiment repository, every order in which folders are listed, and whether the script ends, raises an exception or is killed before any of its operations on the file system: every file of the repository is afterwards, with its content, at its old place or at its place in the new layout, unless it was itself at a place in the new layout and was replaced by the file that belongs there; no file is invented and nothing outside the repository changes. If the script ends, every data folder and every lock file of every subexperiment is at its new place and nowhere else, the folders of the new layout exist and everything else is as before. If nothing is in the way at the new places it ends without exception; after any number of killed or failed runs a run that ends gives exactly the result of one undisturbed run; a second run changes nothing; and a locked subexperiment is still locked as seen by the ExperimentDefinition of the new layout. Not promised: if a non-empty data folder exists at both places, the script aborts and later subexperiments stay where they are; and plots are not moved although the set-up of the experiment then looks for them at the new place.", "quantifier": "all file systems, listing orders, kill points, sequences of interrupted runs", "why_tests_cant": "every crash point and every layout found on disk", "anchors": ["experiments/experiment_dcmi/restructure.py", "mbtk/experiment/ExperimentDefinition.py", "mbtk/utilities/LockablePath.py"]}
{"id": "C95", "title": "The AD-tree server answers each client's own request", "statement": "With any number of clients calling at any time, any order of receiving requests and delivering replies, clients going away while waiting and the server being killed: every make_pmf or query_count call that returns, returns the frequency table or number of rows of the dataset for the request of that very call; each client's calls return in order, each once. As long as the clients only make these two requests, for existing columns, and the server is not killed, the server never ends, each request needs at most three steps, and when nothing more happens no client is waiting. Not promised: a request with another name, or one on which the tree raises an exception, is never answered and ends the server; all clients whose reply has not been sent then wait for ever.", "quantifier": "all usable datasets, static and dynamic trees with any earlier use, numbers of clients, interleavings, crash points", "why_tests_cant": "all interleavings of any number of clients", "anchors": ["adtree-server.py", "tests/ADTreeClient.py: ADTreeClient", "mbtk/structures/ADTree.py: ADTree.make_pmf"]}
{"id": "C96", "title": "Feature selection by mutual information survives rounding", "statement": "With 64-bit floating point arithmetic, on every non-empty dataset of up to 2^40 rows: mutual_information of any two variables returns a float that differs from their mutual information in bits by at most (number of value pairs that occur + 17)(log2 rows + 2)/2^53, and MI__binary of binary vectors one that differs by at most 100(log2 rows + 2)/2^53 (for up to 100000 rows, less than 10^-9). AlgorithmIGt.select_features returns min(Q, number of features) distinct features; along its result, and from a selected to a left-out feature, the true mutual information never rises by more than the errors allowed for the two scores; features with identical columns are ranked by index. If features with different columns differ by more than the errors allowed, the result is the selection by exact scores for every Q, and the binary variant returns the same list.", "quantifier": "all datasets of up to 2^40 rows, features, objectives and Q, all logarithm functions accurate to one unit in the last place", "why_tests_cant": "all data; the worst rounding errors are not among the values of any test", "anchors": ["mbtk/math/infotheory.py: mutual_information, calculate_pmf_for_mi", "mbtk/algorithms/basic/IGt.py: AlgorithmIGt, algorithm_IGt__binary, MI__binary"]}
{"id": "C97", "title": "From sampling to discovery with floats throughout", "statement": "With 64-bit floating point arithmetic and a random.random() that returns independent, equally likely multiples of 2^-53: whatever is asked of the outcome of sample_matrix(n) (an exception or a matrix), the answer is as likely as for exact tables and real random numbers, up to n * variables * (numbers in the tables) * (K + 1)/2^51, K the largest number of values of a variable. So the relative frequency of every combination of values is off its probability in the network by e or more with probability at most 2 exp(-2 n e^2) plus that error. If every dependence in a faithful network has conditional mutual information at least m, M combinations of values satisfy M + 14 <= 2^43 m, n > 5 M, n <= 2^40 and the distribution function exceeds the significance at n m, then, except with probability 2 M exp(-2 n (m/32M)^4) plus that error, IAMB with the CMI heuristic and IPC-MB, run in floating point on the sampled data with any of the G-tests, end without exception and return all of the Markov blanket of the target, and the variables they leave out are independent of the target given those returned.", "quantifier": "all networks with tables that are probability distributions, all sources of independent uniform 53-bit random numbers, numbers of rows, questions about the outcome, targets, iteration orders of sets, all logarithm functions accurate to one unit in the last place and accurate sums", "why_tests_cant": "probabilities of events over all sequences of random numbers, and rounding in every step", "anchors": ["mbtk/structures/BayesianNetwork.py: sample_matrix, sample, finalize, create_cummulative_probabilities", "mbtk/algorithms/mb/iamb.py: discover_mb", "mbtk/algorithms/mb/ipcmb.py: discover_mb", "mbtk/math/CMICalculator.py: compute"]}
{"id": "C98", "title": "How large and how deep an AD-tree gets", "statement": "For data with M columns, N rows and at most t+1 values per column, an AD-tree has at any time at most sum over k <= log2 N of C(M,k) t^k AD nodes and C(M,k+1) t^k Vary nodes (with a leaf-list threshold T >= 2, the sum stops at log2(N/T)+1); an AD node d levels below the root stands for at least one and at most N/2^d rows, so the depth is at most log2 N; a dynamic tree, whatever it was asked, never has more AD nodes or Vary nodes than the static tree of the same data. The bounds are attained.", "quantifier": "every dataset, threshold, and (for dynamic trees) every series of valid requests", "why_tests_cant": "universal over data sizes and request histories; tests look at a few small trees", "anchors": ["mbtk/structures/ADTree.py: ADNode.__init__, ADNode.create_Vary_children, VaryNode.create_AD_children, VaryNode.discoverMCV", "mbtk/structures/DynamicADTree.py"]}
{"id": "C99", "title": "The debug AD-tree answers like the plain one and counts what it says", "statement": "An ADTreeDebug answers every request (query_count, query, make_pmf, before and after pickling), valid or not, exactly as a plain ADTree built without leaf lists, exceptions included, whatever its debug level; on valid requests all answers are right even when the requested threshold exceeds the number of rows. While debug >= 1, n_pmf is the number of make_pmf calls since the counters were prepared, n_queries counts between 1 and 1+r+...+r^k query_count calls for each query about k columns since the last make_pmf (r values per column), the leaf-list counters stay 0; right after make_pmf n_queries is 0.", "quantifier": "every dataset, requested threshold, debug level and series of requests (also invalid ones), with the debug level changed at any point", "why_tests_cant": "universal over data and request histories; no test uses the class beyond construction", "anchors": ["mbtk/structures/debug/ADTree__debug.py: ADTreeDebug", "mbtk/structures/ADTree.py: ADTree.query_count, ADTree.make_pmf"]}
{"id": "C100", "title": "The debug versions of the G-tests", "statement": "The AD-tree G_test_debug, on a tree of any class at any point of its life, raises what the plain test raises and otherwise gives the same answers, logs the same results and leaves the same tree; extra_info is the degrees of freedom, or, on a counting debug tree, the running total of contingency tables (3 per marginal test, 4 per conditional one) with 0 queries and 0 leaf-list tables; with ci_test_debug >= 1 every result is printed if ci_test_results__print_inaccurate, else none, whatever print_accurate says. Its constructor raises AttributeError exactly for ci_test_debug >= 2 with a given non-debug tree, which is left with a debug attribute that makes later debug tests raise KeyError. The unoptimised debug test logs like the plain one, answers like it with ci_test_debug = 0, and otherwise raises AttributeError after each decided test; the dcMI debug test cannot be constructed.", "quantifier": "every dataset, tree class, tree state, configuration, debug level, print flags and series of calls", "why_tests_cant": "universal over call histories and tree states; no unit test covers these classes", "anchors": ["mbtk/math/debug/G_test__with_AD_tree__debug.py: G_test_debug", "mbtk/math/debug/G_test__unoptimized__debug.py: G_test_debug", "mbtk/math/debug/G_test__with_dcMI__debug.py: G_test_debug", "mbtk/math/CITestResult.py: CITestResult.accurate"]}
{"id": "C101", "title": "Enumeration of all conditional independence tests", "statement": "Whatever the iteration orders of the Python sets, iter_tests yields every test of two different features given a set of other features exactly once, in order of the size of the conditioning set; the number of tests of M features is the printed expectation M(M-1)/2 * 2^(M-2), C(M,c)*C(M-c,2) of them with c conditioning features and 2^(M-2) per pair; for M >= 2 the index of joint entropies has all 2^M subsets, each used by C(M,2) tests, split over conditioning sizes as expected_jht_count_by_cond_size says; hence the report flat-index-summary never fails its assertion or a lookup and shows equal actual and expected figures for each entropy size 0..M; and a dcMI test object that is asked all these tests in any order computes exactly 2^M - 1 joint entropies.", "quantifier": "every number of features, set iteration order, entropy term and order of the tests", "why_tests_cant": "universal over the number of features and over set iteration orders (hash seeds); the script itself only compares figures for the M it is run with", "anchors": ["experiments/gtest_enum.py: iter_tests", "experiments/gtest_enum.py: Test.joint_entropy_terms", "experiments/gtest_enum.py: make_jht_index_summary", "experiments/gtest_enum.py: validate_and_flatten_summary", "experiments/gtest_enum.py: expected_jht_count_by_cond_size", "mbtk/math/G_test__with_dcMI.py: G_test"]}
{"id": "C102", "title": "Discoveries that share an AD-tree, entropies or cached degrees of freedom", "statement": "For any series of IAMB and IPC-MB discoveries on a dataset (any targets, algorithms and set iteration orders), run one after the other with a new test object each, which is given the AD-tree (static, or dynamic and expanded by earlier queries), the joint entropy table and the cached degrees of freedom that the previous one left (as demo.py does): every discovery ends without exception and returns the same blanket, makes the same tests and records the same results as alone with a fresh test object of any supported implementation; with dcMI the saved counters at the end are those of the whole series, no entropy having been computed twice. Without a path to save the entropies to, handing over the table raises KeyError.", "quantifier": "every dataset, configuration, series of discoveries, test implementation and iteration order", "why_tests_cant": "universal over histories of discoveries and over states of the shared structures; the demo only measures durations", "anchors": ["demo.py: run_demo_ipcmb_test__optimized", "demo.py: run_demo_ipcmb_test__dynamic_adtree", "demo.py: run_demo_ipcmb_test__dcmi", "mbtk/math/G_test__with_dcMI.py: G_test.prepare_JHT", "mbtk/math/G_test__with_AD_tree.py: G_test.prepare_AD_tree", "mbtk/math/DoFCalculators.py: CachedStructuralDoF"]}
{"id": "C103", "title": "Contingency tables: duplicate, append, finalize, grouping", "statement": "duplicate() has the same columns and counts as the table, and finds its columns exactly if they are in increasing order. append(column, value, ct), for an empty table or one with those columns and no row with that value, adds the counts of ct under the value; so a table built by appending the tables of different values of a column counts every combination of values right (over all parts if the combination leaves the new column open); the argument ct gets the new column too. remove_leftmost_column()/finalize() removes the first column and, with positive counts, keeps the counts of all combinations of the others exactly if no two rows differ only in that column, otherwise instances are lost; with one column left the keys are plain values, for which lookups of tuples give 0 and prepend_column raises TypeError. group_keys_by_columns(columns), if the columns are in place, puts every row in exactly one group, that of its values in the columns, under its values in the other columns; an unknown column raises KeyError.", "quantifier": "every table, column, value, list of columns and list of parts", "why_tests_cant": "universal over tables; the repository has no tests of this class", "anchors": ["mbtk/structures/ContingencyTable.py: ContingencyTable.duplicate", "mbtk/structures/ContingencyTable.py: ContingencyTable.append", "mbtk/structures/ContingencyTable.py: ContingencyTable.remove_leftmost_column", "mbtk/structures/ContingencyTable.py: ContingencyTable.finalize", "mbtk/structures/ContingencyTable.py: ContingencyTable.group_keys_by_columns"]}
{"id": "C104", "title": "Looking up nodes, sizes, and equality and copies of distributions", "statement": "In a finalized network the index of a variable is the number of variables with smaller names and is its ID; variable_nodes_name is the inverse of variable_nodes_index; get_nodes_by_name and get_nodes_by_ID return exactly the requested nodes, each under its ID; an unknown name raises KeyError; before finalize() get_nodes_by_name returns only the last requested node. total_possible_values_count() and the stored size are the number of combinations of declared values, which is the number of entries of create_joint_pmf(). == of two distributions is False for different numbers of conditioning variables or different tables, True for unconditioned ones with the same entries in any order, and raises AttributeError for conditioned ones with the same table (also for a distribution and itself); a copy samples and answers like the original and is finalized to the same, but lacks the table by value positions until then, and the name if it was made without a node.", "quantifier": "every well-formed network, list of names or IDs, and pair of distributions", "why_tests_cant": "universal over networks and tables; the tests look up a few nodes of one network and never compare conditioned distributions", "anchors": ["mbtk/structures/BayesianNetwork.py: BayesianNetwork.get_nodes_by_name", "mbtk/structures/BayesianNetwork.py: BayesianNetwork.get_nodes_by_ID", "mbtk/structures/BayesianNetwork.py: BayesianNetwork.variable_nodes_name", "mbtk/structures/BayesianNetwork.py: BayesianNetwork.total_possible_values_count", "mbtk/structures/BayesianNetwork.py: BayesianNetwork.calculate_joint_pmf_size", "mbtk/structures/BayesianNetwork.py: ProbabilityDistributionOfVariableNode.copy", "mbtk/structures/BayesianNetwork.py: ProbabilityDistributionOfVariableNode.__eq__"]}
{"id": "C105", "title": "Printing results of CI tests, and the log of the d-separation test", "statement": "str(result) works exactly if the variables are set, the significance, statistic and p-value are set or the samples were insufficient, and extra_info is None or a text; otherwise it raises TypeError. It works after every history of setters with the variables, a verdict, and a statistic and a distribution (or insufficient samples). It contains a check mark exactly if the result is decided and agrees with d-separation, a cross exactly if it disagrees, is red exactly in the latter case and yellow exactly for insufficient samples. Two results that print the same text have the same index, the same variables, both or neither insufficient samples, and the same verdict and comparison with d-separation. In every sequence of calls of DSeparationCITest and DSeparationAsCorrelationHeuristic each call returns what the network says (0.0 for independent, 1.0 for dependent) or raises what the network raises, with or without debug output; the log has exactly one entry per answered call, in order, indexed from 0, and each is accurate; with debug output each answered call prints one text with a check mark. But no logged result can be printed after its call, and end() of the heuristic, asked to save, always raises AttributeError after emptying the file.", "quantifier": "every result, history of setters, network (possibly raising) and sequence of calls", "why_tests_cant": "universal over histories and calls; the tests print no logged result of the d-separation test", "anchors": ["mbtk/math/CITestResult.py: CITestResult.__str__", "mbtk/math/CITestResult.py: CITestResult.render__sufficient_samples", "mbtk/math/CITestResult.py: CITestResult.render__insufficient_samples", "mbtk/math/DSeparationCITest.py: DSeparationCITest.conditionally_independent", "mbtk/math/DSeparationCITest.py: DSeparationAsCorrelationHeuristic.compute", "mbtk/math/DSeparationCITest.py: DSeparationAsCorrelationHeuristic.end"]}
{"id": "C106", "title": "Rendering AD-trees as LaTeX", "statement": "to_latex() of every AD-tree is the fixed header, exactly one line per node (each node before its children, from left to right, indented by its depth; column, value and count of an AD node, column and most common value of a Vary node), without empty lines, and the fixed footer; after every valid session the number of lines is ad_node_count + vary_node_count. After loading a tree from a file to_latex() of a static tree always raises AttributeError, that of a dynamic tree exactly if it had been queried about some column before it was saved.", "quantifier": "every tree, and every valid session on every usable dataset", "why_tests_cant": "universal over trees of unbounded depth; the tests do not render trees", "anchors": ["mbtk/structures/ADTree.py: ADTree.to_latex", "mbtk/structures/ADTree.py: ADNode.to_latex", "mbtk/structures/ADTree.py: VaryNode.to_latex", "mbtk/structures/ADTree.py: ADNode.__getstate__", "mbtk/structures/DynamicADTree.py: DynamicADNode.__getstate__"]}
{"id": "C107", "title": "Variable objects: lazy loading, joint and index variables", "statement": "Whatever a program does with variables and with joint variables that share them, in any order: a variable that has its list of instances keeps it and its loader is not called any more; one without a list calls its loader until the first call that does not return None and keeps that result, so that all readers see the same list. update_values() gives the distinct values in increasing order. The members of JointVariables(...) are the plain variables and the members of joint variables among the arguments, in order; Omega and index variables are dropped silently. Construction raises VariableInstancesOfUnequalCount exactly if all members are loaded and two have different lengths. Row i of a joint variable is the tuple of the i-th instances of its members for every i below all lengths (longer members are cut off), TypeError if a member has no instances. An index variable has the positions of the values of its source as values. SortedJointVariables(...) raises TypeError for all arguments.", "quantifier": "every heap of variables with arbitrary (also changing) loaders, and every history of uses", "why_tests_cant": "universal over histories and loaders; the tests load each variable once", "anchors": ["mbtk/math/Variable.py: Variable.instances", "mbtk/math/Variable.py: Variable.load_instances", "mbtk/math/Variable.py: Variable.update_values", "mbtk/math/Variable.py: JointVariables", "mbtk/math/Variable.py: SortedJointVariables", "mbtk/math/Variable.py: IndexVariable", "mbtk/math/Variable.py: validate_variable_lengths"]}
{"id": "C108", "title": "Comparing datasets", "statement": "diff returns exactly the names of the parts (row_labels, column_labels_X, column_labels_Y, X, Y) in which two datasets differ, in this order, separated by single spaces; it is empty exactly if == says that they are equal. == is an equivalence relation and does not depend on the labels of the datasets, on the storage formats or on whether they are final. get_datasetmatrix returns the matrix of that name and raises ValueError exactly for names other than full, train and test.", "quantifier": "all pairs and triples of datasets, all names", "why_tests_cant": "universal over datasets; the tests compare a few", "anchors": ["mbtk/dataset/DatasetMatrix.py: DatasetMatrix.__eq__", "mbtk/dataset/DatasetMatrix.py: DatasetMatrix.diff", "mbtk/dataset/DatasetMatrix.py: DatasetMatrix.sparse_equal", "mbtk/dataset/ModelBuildingExperimentalDataset.py: ModelBuildingExperimentalDataset.get_datasetmatrix"]}
{"id": "C109", "title": "Correlation estimator of a known network", "statement": "BNCorrelationEstimator cannot be made without a source network. compute(X, Y, Z) returns 0 if Z is not empty and separates X from Y (shipped d-separation), otherwise 1/(d+1) where d is the least number of links, in either direction, between X and Y, and raises ValueError if there is no connection; for different variables the value is at most 1/2, and 1/2 exactly for linked ones. Over any history of calls (also raising ones) the log holds exactly the calls with a value other than 0, in order, with consecutive indices and the returned values; values do not depend on the history; end() writes the whole log to the configured file.", "quantifier": "all networks (any DAG or digraph), variables, conditioning sets and histories of calls", "why_tests_cant": "universal over networks and call histories; the tests run one network", "anchors": ["mbtk/math/BNCorrelationEstimator.py: BNCorrelationEstimator.compute", "mbtk/math/BNCorrelationEstimator.py: BNCorrelationEstimator.end", "mbtk/math/HeuristicResult.py: HeuristicResult"]}
{"id": "C110", "title": "The text of BIF files", "statement": "Every text is derived from at most one document of the BIF grammar (any white space between tokens, tokens as long as possible), and a recursive-descent parser accepts exactly the derivable texts. So whatever lark does inside, parse_bif_file raises for texts that the grammar does not derive, KeyError if a table mentions an undeclared variable, and else returns the network of the one document; layout is irrelevant. Texts can be joined. A text cut off at any character is refused or read as the first blocks of the whole, and each sequence of first blocks is so obtained. Names and values consist of letters, digits, - and _.", "quantifier": "all texts, documents, layouts and cut points", "why_tests_cant": "all character sequences and all truncations; the tests read a few complete files", "anchors": ["mbtk/utilities/bif/Grammar.py: bif_grammar", "mbtk/structures/BayesianNetwork.py: parse_bif_file"]}
{"id": "C111", "title": "From the text of a BIF file to Markov blankets", "statement": "For every text of the BIF grammar that says nothing twice, names only declared variables and declares a well formed network, and every declared target: reading and finalizing succeed, and IAMB with the d-separation test on the graphs of the network returns exactly the variables that the headers `probability ( c | p, ... )` of the text make the parents, the children and the other parents of the children of the target, as positions in the alphabetical order of the names. IPC-MB returns all of them, and only them if no child of a variable with two parents has children. If the tables are normalised, the result shields the target from every other variable. With any of the G-tests on exact data from the network of a faithful file, both algorithms return exactly these variables from some size on.", "quantifier": "all texts, targets, iteration orders of sets, initial states, G-tests and sufficiently large sizes", "why_tests_cant": "it composes parser, finalisation, graph algorithms and statistics over all files; the tests check a few targets of a few files", "anchors": ["mbtk/structures/BayesianNetwork.py: parse_bif_file", "mbtk/algorithms/mb/iamb.py: AlgorithmIAMB", "mbtk/algorithms/mb/ipcmb.py: AlgorithmIPCMB", "mbtk/math/DSeparationCITest.py: DSeparationCITest"]}
{"id": "C112", "title": "What the summary of the d-separation experiment prints", "statement": "The printed percentage of accurate tests reads back to within 0.0051 percentage points of the true share and never decreases when the share increases; it is 0.0% exactly if no test is accurate, and 100.0% exactly if at most one test in 20000 is wrong, so that with fewer than 20000 tests it means that none is wrong and from 20000 tests on it does not. The LaTeX row of summary --tabular has exactly six cells, the percent sign is escaped, and the numbers in the cells read back to those of the summary up to half a unit of the last place shown (plus the error of floats). The histogram has one line per occurring size in increasing order, reads back to exactly the sizes and counts of the summary, the bar of a line is the whole part of log2 of the count, and printing it never fails.", "quantifier": "all runs with a summary, all numbers of accurate tests and tests (up to 10^10, for the histogram 2^35), all alphabetic network names, sample counts, and logarithms that are within 2^-40 and exact at powers of two", "why_tests_cant": "universal over all counts; the formatting rules (significant digits, half-even ties, scientific notation) only show at particular values", "anchors": ["experiments/experiment_dsep/analysis.py: create_citr_analysis", "experiments/experiment_dsep/analysis.py: render_condset_size_histogram", "experiments/experiment_dsep/commands.py: render_tabular_summary"]}
{"id": "C113", "title": "How gtest_enum prints a test", "statement": "From the line str(test) a reader gets back the two features, the smaller first, and the features of the condition in increasing order. as_bits prints a set of features as one binary digit per feature, which denotes the number whose digit i is 1 exactly if feature number i is in the set, and different sets differently; in the line of a test the strings stand at fixed places and the numbers of the entropies are the sums of the numbers of X, Y and Z they consist of. The enum listing has one line per test and no line twice, in both forms.", "quantifier": "all numbers of features up to 55000, all iteration orders of the feature set, all tests over the features", "why_tests_cant": "universal over all tests; the number of tests grows like M^2 2^M", "anchors": ["experiments/gtest_enum.py: Test", "experiments/gtest_enum.py: as_bits", "experiments/gtest_enum.py: iter_tests"]}
{"id": "C114", "title": "Shape, labels and description of a dataset", "statement": "After any history of operations with meant arguments, get_row_count of X and of Y is the number of row labels and get_column_count the number of get_column_labels; with different labels, asking for a column by label is asking for it by its position in get_column_labels. Another matrix label than X and Y raises ValueError; a new dataset without matrices has empty label lists and raises AttributeError for the counts. info() is the same for two datasets exactly if their matrices have the same numbers of rows and columns (or are both missing) and the same column labels.", "quantifier": "all well-shaped datasets, all histories, all label texts (also with quotes, backslashes and line breaks)", "why_tests_cant": "universal over histories and over all label texts", "anchors": ["mbtk/dataset/DatasetMatrix.py: info, get_info_per_matrix", "mbtk/dataset/DatasetMatrix.py: get_matrix, get_row_count, get_column_count, get_column_labels"]}
{"id": "C115", "title": "Printing from several processes", "statement": "Whatever texts any number of processes print with mpprint, however they are scheduled, however early parts of their buffers are written out, wherever they are killed or get an exception: the output is a sequence of whole texts with the process number in front of every line, followed at most by the beginning of one more text of the process that holds the lock, and the texts of each process stand in the order in which it printed them. Whenever the lock is free, the lines that begin with the tag of a process are exactly the lines of the texts that it printed so far, in order. If all arguments are texts and no process is killed, printing ends under every schedule (without deadlock) with everything printed. But once mpprint is called with something that is not a text, or a process is killed inside mpprint, the lock is never released: nothing more is written and no call returns, in no process.", "quantifier": "all numbers of processes, all texts (with any line breaks, also texts that look like tags), all schedules, all points of failure", "why_tests_cant": "universal over schedules and crash points; a test runs one schedule", "anchors": ["mbtk/utilities/mpprint.py: mpprint", "mbtk/utilities/mpprint.py: prepend_pid"]}
{"id": "C116", "title": "The folders of an experiment, printed", "statement": "str(paths) of an ExperimentalPathSet has one line for Root and then exactly one line for every other attribute, in the order of the names; every line is read back (the text before the colon without blanks, the text after it) as the name and the shortened path, and all colons stand in the same column. The shortened path is what follows Root for a path inside Root, what follows the parent of Root for other paths inside that, and the whole path otherwise; the text of a path determines the path. Two absolute paths are shortened alike only if they are equal or one is Root/x and the other Root.parent/x.", "quantifier": "every root, every set of attributes with identifiers as names, every path", "why_tests_cant": "universal over names and paths", "anchors": ["mbtk/utilities/experiment.py: ExperimentalPathSet.__str__", "mbtk/utilities/experiment.py: ExperimentalPathSet.shorten_path"]}
