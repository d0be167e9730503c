{"id": "C01", "title": "Analysis steps are gated", "statement": "On a state-tracked class, calling a registered step executes its body if and only if the current state is at least the step's minimal state and every property registered for a stage at or below that minimal state is flagged as set. Otherwise the call returns None with a warning and changes neither the state, nor any flag, nor the wrapped object.", "quantifier": "every class description (any states, properties and steps), every history of property assignments and step calls, every step body", "why_tests_cant": "There are infinitely many class descriptions and histories; a test exercises one order of calls.", "anchors": ["src/flowstab/state_tracking.py: StateMeta.register, StateMeta.init_state, State"]}
{"id": "C02", "title": "State after a step", "statement": "When a step's body runs and returns, the state becomes exactly the step's next state and all flags that the body itself did not assign are unchanged; when the body raises, the exception reaches the caller and the wrapper changes nothing.", "quantifier": "every class description, every state, every step body including raising ones", "why_tests_cant": "The claim covers all bodies and all points of failure.", "anchors": ["src/flowstab/state_tracking.py: StateMeta.register (wrapper)"]}
{"id": "C03", "title": "Assigning a property never advances the state and invalidates later steps", "statement": "A successful assignment leaves the state at min(previous state, stage of the property), so no sequence of assignments alone ever raises the state, and after assigning a property every step whose minimal state is above the property's stage is refused until steps are run again. A rejected assignment (setter raises) changes nothing.", "quantifier": "every class description, every state, every finite sequence of assignments", "why_tests_cant": "Holds for unbounded sequences of assignments from any reachable state.", "anchors": ["src/flowstab/state_tracking.py: StateMeta.register (wrapped_setter)"]}
{"id": "C04", "title": "Set/unset flags mirror the assignment history", "statement": "After any history, a property counts as set if and only if it was successfully assigned at least once and its most recent successful assignment was not None (or the property was registered with ignore_none=False).", "quantifier": "every class description and every history of assignments and step calls", "why_tests_cant": "Needs induction over arbitrary histories.", "anchors": ["src/flowstab/state_tracking.py: StateMeta.attach_state, StateMeta.register"]}
{"id": "C05", "title": "state.next reports exactly what is missing, and a runnable step", "statement": "The first component of state.next lists exactly the properties registered for a stage at or below the current state that are not set; if that list is empty, calling the step named by the second component is not refused.", "quantifier": "every class description and every reachable state", "why_tests_cant": "All combinations of flags and states; depends on the table precomputed by the metaclass.", "anchors": ["src/flowstab/state_tracking.py: State.missing_parameters, State.next, StateMeta.init_state"]}
{"id": "C06", "title": "FlowStability steps happen in pipeline order", "statement": "If a FlowStability object is in stage k, then its history contains successful runs of the first k pipeline steps (set_temporal_network, compute_laplacian_matrices, compute_inter_transition_matrices, set_flow_clustering, find_louvain_clustering) in this order, and after the run of step j no property of a stage below j was assigned. In particular a finished analysis never mixes results computed before and after a change of an input.", "quantifier": "every finite history of constructor arguments, property assignments and method calls on FlowStability, successful or not", "why_tests_cant": "A temporal property of all histories.", "anchors": ["src/flowstab/flow_stability.py: FlowStability, States", "src/flowstab/state_tracking.py: StateMeta.register"]}
{"id": "C07", "title": "Every admissible time direction can be carried to a clustering", "statement": "For each admissible time_direction (-1, 0, 1), once the preceding steps have run, find_louvain_clustering executes. (Violated: for -1 and 1 the step is always refused; holds for 0.)", "quantifier": "every history that sets time_direction and runs set_flow_clustering", "why_tests_cant": "The refusal depends on flags set by a previous step; all histories must be covered.", "anchors": ["src/flowstab/flow_stability.py: FlowStability.set_flow_clustering, FlowStability.find_louvain_clustering, FlowStability.time_direction"]}
{"id": "C08", "title": "A network given to the constructor or by assignment is usable", "statement": "After the temporal_network property has been given a valid network (constructor argument or attribute assignment) compute_laplacian_matrices can run. (Violated: it stays refused until set_temporal_network is called, whatever is assigned.)", "quantifier": "every history made only of construction and attribute assignments", "why_tests_cant": "Unbounded sequences of assignments.", "anchors": ["src/flowstab/flow_stability.py: FlowStability.__init__, FlowStability.temporal_network"]}
{"id": "C09", "title": "A rejected network value does not count as set", "statement": "If the value assigned to temporal_network is not a ContTempNetwork, no network is stored and the property is reported as missing. (Violated: the property is flagged as set although None is stored.)", "quantifier": "every value of every type assigned, after any history", "why_tests_cant": "All values and histories.", "anchors": ["src/flowstab/flow_stability.py: FlowStability.temporal_network"]}
{"id": "C10", "title": "Time scales: validation and read-back", "statement": "Assigning time scales is accepted if and only if every entry is None or a positive number; a rejected assignment leaves the previous time scales and flags in place; after an accepted assignment the getter yields exactly the assigned values every time it is read. (Violated for one-shot iterators, which read back empty.)", "quantifier": "every scalar, list or iterator of numbers of any length", "why_tests_cant": "Inputs of unbounded length, and repeated reads.", "anchors": ["src/flowstab/flow_stability.py: FlowStability.time_scale, FlowStability.set_time_scale", "src/flowstab/helpers.py: inverted_iterator"]}
{"id": "C11", "title": "Compressed stochastic matrix: full-matrix round trip", "statement": "Compressing a square sparse matrix with the default index detection and expanding it again returns the same matrix entry for entry, whenever the matrix equals diag_val on the diagonal and 0 off it outside the detected rows and columns; the dense meaning of a compressed matrix is: stored block on the kept indices, diag_val on the remaining diagonal, 0 elsewhere.", "quantifier": "every matrix of every size over any commutative ring, every diagonal value", "why_tests_cant": "Every sparsity pattern and size.", "anchors": ["src/flowstab/sparse_stoch_mat.py: SparseStochMat.from_full_csr_matrix, SparseStochMat.to_full_mat", "src/flowstab/_cython_subst.py: sparse_stoch_from_full_csr, rebuild_nnz_rowcol"]}
{"id": "C12", "title": "Compressed addition and subtraction are exact", "statement": "The full expansion of A+B (A-B) equals the sum (difference) of the expansions of A and B, and the result is again a well-formed compressed matrix.", "quantifier": "every pair of well-formed compressed matrices of the same size, any kept-index sets, any diagonal values", "why_tests_cant": "All overlaps of the two index sets, all sparsity patterns.", "anchors": ["src/flowstab/sparse_stoch_mat.py: SparseStochMat.__add__, SparseStochMat.__sub__", "src/flowstab/_cython_subst.py: stoch_mat_add, stoch_mat_sub", "src/flowstab/_cython_sparse_stoch.pyx: cython_stoch_mat_add, cython_stoch_mat_sub"]}
{"id": "C13", "title": "Compressed product is exact", "statement": "The full expansion of A @ B equals the matrix product of the expansions, both when the kept-index sets intersect and when they are disjoint (where the code skips the product).", "quantifier": "every pair of well-formed compressed matrices of the same size", "why_tests_cant": "All sizes, overlaps and diagonal values.", "anchors": ["src/flowstab/sparse_stoch_mat.py: SparseStochMat.__matmul__, SparseStochMat.check_nz_intersect_len, SparseStochMat.sub_diag, SparseStochMat.add_diag"]}
{"id": "C14", "title": "Compressed transpose, scalar product and diagonal shifts are exact", "statement": "Transposing, multiplying by a scalar, and adding or subtracting a multiple of the identity commute with expansion to the full matrix.", "quantifier": "every well-formed compressed matrix and scalar", "why_tests_cant": "All inputs.", "anchors": ["src/flowstab/sparse_stoch_mat.py: SparseStochMat.transpose, SparseStochMat.__mul__, SparseStochMat.sub_diag, SparseStochMat.add_diag"]}
{"id": "C15", "title": "Row normalisation makes rows sum to the target and keeps ratios", "statement": "After in-place row normalisation with target s every row of the full matrix whose sum was nonzero sums to s and is proportional to the original row; normalising twice changes nothing more.", "quantifier": "every CSR or compressed matrix with nonzero row sums, every target (scalar or per-row array)", "why_tests_cant": "All matrices and sizes.", "anchors": ["src/flowstab/sparse_stoch_mat.py: inplace_csr_row_normalize, SparseStochMat.inplace_row_normalize", "src/flowstab/_cython_subst.py: inplace_csr_row_normalize, inplace_csr_row_normalize_array"]}
{"id": "C16", "title": "Trimming small values removes exactly the small values", "statement": "set_to_zeroes with absolute values keeps every entry whose magnitude exceeds the threshold unchanged and zeroes all the others; without absolute values it also deletes every negative entry.", "quantifier": "every matrix, tolerance and option combination", "why_tests_cant": "All matrices; the sign convention interacts with saved differences.", "anchors": ["src/flowstab/sparse_stoch_mat.py: SparseStochMat.set_to_zeroes", "src/flowstab/temporal_network.py: set_to_zeroes"]}
{"id": "C17", "title": "User-chosen kept indices", "statement": "Building a compressed matrix from a full one with a caller-supplied list of kept indices represents the same matrix, whatever the order of that list. (Violated for lists that are not strictly increasing.)", "quantifier": "every full matrix and every list of indices covering its off-identity part", "why_tests_cant": "All orders of the list.", "anchors": ["src/flowstab/sparse_stoch_mat.py: SparseStochMat.from_full_csr_matrix, SparseStochMat.__init__"]}
{"id": "C18", "title": "Sparse autocovariance: element and block sums", "statement": "get_element, submatrix sums, row sums and column sums of the sparse autocovariance equal the corresponding entry and sums of its dense form PT - p1 p2^T, for scalar and vector p1, p2.", "quantifier": "every sparse autocovariance matrix and all index lists", "why_tests_cant": "All sparsity patterns and index lists.", "anchors": ["src/flowstab/sparse_stoch_mat.py: SparseAutocovMat.get_submat_sum, get_element, get_row_idx_sum, get_col_idx_sum, toarray", "src/flowstab/_cython_subst.py: get_submat_sum"]}
{"id": "C19", "title": "Sparse gain computations are exact", "statement": "The gain reported for moving a node into (out of) a cluster equals the exact change of the sum of autocovariances within clusters. (Violated by the fast path when the row of the moved node has no stored entry at or before the diagonal inside its own row; holds for rows that satisfy the guard.)", "quantifier": "every sparse matrix, node and cluster", "why_tests_cant": "All sparsity patterns, in particular empty rows.", "anchors": ["src/flowstab/_cython_subst.py: compute_delta_PT_moveto, compute_delta_PT_moveout, compute_delta_S_moveto", "src/flowstab/sparse_stoch_mat.py: SparseAutocovMat._compute_delta_S_moveto, _compute_delta_S_moveout"]}
{"id": "C20", "title": "Aggregation preserves block sums", "statement": "Aggregating an autocovariance over a list of disjoint index groups gives a matrix whose (a,b) entry is the sum of the original entries between group a and group b, and both implementations of the aggregation agree.", "quantifier": "every autocovariance matrix and every partition of its indices", "why_tests_cant": "All partitions and patterns.", "anchors": ["src/flowstab/sparse_stoch_mat.py: SparseAutocovMat.aggregate", "src/flowstab/_cython_sparse_stoch.pyx: aggregate_csr_mat, aggregate_csr_mat_2"]}
{"id": "C21", "title": "Autocovariance of a Markov transition has vanishing row and column sums", "statement": "Built from a row-stochastic transition matrix with initial distribution p1 and p2 = p1 T, the autocovariance has all row sums and all column sums equal to zero; hence the stability of the one-cluster partition is zero.", "quantifier": "every stochastic matrix and distribution of any size", "why_tests_cant": "All matrices.", "anchors": ["src/flowstab/sparse_stoch_mat.py: SparseAutocovMat.from_T, from_T_forward", "src/flowstab/network_clustering.py: BaseClustering._compute_S, Clustering.compute_stability"]}
{"id": "C22", "title": "Forward flow autocovariance is symmetric, has zero row sums and is positive semidefinite", "statement": "The integral autocovariance built from stochastic transition matrices and positive time steps is symmetric, has zero row sums, and every quadratic form on it is nonnegative.", "quantifier": "every list of stochastic matrices, every positive time grid, every positive initial distribution", "why_tests_cant": "All matrices and numbers of steps.", "anchors": ["src/flowstab/network_clustering.py: FlowIntegralClustering._compute_integral", "src/flowstab/sparse_stoch_mat.py: SparseAutocovMat.from_T_forward"]}
{"id": "C23", "title": "Partition consistency", "statement": "Starting from any constructor call with a valid argument, after any sequence of node moves to existing clusters and removals of empty clusters, the cluster list and the node-to-cluster map describe the same partition of the nodes 0..N-1: every node is in exactly one cluster and the map gives that cluster.", "quantifier": "every constructor argument and every finite sequence of operations", "why_tests_cant": "Unbounded sequences of operations.", "anchors": ["src/flowstab/network_clustering.py: Partition.__init__, move_node, remove_empty_clusters, iter_cluster_node_index"]}
{"id": "C24", "title": "Integrity check is exact", "statement": "check_integrity succeeds if and only if the clusters form a partition of the node set 0..N-1. (Violated: it accepts clusters with out-of-range nodes; it is exact for pairwise disjointness and total count.)", "quantifier": "every cluster list", "why_tests_cant": "All cluster lists.", "anchors": ["src/flowstab/network_clustering.py: Partition.check_integrity"]}
{"id": "C25", "title": "Failed node move is atomic", "statement": "If move_node raises because the target cluster does not exist, the partition is unchanged. (Violated: the node is lost from the cluster list.)", "quantifier": "every partition, node and target index", "why_tests_cant": "All partitions.", "anchors": ["src/flowstab/network_clustering.py: Partition.move_node"]}
{"id": "C26", "title": "Dense Louvain gains are exact", "statement": "For the dense clustering, the change of stability reported when a node leaves its cluster plus the one reported when it joins another equals the difference of compute_stability after and before the move.", "quantifier": "every matrix (not necessarily symmetric), partition, node and target", "why_tests_cant": "All matrices and partitions.", "anchors": ["src/flowstab/network_clustering.py: Clustering._compute_delta_stab_moveto, _compute_delta_stab_moveout, compute_stability"]}
{"id": "C27", "title": "A sweep of Louvain moves never decreases stability and reports the exact gain", "statement": "Whatever the random node order and the iteration limits, one call of the node-moving phase ends with a valid partition whose stability equals the initial stability plus the reported gain, and the reported gain is nonnegative.", "quantifier": "every matrix, initial partition, sequence of random orders, thresholds and limits", "why_tests_cant": "All random schedules.", "anchors": ["src/flowstab/network_clustering.py: Clustering._louvain_move_nodes, Clustering._potential_new_clusters"]}
{"id": "C28", "title": "Aggregation preserves stability", "statement": "The stability of a clustering of the aggregated network equals the stability of the induced clustering of the original nodes, and the induced clustering is a valid partition.", "quantifier": "every matrix, partition and clustering of its clusters", "why_tests_cant": "All matrices and partitions.", "anchors": ["src/flowstab/network_clustering.py: Clustering._aggregate_clusters, BaseClustering._get_updated_partition"]}
{"id": "C29", "title": "Louvain never returns a partition worse than its start", "statement": "find_louvain_clustering ends with a valid partition of the nodes whose stability is at least that of the initial partition, for every random seed and limit. (Holds from the default singleton partition; violated when an initial partition is supplied or when the method is called a second time on the same object.)", "quantifier": "every matrix, seed, limits and starting partition", "why_tests_cant": "All random schedules and inputs.", "anchors": ["src/flowstab/network_clustering.py: Clustering.find_louvain_clustering, BaseClustering.find_louvain_clustering"]}
{"id": "C30", "title": "Louvain terminates", "statement": "The meta-loop runs at most n_meta_iter_max+1 iterations and each node-moving phase at most n_sub_iter_max sweeps.", "quantifier": "every matrix, schedule and limits", "why_tests_cant": "Worst case over all schedules.", "anchors": ["src/flowstab/network_clustering.py: BaseClustering.find_louvain_clustering, Clustering._louvain_move_nodes"]}
{"id": "C31", "title": "Node relabelling is an order-preserving bijection", "statement": "Node labels in the input events are replaced by 0..n-1 through an order-preserving bijection whose inverse is stored, so that the relabelled events mapped back give the original events, only reordered by time.", "quantifier": "every list of events", "why_tests_cant": "All inputs.", "anchors": ["src/flowstab/temporal_network.py: ContTempNetwork.__init__"]}
{"id": "C32", "title": "Closest-time lookup", "statement": "The index used for a requested time is that of the largest event time not exceeding it, or the first event time if there is none.", "quantifier": "every nonempty increasing time grid and every time", "why_tests_cant": "All grids and times.", "anchors": ["src/flowstab/temporal_network.py: ContTempNetwork._get_closest_time, _compute_time_grid"]}
{"id": "C33", "title": "Laplacians describe the active contacts", "statement": "For events that do not overlap on the same pair and have no self-loops, the k-th Laplacian is the random-walk Laplacian of the graph of the pairs active during the k-th inter-event interval, whatever window was requested. (Violated with overlapping events of the same pair or self-loops.)", "quantifier": "every event list, every window", "why_tests_cant": "All event sequences; needs an invariant over the event loop.", "anchors": ["src/flowstab/temporal_network.py: ContTempNetwork.compute_laplacian_matrices"]}
{"id": "C34", "title": "Laplacian rows sum to zero", "statement": "Every Laplacian produced has zero row sums and nonpositive off-diagonal entries, so its exponential is a stochastic matrix.", "quantifier": "every event list without self-loops, every window and every inter-event interval", "why_tests_cant": "All event sequences.", "anchors": ["src/flowstab/temporal_network.py: ContTempNetwork.compute_laplacian_matrices, compute_inter_transition_matrices"]}
{"id": "C35", "title": "Merging overlapping contacts preserves activity", "statement": "Merging overlapping events keeps, for each pair, exactly the set of times at which the pair was in contact. (Violated when an event is contained in another one.)", "quantifier": "every event table", "why_tests_cant": "All overlap patterns.", "anchors": ["src/flowstab/temporal_network.py: ContTempNetwork._merge_overlapping_events"]}
{"id": "C36", "title": "Static adjacency matrix", "statement": "The static adjacency matrix over a window is symmetric and its entry for a pair of nodes is the total contact time of the pair within the window; it is additive over consecutive windows.", "quantifier": "every event list and window", "why_tests_cant": "All event lists and windows.", "anchors": ["src/flowstab/temporal_network.py: ContTempNetwork.compute_static_adjacency_matrix"]}
{"id": "C37", "title": "Transition matrices are cached consistently", "statement": "Inter-event transition matrices returned for a rate are those of the Laplacians currently held. (Violated: recomputing Laplacians for another window keeps the matrices cached for the same rate.)", "quantifier": "every history of compute_laplacian_matrices and compute_inter_transition_matrices calls", "why_tests_cant": "All histories.", "anchors": ["src/flowstab/temporal_network.py: ContTempNetwork.compute_inter_transition_matrices, compute_laplacian_matrices"]}
{"id": "C38", "title": "Cumulative transition matrices", "statement": "The k-th cumulative transition matrix is the ordered product of the first k+1 inter-event matrices (of the reversed list when time is reversed) and is stochastic; normalisation does not change it in exact arithmetic.", "quantifier": "every list of stochastic matrices", "why_tests_cant": "Any number of steps.", "anchors": ["src/flowstab/temporal_network.py: ContTempNetwork.compute_transition_matrices", "src/flowstab/network_clustering.py: FlowIntegralClustering.__init__"]}
{"id": "C39", "title": "Delta-encoded saving of transition matrices", "statement": "Saving inter-event matrices as successive differences and loading them returns the same list. (Holds without rounding; violated with rounding of zeros, which deletes negative differences.)", "quantifier": "every list of matrices of the same shape", "why_tests_cant": "All lists.", "anchors": ["src/flowstab/temporal_network.py: ContTempNetwork.save_inter_T, load_inter_T, set_to_zeroes"]}
{"id": "C40", "title": "Linear approximation of the transition matrix is stochastic", "statement": "For a stochastic T with stationary projection Pi, every nonnegative time and stationarity time t_s > 1, the linear approximation is stochastic, is the identity at time 0, T at time 1, Pi from t_s on, and is continuous in between; negative times are rejected.", "quantifier": "every stochastic matrix, Pi and real time", "why_tests_cant": "All times and matrices.", "anchors": ["src/flowstab/temporal_network.py: lin_approx_trans_matrix, sparse_lin_approx"]}
{"id": "C41", "title": "Stationary transition matrix", "statement": "The stationary transition matrix is stochastic, constant on the components of the graph, idempotent, and invariant under the random walk: Pi T = Pi and T Pi = Pi for undirected graphs.", "quantifier": "every undirected graph without self-loops", "why_tests_cant": "All graphs.", "anchors": ["src/flowstab/temporal_network.py: compute_stationary_transition, sparse_stationary_trans"]}
{"id": "C42", "title": "Variation of information is a normalised metric", "statement": "norm_var_information equals the normalised variation of information; it is symmetric, between 0 and 1, zero exactly for equal partitions, and satisfies the triangle inequality; the early exit from the inner loop does not change the value.", "quantifier": "all partitions of N nodes, every N", "why_tests_cant": "All partitions.", "anchors": ["src/flowstab/network_clustering.py: norm_var_information", "src/flowstab/_cython_fast_funcs.pyx: cython_nvi"]}
{"id": "C43", "title": "Mutual information", "statement": "norm_mutual_information equals normalised mutual information, is symmetric and lies between 0 and 1 whenever both partitions have more than one cluster.", "quantifier": "all partitions of N nodes", "why_tests_cant": "All partitions.", "anchors": ["src/flowstab/network_clustering.py: norm_mutual_information", "src/flowstab/_cython_fast_funcs.pyx: cython_nmi"]}
{"id": "C44", "title": "Sorted intersection length", "statement": "The merge loop returns the size of the intersection of two strictly increasing vectors.", "quantifier": "all pairs of strictly increasing vectors", "why_tests_cant": "All lengths.", "anchors": ["src/flowstab/_cython_fast_funcs.pyx: sorted_vectors_intersection_length"]}
{"id": "C45", "title": "Jaccard distance returns a distance", "statement": "jaccard_distance returns the Jaccard distance of two clusterings. (Violated: it returns None on every input.)", "quantifier": "all inputs", "why_tests_cant": "All inputs.", "anchors": ["src/flowstab/network_clustering.py: jaccard_distance"]}
{"id": "C46", "title": "sort_clusters returns a permutation and terminates", "statement": "sort_clusters terminates and returns, for each time, the same clusters as given, each exactly once, whenever clusters are nonempty and thresh_ratio <= 1.", "quantifier": "all lists of clusters", "why_tests_cant": "All inputs.", "anchors": ["src/flowstab/network_clustering.py: sort_clusters"]}
{"id": "C47", "title": "Flow integral uses the right time steps", "statement": "Each transition matrix in the flow integral is weighted by the length of its own inter-event interval and the weights sum to the total time, forward and backward in time. (Violated when the pipeline is restricted to a time window, because the full time list is paired with the windowed matrices.)", "quantifier": "every time list and every window", "why_tests_cant": "All time lists.", "anchors": ["src/flowstab/network_clustering.py: FlowIntegralClustering.__init__, _compute_integral", "src/flowstab/flow_stability.py: FlowStability.set_flow_clustering"]}
{"id": "C48", "title": "Synthetic network events are well-formed", "statement": "In every simulation run each recorded contact ends no earlier than it starts, joins two different individuals, and no two recorded contacts of the same ordered pair overlap.", "quantifier": "every population, every sequence of nonnegative random draws", "why_tests_cant": "All random draws.", "anchors": ["src/flowstab/synth_temp_network.py: SynthTempNetwork.run, put_event, get_new_partner"]}
{"id": "C49", "title": "Work splitting covers every slice exactly once", "statement": "The batches given to the different machines partition the list of time slices: concatenated in order they give back the full list. The time slices tile the analysed interval.", "quantifier": "every number of slices and batches", "why_tests_cant": "All sizes.", "anchors": ["src/flowstab/scripts/run_laplacians_transmats.py: time_slices, batch"]}
{"id": "C50", "title": "Interrupted covariance integration can be resumed", "statement": "Restarting run_cov_integrals after it stopped at any grid point produces the same saved integrals as an uninterrupted run (exact arithmetic, no trimming), although only the upper triangle is saved.", "quantifier": "every crash point and every sequence of matrices", "why_tests_cant": "All crash points.", "anchors": ["src/flowstab/scripts/run_cov_integrals.py: worker, load_trans_mat"]}
{"id": "C51", "title": "Interrupted clustering run can be resumed", "statement": "If run_clusterings stopped after saving intermediate clusterings, a restart eventually writes the result file with the saved clusterings. (Violated: every restart fails and never writes it.)", "quantifier": "every crash point and number of restarts", "why_tests_cant": "All crash histories.", "anchors": ["src/flowstab/scripts/run_clusterings.py: worker"]}
{"id": "C52", "title": "Indicator matrix of a partition", "statement": "The sparse and the dense indicator matrices of a partition are the same 0/1 matrix: the entry of node v and cluster i is one exactly when v is in cluster i, and every row has exactly one one.", "quantifier": "every consistent partition, every order in which Python lists its sets", "why_tests_cant": "All partitions and set orders.", "anchors": ["src/flowstab/network_clustering.py: Partition.get_indicator"]}
{"id": "C53", "title": "Louvain moves are greedy", "statement": "When Louvain handles a node, only that node can move, and it ends in a cluster such that moving it instead into the cluster of any of its neighbours would not give a higher stability.", "quantifier": "every matrix, partition, node and candidate order", "why_tests_cant": "All matrices and orders.", "anchors": ["src/flowstab/network_clustering.py: Clustering._louvain_move_nodes, _potential_new_clusters"]}
{"id": "C54", "title": "Louvain handles every transition matrix the constructor accepts", "statement": "find_louvain_clustering returns for every transition matrix accepted by the constructor, including matrices with zero rows. (Violated: a zero row can raise AssertionError after aggregation; it returns when no row is zero.)", "quantifier": "every accepted transition matrix, covariance and schedule", "why_tests_cant": "All matrices and random seeds.", "anchors": ["src/flowstab/network_clustering.py: BaseClustering.__init__, find_louvain_clustering, Clustering._aggregate_clusters"]}
{"id": "C55", "title": "The all-zeros test of an autocovariance", "statement": "is_all_zeros answers True exactly when every entry of the represented matrix PT - p1 p2 is zero up to the closeness tolerance. (Violated: only stored entries are inspected.)", "quantifier": "every autocovariance object", "why_tests_cant": "All sparsity patterns and values.", "anchors": ["src/flowstab/sparse_stoch_mat.py: SparseAutocovMat.is_all_zeros"]}
{"id": "C56", "title": "A network built from an events table behaves like one built from event lists", "statement": "Passing the events as a table, or as the path of a csv file, gives the same network as passing the four lists: nodes are relabelled 0..n-1 and every later computation succeeds. (Violated: a path fails with an AttributeError and a table is never relabelled, so labels other than 0..n-1 make the Laplacians fail.)", "quantifier": "every finite table of events with arbitrary node labels", "why_tests_cant": "All label sets and tables.", "anchors": ["src/flowstab/temporal_network.py: ContTempNetwork.__init__, _compute_laplacians"]}
{"id": "C57", "title": "Instantaneous networks", "statement": "For a network of instantaneous events the k-th Laplacian of a window is the random-walk Laplacian of exactly the contacts that happen at the k-th time of the window, and the ending time given to an event is the next starting time of the network.", "quantifier": "every finite list of instantaneous events and every window", "why_tests_cant": "All event lists and windows.", "anchors": ["src/flowstab/temporal_network.py: ContTempInstNetwork.__init__, compute_laplacian_matrices"]}
{"id": "C58", "title": "Computing cumulative matrices does not change the inter-event matrices", "statement": "After compute_transition_matrices the inter-event transition matrices of every rate are what they were before the call. (Holds without tolerance; violated with a tolerance, which rounds and renormalises the stored matrices in place.)", "quantifier": "every network state, rate, direction and tolerance", "why_tests_cant": "All states and tolerances.", "anchors": ["src/flowstab/temporal_network.py: ContTempNetwork.compute_transition_matrices, set_to_zeroes"]}
{"id": "C59", "title": "Transition matrices depend on the contacts only", "statement": "The inter-event matrix of an interval is the propagator of a continuous-time random walk on the graph of the contacts active in that interval, over its length and at the given rate. The transition matrix of a window therefore depends only on which contacts are active when: cutting contacts into consecutive events, or adding events that do not change who is in contact, gives the same matrix, in both time directions.", "quantifier": "every pair of event lists with the same activity in a window, every rate and both time directions", "why_tests_cant": "All event lists, windows and rates; equality of matrix exponentials of arbitrary size.", "anchors": ["src/flowstab/temporal_network.py: ContTempNetwork.compute_inter_transition_matrices, compute_transition_matrices"]}
{"id": "C60", "title": "All ways of computing the exponential agree", "statement": "Computing the inter-event matrix column by column in parallel, component by component, on the nodes with contacts only, or densely, gives the same matrix up to rounding; trimming small entries leaves a stochastic matrix.", "quantifier": "every Laplacian, partition into components and combination of options", "why_tests_cant": "All graph structures and option combinations.", "anchors": ["src/flowstab/temporal_network.py: sparse_lapl_expm, compute_subspace_expm", "src/flowstab/parallel_expm.py: compute_parallel_expm, compute_subspace_expm_parallel"]}
{"id": "C61", "title": "Linear inter-event matrices", "statement": "compute_lin_inter_transition_matrices gives, for every interval of the window, a stochastic matrix: the linear interpolation from the identity to the random walk and to the stationary matrix of the contacts active in that interval, dense or sparse. (Violated when the window is changed, the stationary matrices of the first window are kept, and for windows without interval with the sparse option, where the method fails.)", "quantifier": "every event list, window, rate, stationarity time and option", "why_tests_cant": "All event lists and histories of calls.", "anchors": ["src/flowstab/temporal_network.py: ContTempNetwork.compute_lin_inter_transition_matrices, _compute_stationary_transition, sparse_lin_approx, lin_approx_trans_matrix"]}
{"id": "C62", "title": "All versions of the variation of information agree", "statement": "The versions of the normalised variation of information on lists of sets, on integer vectors in any order and on indicator matrices return the same number for the same two clusterings. (Violated by the parallel version: it accumulates into uninitialised memory, so its result is off by the content of that memory.)", "quantifier": "all pairs of clusterings of the same nodes, every order of the nodes inside the vectors, every content of uninitialised memory", "why_tests_cant": "Freshly allocated memory is often zero in a test process; all clusterings and orders.", "anchors": ["src/flowstab/_cython_fast_funcs.pyx: cython_nvi_vectors, cython_nvi_mat, cython_nvi_parallel"]}
{"id": "C63", "title": "Average variation of information of an ensemble", "statement": "For two or more clusterings of the same nodes the average variation of information is a number between 0 and 1 whichever pairs are drawn; without a limit on the number of pairs it is the mean over all pairs, does not depend on the random generator, and is zero exactly if all clusterings are equal.", "quantifier": "all lists of at least two clusterings, every number of pairs asked for, every draw", "why_tests_cant": "All draws of the random generator.", "anchors": ["src/flowstab/network_clustering.py: avg_norm_var_information", "src/flowstab/parallel_clustering.py: compute_parallel_nvi"]}
{"id": "C64", "title": "A simulation loses and invents no contact", "statement": "At every moment of a simulation the contacts that have begun are exactly the recorded ones, with the start and the end they were given, and the ones still in progress; the adjacency matrix shows exactly the pairs in contact.", "quantifier": "every population, every sequence of nonnegative random draws, every number of steps", "why_tests_cant": "All random draws.", "anchors": ["src/flowstab/synth_temp_network.py: SynthTempNetwork.run, put_event"]}
{"id": "C65", "title": "Simulated contacts respect the groups", "statement": "With the method random_uniform_within_group all contacts stay inside the groups; with block_probs and block_probs_mod a contact is only made with a group that has a nonzero probability, for time-dependent probabilities at the time the contact begins. The groups are those of the positions in the list of individuals (see C97 for lists that are not in the order of the IDs).", "quantifier": "every population, all probabilities and all random draws", "why_tests_cant": "All random draws.", "anchors": ["src/flowstab/synth_temp_network.py: SynthTempNetwork.get_new_partner"]}
{"id": "C66", "title": "Simulations end without failure", "statement": "With distinct IDs from 0 to N-1, groups from 0 to Ngroups-1 and valid probabilities the simulation raises no exception and never searches for a partner that does not exist, and it ends after a number of steps bounded in terms of the shortest time between activations. (Violated for a row of zeros in inter_group_probs.)", "quantifier": "every population, all random draws", "why_tests_cant": "All random draws, all lengths.", "anchors": ["src/flowstab/synth_temp_network.py: SynthTempNetwork.run, get_new_partner"]}
{"id": "C67", "title": "Every simulated individual stays active", "statement": "At every moment of a simulation each individual has exactly one activation ahead; an activated individual goes without a contact under the uniform methods only if it is already in contact with everybody it could choose.", "quantifier": "every population, all random draws, every number of steps", "why_tests_cant": "All random draws.", "anchors": ["src/flowstab/synth_temp_network.py: SynthTempNetwork.run, put_event, get_new_partner"]}
{"id": "C68", "title": "The saved summary of repeated clusterings describes them", "statement": "In the result of run_clusterings the best clustering was found by one of the repetitions and no repetition has a larger stability; the counter has one entry for each different clustering, independent of the order of clusters and nodes, with the number of repetitions that found it; the averages are over all repetitions; the variation of information is averaged over the requested number of different pairs of repetitions, at most and by default all of them.", "quantifier": "every list of repetitions, every random choice of pairs, every requested number of pairs", "why_tests_cant": "All outcomes of random repetitions, with ties and repeated clusterings.", "anchors": ["src/flowstab/scripts/run_clusterings.py: worker"]}
{"id": "C69", "title": "Clustering with sparse matrices", "statement": "SparseClustering reports the sum of the covariance over pairs of nodes in the same cluster as stability; its Louvain search from the default partition returns a valid partition that is no worse than the start, and with the same random orders it finds the same partition as the dense Clustering of the same transition matrix. (Violated for transition matrices with a row without stored entries: the search then accepts moves that lower the stability.)", "quantifier": "every sparse transition matrix and probability vector, every order of nodes and candidate clusters, every threshold and iteration limit", "why_tests_cant": "All matrices and all random orders.", "anchors": ["src/flowstab/network_clustering.py: SparseClustering, Clustering.find_louvain_clustering", "src/flowstab/sparse_stoch_mat.py: SparseAutocovMat"]}
{"id": "C70", "title": "Clustering the connected components one by one", "statement": "With separate_comps, run_clusterings returns for every random order a clustering of all nodes (with initial probabilities: all nodes that are not alone with probability zero) whose clusters never cross connected components, and whose stability is the covariance inside the clusters; better runs have the larger reported stability. With only_largest_comp the clustering covers the largest component and one meta node for everything else. (The reported stability is violated: it is off by a number that depends on the data only, since the meta nodes that stand for the other components are counted and single nodes are not.)", "quantifier": "every saved covariance, every labelling of the connected components, every random order", "why_tests_cant": "All graphs and all random orders.", "anchors": ["src/flowstab/scripts/run_clusterings.py: load_autocov_int, _compute_sym_list_clustering_fct, _compute_clustering_fct", "src/flowstab/sparse_stoch_mat.py: SparseAutocovMat.aggregate"]}
{"id": "C71", "title": "The number of worker processes does not change the clusterings", "statement": "run_clusterings finds for every seed the same clusters with the same stability whether the repetitions run in the main process or in worker processes that rebuild the covariance from shared arrays.", "quantifier": "every covariance matrix with uniform or individual probabilities, every random order, whole network or separate components", "why_tests_cant": "All matrices and random orders.", "anchors": ["src/flowstab/scripts/run_clusterings.py: _init_sub_worker, _init_sub_worker_list, worker"]}
{"id": "C72", "title": "The clustered covariance is that of the saved flow", "statement": "run_clusterings, given a file of run_cov_integrals, clusters the mean over the integrated time of the covariances of the flow: symmetric, with zero row sums, whether it normalises or not; the reported stability is the sum of this covariance inside the clusters. This holds for files finished after any number of interrupted runs. Normalising makes the entries of every covariance without zero rows sum to zero. (Violated with a tolerance and with initial probabilities: every file of run_cov_integrals is then rejected.)", "quantifier": "every flow of stochastic matrices, every history of interrupted runs, every number of normalisations, every random order", "why_tests_cant": "All flows, histories and random orders.", "anchors": ["src/flowstab/scripts/run_clusterings.py: load_autocov_int", "src/flowstab/scripts/run_cov_integrals.py: worker", "src/flowstab/temporal_network.py: set_to_zeroes"]}
{"id": "C73", "title": "Clustering of a static network optimises Markov stability", "statement": "static_clustering of an undirected network returns an object whose transition matrix is the asked power, linear step or exponential of the random walk, whose probabilities are stationary, and whose covariance is symmetric with zero row and column sums. After one step, the stability of every partition is Newman's modularity; linearised, the time is the inverse of the resolution of the modularity. A strongly connected directed network gets its only stationary distribution. A ValueError is raised exactly for networks without weight. (Violated for directed networks where the solver returns another eigenvalue of modulus one, such as -1 on a bipartite network, and for discrete times that are not a Python int.)", "quantifier": "every weighted network, every time, every combination of options, every partition, every eigenvalue solver that returns an eigenpair", "why_tests_cant": "All networks, times and partitions.", "anchors": ["src/flowstab/network_clustering.py: static_clustering, Clustering.compute_stability"]}
{"id": "C74", "title": "Repeated Louvain clusterings of one object", "statement": "run_multi_louvain returns one result per repetition: a partition of the nodes beside its own stability, which is not below that of single nodes; every repetition depends on its own seed only, and the given object is not changed. (Violated for an object that holds a partition: all the repetitions start from single nodes and can all end with a lower stability than the given one.)", "quantifier": "every object with a stochastic matrix, every number of repetitions, every random order, every threshold and iteration limit", "why_tests_cant": "All matrices and random orders.", "anchors": ["src/flowstab/network_clustering.py: run_multi_louvain, n_random_seeds, Clustering.find_louvain_clustering"]}
{"id": "C75", "title": "Covariance between source and target clusters", "statement": "For two partitions of the nodes, at the start and at the end, the clustered covariance is the sum over the nodes of every pair of clusters; moving a node out of its pair of clusters and into any other pair updates it exactly, also for empty clusters and when only one of the two clusters changes; a node that is not in the pair is refused; zero row and column sums carry over. The optimal flow is the best full matching of source and target clusters, and its two maps are inverse to each other.", "quantifier": "every covariance matrix, every two partitions, every node, every pair of clusters, every solver of the assignment problem", "why_tests_cant": "All matrices, partitions and moves.", "anchors": ["src/flowstab/network_clustering.py: BaseClustering._compute_clustered_autocov, _compute_new_R_moveout, _compute_new_R_moveto, _find_optimal_flow"]}
{"id": "C76", "title": "Saving and loading a network", "statement": "A network loaded from the file it was saved to has the same contacts, labels, matrices and all other saved or derived attributes, whatever was computed before saving; the extension can be given or not, and saving under one name leaves networks saved under other names as they were. With lists of names, exactly the attributes that were saved and are asked for come back, and a file without the table or the labels is refused. For merged networks all but the durations comes back; these are corrected. (Violated for instantaneous networks: their class cannot load them, and the other class makes them continuous; and for names with a dot: net_0.1 and net_0.2 are the same file.)", "quantifier": "every network, every history of attribute assignments, every file name, every state of the disk, every list of attributes", "why_tests_cant": "All networks, histories and names.", "anchors": ["src/flowstab/temporal_network.py: ContTempNetwork.save, ContTempNetwork.load, ContTempNetwork.__init__, ContTempInstNetwork.__init__"]}
{"id": "C77", "title": "Normalisation of a symmetric matrix stored as its upper triangle", "statement": "The compiled normalisation of an upper triangle gives the symmetric matrix it stands for the asked row and column sums; it keeps the pattern of stored entries and the ratios inside every row of the triangle, and leaves a normalised matrix as it is; other than square matrices are refused. (Violated: a row whose needed sum is zero in an early pass is erased for good, as for the matrix of ones; and rows with a target of zero get other sums.)", "quantifier": "every upper triangle, every list of targets", "why_tests_cant": "All matrices and targets.", "anchors": ["src/flowstab/_cython_sparse_stoch.pyx: cython_inplace_csr_row_normalize_triu"]}
{"id": "C78", "title": "Clustering with a pool of processes gives the results of separate runs", "statement": "compute_parallel_clustering(clustering, num_repeat, nproc) returns one list of clusters, one stability and one seed per repetition, in the order in which the seeds were drawn, whatever the number of processes and the order in which they finish; running a clustering with a returned seed in one process gives the same clusters and the same stability; every list is a partition of the nodes and its stability is that of the clustering's own covariance and not below that of single nodes.", "quantifier": "every clustering object, every list of seeds, every order in which the processes finish", "why_tests_cant": "All interleavings of processes and all covariances.", "anchors": ["src/flowstab/parallel_clustering.py: compute_parallel_clustering, _init_sub_worker, _init_sub_worker_sparse, _compute_sym_clustering_fct, _compute_sym_sparse_clustering_fct"]}
{"id": "C79", "title": "Saving and loading of transition matrices", "statement": "Transition matrices saved with save_T, save_T_lin, save_inter_T or save_inter_T_lin are read back by load_T and load_inter_T under the same name: the same rates, and for every one the same matrices, without their entries below the tolerance when rounding is asked for; other files stay as they are and the network keeps its matrices. What cannot be saved is refused. (Violated: a network that holds compressed matrices for one rate and csr matrices for another is saved but cannot be loaded; a compressed file is hidden by an older uncompressed one of the same name; names with the extension of the other format are not found; save_inter_T rounds the matrices of the network itself, so that rows no longer sum to one, and does not replace existing files; save_inter_T_lin fails without a rate.)", "quantifier": "every table of matrices, every file name, every state of the disk, every tolerance", "why_tests_cant": "All matrices, names and earlier files.", "anchors": ["src/flowstab/temporal_network.py: ContTempNetwork.save_T, save_T_lin, load_T, save_inter_T, save_inter_T_lin, load_inter_T", "src/flowstab/sparse_stoch_mat.py: SparseStochMat.to_dict, SparseStochMat.__init__"]}
{"id": "C80", "title": "Interrupted computations of the transition matrices of a time slice", "statement": "However often run_laplacians_transmats is stopped, running it again with the same options leaves every requested file of every waiting time (inter-event matrices, products in both directions of time, integrals) with the right content, and files that are there are not computed or written again. (Violated: with save_inter_T and the default format the products depend on where a run was stopped, because saving rounds the matrices in memory; a file cut off in the middle is never repaired; inter-event matrices and integrals that are asked for after the products exist are never written; waiting times that agree in four digits share their files.)", "quantifier": "every list of waiting times, every combination of options, every history of runs that were stopped between two writes", "why_tests_cant": "All crash points and histories.", "anchors": ["src/flowstab/scripts/run_laplacians_transmats.py: worker"]}
{"id": "C81", "title": "From contacts to communities", "statement": "An analysis with FlowStability, from the table of contacts through set_temporal_network, compute_laplacian_matrices, compute_inter_transition_matrices, set_flow_clustering and find_louvain_clustering, ends with communities for every time scale and both directions of time: each label is in exactly one cluster, and the covariance of the flow of the random walk on the contacts within the clusters is not smaller than that of single labels. (Violated: with a window t_start/t_stop the last step raises; a window set after a first run is ignored and the communities of the whole time are returned; with the time scale None, the default, the steps are refused or raise; with linear_approx=True set_flow_clustering raises.)", "quantifier": "all contacts between labels that do not overlap for a pair, all positive time scales, all random choices and iteration limits, all states of a used instance", "why_tests_cant": "Quantifies over all contact tables, scales, seeds and histories, and joins five classes; the exponential and the covariance are real numbers.", "anchors": ["src/flowstab/flow_stability.py: FlowStability", "src/flowstab/temporal_network.py: ContTempNetwork", "src/flowstab/network_clustering.py: FlowIntegralClustering, Clustering"]}
{"id": "C82", "title": "Cumulative linear matrices", "statement": "After any session of calls on a network of lasting contacts that keeps its options, compute_lin_inter_transition_matrices followed by compute_lin_transition_matrices stores for the rate and t_s one linear approximation per interval of the window and their stochastic products in the order asked for. (Violated with the default rate, which the second method never finds; when another direction is asked for, which is ignored; and after an exception, when the matrices made so far are taken for the whole list.)", "quantifier": "every table of lasting non-overlapping contacts, window, rate, t_s, option and session of earlier calls, also ones that raised", "why_tests_cant": "All networks and all histories of calls.", "anchors": ["src/flowstab/temporal_network.py: ContTempNetwork.compute_lin_inter_transition_matrices, compute_lin_transition_matrices"]}
{"id": "C83", "title": "Transition matrices of instantaneous contacts", "statement": "For a network of instantaneous contacts, repeated or not, after any session that keeps its options, the inter-event matrices are, one per time of the window, the exponentials (or linear approximations) of minus the rate times the random-walk Laplacian of the contacts at that time, whatever the time to the next contact; the cumulative matrices are their stochastic products in the order asked for; fix_tau_k is refused.", "quantifier": "every table of instantaneous contacts without self-loops, window, rate and session of earlier calls", "why_tests_cant": "All networks and all histories of calls.", "anchors": ["src/flowstab/temporal_network.py: ContTempInstNetwork.compute_laplacian_matrices, compute_inter_transition_matrices, compute_lin_inter_transition_matrices, ContTempNetwork.compute_transition_matrices"]}
{"id": "C84", "title": "Stopped runs and recorded progress of the Louvain search", "statement": "However a run of Clustering.find_louvain_clustering ends (result, exception, interrupt at any point), the object keeps a valid partition that is no worse than before, the attribute partition and compute_stability agree, the attribute changes only with a completed run, and with save_progress the recorded partitions start with the initial one, get coarser and better, and end with the result; recording does not change the run. (Violated: after an interrupt or exception compute_stability describes another partition than the attribute; from a supplied partition the recorded stability can go down; with a negligible covariance the result is not recorded.)", "quantifier": "every matrix, random choice, limit, stop point and option", "why_tests_cant": "All stop points of all runs.", "anchors": ["src/flowstab/network_clustering.py: BaseClustering.find_louvain_clustering, Clustering.find_louvain_clustering, Clustering._save_progress"]}
{"id": "C85", "title": "Sessions on a flow clustering", "statement": "After any session of find_louvain_clustering(k) calls on a FlowIntegralClustering, also with calls that were stopped or failed, every stored partition is a valid one for the covariance of its interval, trimmed as asked, no worse than the default one; later calls never change it, calls for other intervals do not touch it, a call that fails before the search can be repeated, and a call for an interval without partition stores one. (Violated: after a stopped or failed search the interval never gets a partition; a second call is ignored with all its arguments; an index counted from the end takes the transition matrix of another interval.)", "quantifier": "every flow clustering with dense matrices, every sequence of calls, indices, arguments, random choices and stop points", "why_tests_cant": "All histories of calls and all stop points.", "anchors": ["src/flowstab/network_clustering.py: FlowIntegralClustering.find_louvain_clustering"]}
{"id": "C86", "title": "Partitions and clusterings are independent of each other", "statement": "A Partition (or the partition of a Clustering) changes only through its own methods: whatever other partitions and clusterings are made, moved, cleaned or optimised, in any order, and whatever the caller does with their own lists, each partition is what its own operations make of it. In particular find_louvain_clustering works on a copy: it never changes the cluster list it was started from, nor any partition obtained earlier, beyond removing empty clusters. (Violated for partitions made from one list of clusters: the list's sets are shared, so a move in one partition makes the other inconsistent and changes the caller's list.)", "quantifier": "all finite sequences of constructions (default, dictionary, list), moves, removals of empty clusters, Louvain runs and changes by the caller", "why_tests_cant": "sharing of mutable objects only shows for particular combinations of calls on several objects; tests use one object at a time", "anchors": ["src/flowstab/network_clustering.py: Partition.__init__, Partition.move_node, Partition.remove_empty_clusters, BaseClustering.find_louvain_clustering, BaseClustering._get_updated_partition, Clustering._update_to_fullpart"]}
{"id": "C87", "title": "Louvain with separate source and target partitions", "statement": "For every clustering class built on BaseClustering, whatever its stability of a clustered covariance matrix and its candidate clusters, the node-moving phase ends within n_sub_iter_max rounds, leaves both partitions valid partitions of all nodes, moves each node to a candidate pair of clusters that no other candidate beats, and reports a non-negative gain that is exactly the change in stability computed from the definition; the aggregated arrays describe the clusters and a clustering can be constructed from them for the next level. (Violated for the last part: the constructor raises unless there are as many source as target clusters, or a single source cluster.)", "quantifier": "all stability functions and candidate rules of subclasses, all covariance matrices, pairs of partitions, node orders and limits", "why_tests_cant": "the incremental updates of the clustered covariance over many moves must agree with recomputation for every history; the failing shapes need a subclass with different numbers of clusters", "anchors": ["src/flowstab/network_clustering.py: BaseClustering._louvain_move_nodes, BaseClustering._aggregate_clusters, BaseClustering.__init__, BaseClustering.compute_stability, BaseClustering._potential_new_clusters"]}
{"id": "C88", "title": "Compressed matrices stay usable after row normalisation", "statement": "A SparseStochMat that was row-normalised in place can be added, subtracted and multiplied like before, with the same results whether the compiled or the Python helper routines are loaded; hence compute_transition_matrices on compressed inter-event matrices completes, leaves the inter-event matrices as they were when no tolerance is given, and stores the products of the first, the first two, ... matrices. (Violated with the compiled routines: the normalised matrix has 64-bit indices, which they refuse; the computation raises on the third matrix, or on the second one with a tolerance, and calling it again returns without error and without completing the list.)", "quantifier": "all compressed matrices, tolerances, options, and all lengths of the list of inter-event matrices", "why_tests_cant": "depends on which helper module is loaded and on the history of the operands; tests normalise a matrix but do not use it afterwards", "anchors": ["src/flowstab/sparse_stoch_mat.py: SparseStochMat.inplace_row_normalize, SparseStochMat.__add__, SparseStochMat.__sub__, SparseStochMat.__matmul__, SparseStochMat.from_full_csr_matrix", "src/flowstab/_cython_sparse_stoch.pyx: stoch_mat_add, stoch_mat_sub, sparse_stoch_from_full_csr", "src/flowstab/temporal_network.py: ContTempNetwork.compute_transition_matrices"]}
{"id": "C89", "title": "The sparse clustering does not depend on the version of the helper routines", "statement": "find_louvain_clustering and compute_stability of a SparseClustering give the same result whether the compiled helper routines or their Python replacements are loaded. (Violated: with the replacements compute_stability always raises AttributeError; the search raises AttributeError on the first node visited when p1 and p2 are vectors, and, when they are numbers and the search starts from the default partition, as soon as two different nodes share a stored value; otherwise both versions end with the same result.)", "quantifier": "all stored covariances, both kinds of weights, all partitions, node orders, listings of sets and limits", "why_tests_cant": "tests run with one version of the helper routines only", "anchors": ["src/flowstab/sparse_stoch_mat.py: SparseAutocovMat.get_submat_sum, SparseAutocovMat._compute_delta_S_moveto, SparseAutocovMat._compute_delta_S_moveout, SparseAutocovMat.aggregate", "src/flowstab/_cython_subst.py: get_submat_sum, compute_delta_PT_moveto, compute_delta_S_moveto, cython_compute_delta_S_moveout, aggregate_csr_mat", "src/flowstab/network_clustering.py: SparseClustering, BaseClustering.find_louvain_clustering"]}
{"id": "C90", "title": "Helper functions on sparse matrices", "statement": "sparse_outer(p) is the matrix of the products p_i p_j (its upper triangle with triu or MKL) for every row p, and does not change the values of p; csc_row_normalize returns a copy in which every row with a sum that is not zero is divided by it; set_to_ones sets the values within the tolerance of one to one and no others; compute_S_0t0 is the forward covariance of the sparse class. (Violated: sparse_outer raises for a row without values, and without triu for a row with a single value; csc_row_normalize divides the matrix of the caller when given a CSR matrix; compute_S_0t0 raises where a final probability is zero.)", "quantifier": "all sparse rows and matrices, options, tolerances and probabilities", "why_tests_cant": "the failures need particular numbers of stored values or formats; agreement must hold for all patterns", "anchors": ["src/flowstab/sparse_stoch_mat.py: sparse_outer", "src/flowstab/temporal_network.py: csc_row_normalize, set_to_ones", "src/flowstab/_cython_fast_funcs.pyx: compute_S_0t0"]}
{"id": "C91", "title": "Removing and restoring empty rows and columns", "statement": "remove_nnz_rowcol keeps exactly the rows and columns with a stored entry, in order, with their values; numpy_rebuild_nnz_rowcol succeeds exactly if the listed rows are distinct and below the new size, fills its arrays completely and puts ones on the diagonal of the listed rows and the given entries elsewhere; doing one after the other gives the matrix again with ones on the diagonal of the empty rows.", "quantifier": "all sparse square matrices and lists of rows", "why_tests_cant": "holds for every pattern of empty rows and columns", "anchors": ["src/flowstab/temporal_network.py: remove_nnz_rowcol, numpy_rebuild_nnz_rowcol"]}
{"id": "C92", "title": "find_spectral_gap returns the spectral gap", "statement": "For the random-walk Laplacian of a connected undirected graph find_spectral_gap returns the smallest eigenvalue that is not zero. (Violated: the matrix given to the routine for symmetric matrices is symmetric only if all nodes have the same number of neighbours; in that case the gap is returned if it is below one, and minus one if it is above one, as for every complete graph.)", "quantifier": "all connected undirected graphs", "why_tests_cant": "holds or fails depending on the spectrum of the graph, over all graphs", "anchors": ["src/flowstab/temporal_network.py: find_spectral_gap"]}
{"id": "C93", "title": "The compiled sparse routines access only their arrays", "statement": "The compiled routines run without bounds checks. For every well-formed matrix and all valid arguments each element they read or write lies inside the array it belongs to, arrays that are filled are large enough, and the result is the dense result: block sums, aggregation by groups, gains for joining and leaving a cluster, row normalisation, extraction of the kept block, restoring of the full matrix, sum and difference of compressed matrices. (Violated: with diag_val=0 the extraction writes outside the new arrays as soon as the matrix has a zero row and column and enough entries; the gain routines read outside when the row of the node and all later rows are empty.)", "quantifier": "all well-formed sparse matrices, index lists, groups, clusters, targets and diagonal values", "why_tests_cant": "an access outside an array usually has no visible effect, so a test passes; the claim is about every access of every run", "anchors": ["src/flowstab/_cython_sparse_stoch.pyx: get_submat_sum, aggregate_csr_mat, aggregate_csr_mat_2, compute_delta_PT_moveto, compute_delta_PT_moveout, compute_delta_S_moveto, compute_delta_S_moveout, inplace_csr_row_normalize, inplace_csr_row_normalize_array, sparse_stoch_from_full_csr, rebuild_nnz_rowcol, stoch_mat_add, stoch_mat_sub", "src/flowstab/sparse_accumulator.cpp: SPA"]}
{"id": "C94", "title": "The compiled dense routines access only their arrays and agree with the numpy versions", "statement": "The compiled routines for dense matrices run without bounds checks. For every matrix, partition and distribution accepted by Clustering, Partition and the comparison measures, every element they read or write lies inside its array and they return what the numpy versions return: gains for moving a node, covariance from T, p1 and p2, round-trip covariance, mutual information, variation of information by indicator matrices. (Violated: Clustering does not compare the lengths of p1 and p2 with T when p2 is given, so the compiled module reads outside while numpy raises or broadcasts; Partition accepts a cluster that lists a node that does not exist, and the next gain reads outside.)", "quantifier": "all dense matrices, distributions of any length, partitions with any listed nodes, target clusters and cluster lists", "why_tests_cant": "a stray read usually returns some number without an error, so a test passes; agreement must hold for every input", "anchors": ["src/flowstab/_cython_fast_funcs.pyx: sum_Sto, sum_Sout, compute_S, compute_S_0t0, cython_nmi, cython_nvi_mat", "src/flowstab/_cython_subst.py: sum_Sto, sum_Sout, compute_S", "src/flowstab/network_clustering.py: BaseClustering.__init__, Clustering._compute_S, Partition.__init__, norm_mutual_information"]}
{"id": "C95", "title": "The parallel variation of information does not depend on the threads", "statement": "The parallel version of the variation of information (cython_nvi_parallel, an exported function that the package itself does not call) returns the same number for every number of threads and every order in which they run, equal to the serial value. (Violated: all threads of a row subtract from one element without synchronisation, so updates can be lost: whenever a row has at least two threads with work there is an order of accesses that ends with the update of a single thread only. With one thread, or if no update is interrupted, the sum is right.)", "quantifier": "all pairs of clusterings, all divisions of the loop among threads and all orders of loads and stores", "why_tests_cant": "a lost update needs a particular interleaving; repeated runs need not show it", "anchors": ["src/flowstab/_cython_fast_funcs.pyx: cython_nvi_parallel"]}
{"id": "C96", "title": "The component-wise exponential is the exponential, serial and parallel, for the stored arrays", "statement": "compute_subspace_expm computes the exponential of each block of nodes without transitions to other blocks and builds the arrays of the full matrix from them: the counts of the rows add up, every array is filled completely, the rows are sorted, and the entries are those of the exponential of the full matrix. compute_subspace_expm_parallel and compute_parallel_expm return the same for every matrix, number of processes and option. (Violated for matrices in CSR format: the block is sent to the processes as data, indices and indptr and read back as CSC, so the exponential of the transposed matrix is returned; after normalisation a transition without way back has probability zero although the walk makes it with positive probability. For CSC matrices, as documented, both versions return the same arrays.)", "quantifier": "all sparse square matrices in both formats, labelings of the nodes, thresholds, options and sizes of blocks", "why_tests_cant": "the format decides which branch is wrong and symmetric test matrices hide it; the reconstruction of the arrays must work for every labelling", "anchors": ["src/flowstab/parallel_expm.py: _init_worker, _worker, compute_parallel_expm, _stack_sparse_cols, _expm_worker, compute_subspace_expm_parallel", "src/flowstab/temporal_network.py: compute_subspace_expm"]}
{"id": "C97", "title": "Individuals are simulated with their own parameters and groups", "statement": "Every Individual given to SynthTempNetwork is activated at times and makes contacts of durations drawn with the parameters of its own distributions (location and scale, or the values of its modulating functions at the time of the draw), and its group is its own. A refused individual leaves no trace. (Violated: parameters and groups are looked up with the ID as position in the list, so for a list that is not in the order of the IDs individuals use the parameters and the group of others, and with random_uniform_within_group contacts can all join different groups; an individual refused because of its group or distribution leaves its ID in the class list all_IDs, which is then out of step with all_groups.)", "quantifier": "all lists of individuals with all distributions and modulating functions, all random numbers, all lengths of runs", "why_tests_cant": "tests list individuals in the order of their IDs; the claim ranges over all lists and random numbers", "anchors": ["src/flowstab/synth_temp_network.py: Distro, Individual, SynthTempNetwork.__init__, SynthTempNetwork.put_event"]}
{"id": "C98", "title": "Saved states of a simulation describe its contacts", "statement": "run with save_all_states or save_dt_states makes the same simulation as without; all_states has the start time and every time at which a contact begins or a recorded one ends, in order, and its matrix for a time shows exactly the pairs in contact then; saved_states are those of all_states at a constant frequency given by dt, whatever is asked for with save_all_states. (Violated: of several events at the same time only the first is in the matrix, exact otherwise; saved_states takes a state as soon as dt times the number of states saved before has passed since the start, so after a pause states follow each other at any distance.)", "quantifier": "all populations, random numbers, lengths of runs, values of dt and combinations of options", "why_tests_cant": "events at the same time and pauses longer than dt come up only for particular random numbers", "anchors": ["src/flowstab/synth_temp_network.py: SynthTempNetwork.run"]}
{"id": "C99", "title": "A second run of the same simulation", "statement": "Calling run again on the same SynthTempNetwork keeps the contacts recorded so far and adds those of a new simulation with the next random numbers. (Violated: contacts in progress at the end of the first run stay in progress, so the pairs concerned cannot meet in the second run, whatever is drawn; it holds until the end time if nobody is in contact when the first run ends.)", "quantifier": "all populations, random numbers and lengths of both runs", "why_tests_cant": "depends on the state left by the first run; tests call run once", "anchors": ["src/flowstab/synth_temp_network.py: SynthTempNetwork.run, SynthTempNetwork.initialize_events, SynthTempNetwork.get_new_partner"]}
{"id": "C100", "title": "Louvain clustering gives a valid partition in machine arithmetic", "statement": "Whatever the number operations do (round, overflow, meet NaN), for every covariance and transition matrix, schedule, threshold and limit, find_louvain_clustering of a dense Clustering ends within n_meta_iter_max + 1 levels, with a valid partition of all nodes without empty clusters, or with the AssertionError of the constructor about an aggregated transition matrix; a node only joins the cluster of a neighbour. With exact operations the run is the one of C26 to C30, with the compiled sums and with numpy.", "quantifier": "all arithmetics, matrices with any entries, node orders, orders in which sets are listed, thresholds and limits", "why_tests_cant": "NaN, overflow and ties caused by rounding come up only for particular numbers; validity must hold for all of them", "anchors": ["src/flowstab/network_clustering.py: BaseClustering.find_louvain_clustering, Clustering._louvain_move_nodes, Clustering._compute_delta_stab_moveto, Clustering._compute_delta_stab_moveout, Clustering._aggregate_clusters", "src/flowstab/_cython_fast_funcs.pyx: sum_Sto, sum_Sout"]}
{"id": "C101", "title": "In double precision the clustering found is not worse than the start", "statement": "The stability of the partition found by find_louvain_clustering is at least that of the partition it starts from, in double precision as well. (Violated: two nodes with a slightly negative covariance can be merged, because the gain is rounded to zero and a gain of zero is accepted. What holds for every arithmetic with relative rounding error u: every computed gain is the true change up to ((1+u)^(n^2+2n+3)-1) times four times the sum of absolute covariances, and the total loss is at most this error times the number of possible moves.)", "quantifier": "all covariance and transition matrices without overflow, all arithmetics with bounded relative error, node orders, thresholds and limits", "why_tests_cant": "the loss depends on how particular sums round; an error bound must hold for all matrices", "anchors": ["src/flowstab/network_clustering.py: BaseClustering.find_louvain_clustering, Clustering._louvain_move_nodes, Clustering._compute_delta_stab_moveto, Clustering._compute_delta_stab_moveout, Clustering._aggregate_clusters", "src/flowstab/_cython_fast_funcs.pyx: sum_Sto, sum_Sout"]}
{"id": "C102", "title": "A node-moving phase goes on only while the partition improves", "statement": "Within a phase of find_louvain_clustering a new sweep over the nodes is started only if the last sweep increased the stability, in double precision as well. (Violated with the default threshold: for three nodes with covariances near 0.2 and 1.8 a node moves back and forth between two clusters, each move is reported as a gain of 2^(-51), and the phase ends only at its limit of sweeps, whatever it is, although the stability stays the same. It holds if the threshold is at least the rounding error of a sweep.)", "quantifier": "all covariance and transition matrices without overflow, all arithmetics with bounded relative error, thresholds and limits of sweeps", "why_tests_cant": "the cycle needs particular numbers and the default limit hides it behind a longer run", "anchors": ["src/flowstab/network_clustering.py: Clustering._louvain_move_nodes, Clustering._compute_delta_stab_moveto, Clustering._compute_delta_stab_moveout", "src/flowstab/_cython_fast_funcs.pyx: sum_Sto, sum_Sout"]}
{"id": "C103", "title": "Flow integrals of sparse matrices hold the covariances of the flow", "statement": "For transition matrices given as sparse matrices, FlowIntegralClustering holds the same values as the textbook operations on full matrices, whatever the order of the stored entries, repeated entries or stored zeros, with and without sparse_dot_mkl: it fails in the same cases, and its cumulative matrices and covariances have the same entries. For stochastic matrices, increasing times and a distribution without zeros there is one covariance for every number of steps on the grid, stored sorted, symmetric and without zeros; each entry is at most the mean covariance of these steps and less by at most rtol times the number of matrices times p_i p_j over the smallest probability.", "quantifier": "all lists of sparse square matrices with any stored order, times, grids, distributions, tolerances and versions of the helper routines", "why_tests_cant": "trimming, sums of sparse matrices and products meet every pattern of stored entries; the error bound must hold for all matrices and numbers of steps", "anchors": ["src/flowstab/network_clustering.py: FlowIntegralClustering.__init__, FlowIntegralClustering._compute_T_list, FlowIntegralClustering._compute_integral", "src/flowstab/sparse_stoch_mat.py: sparse_matmul, sparse_gram_matrix, inplace_csr_row_normalize, SparseAutocovMat", "src/flowstab/temporal_network.py: set_to_zeroes"]}
{"id": "C104", "title": "Clustering a sparse flow integral gives a valid partition that is not worse than no clustering", "statement": "find_louvain_clustering(k) on a FlowIntegralClustering with sparse matrices raises nothing, reads nothing outside its arrays, and gives a valid partition whose stability under the exact covariance of the flow is at least that of single nodes, up to the error of trimming. (Violated if a starting probability is zero: the row of that node in the covariance stores nothing, and if it is the last node, every search reads outside the arrays. It holds if rtol is below the smallest probability.)", "quantifier": "all sparse stochastic matrices, times, grids, distributions, tolerances, random choices and limits of the search", "why_tests_cant": "the condition on stored diagonal entries is lost only for particular patterns after trimming; memory errors stay silent", "anchors": ["src/flowstab/network_clustering.py: FlowIntegralClustering.find_louvain_clustering, FlowIntegralClustering._compute_integral, SparseClustering, BaseClustering.find_louvain_clustering", "src/flowstab/sparse_stoch_mat.py: SparseAutocovMat", "src/flowstab/_cython_sparse_stoch.pyx: compute_delta_PT_moveto, compute_delta_PT_moveout"]}
{"id": "C105", "title": "A covariance passes for zero only if no partition has a noticeable stability", "statement": "The sparse clustering returns a single cluster without a search only if the covariance is negligible, that is if no partition has a noticeable stability. (Violated for networks of ten thousand nodes or more: two halves that exchange nothing are reported as one cluster, of stability 0, although the two halves have stability 1/2, because the entries are compared with an absolute tolerance of 1e-8; the dense class scales its tolerance with the number of nodes. What holds: no partition has a stability above n^2/10^8 + 1/10^5.)", "quantifier": "all sparse covariances that pass the test, all partitions, all networks of two halves of at least 5000 nodes, all random choices", "why_tests_cant": "needs networks of ten thousand nodes, and the result looks like a legitimate answer", "anchors": ["src/flowstab/sparse_stoch_mat.py: SparseAutocovMat.is_all_zeros", "src/flowstab/network_clustering.py: SparseClustering._check_if_S_is_zero, BaseClustering.find_louvain_clustering, Clustering._check_if_S_is_zero"]}
{"id": "C106", "title": "Cumulative transition matrices do not drift in machine arithmetic", "statement": "However many inter-event matrices compute_transition_matrices (or a flow clustering built from sparse matrices) multiplies, in double precision the entries of every cumulative matrix are non-negative and each row sums to one up to 6(n+2) unit roundoffs (1e-12 for a thousand nodes), with a bound that does not depend on the number of events; the distance to the exact product grows at most linearly with the number of events. This holds for both directions of time, for the compiled and the Python row normalisation, and for every order of stored entries and of numpy's additions, with gradual underflow.", "quantifier": "every number of nodes with 64(n+2)u <= 1 (up to 10^9 nodes in double precision), every list of inter-event matrices in compressed sparse row format as left by row normalisation, every arithmetic with bounded relative error, every behaviour on overflow", "why_tests_cant": "Rounding errors depend on all values and accumulate over arbitrarily long products; a test runs one product.", "anchors": ["src/flowstab/temporal_network.py: ContTempNetwork.compute_transition_matrices", "src/flowstab/network_clustering.py: FlowIntegralClustering._compute_T_list", "src/flowstab/sparse_stoch_mat.py: inplace_csr_row_normalize", "src/flowstab/sparse_accumulator.cpp: SPA::scatter"]}
{"id": "C107", "title": "help() and lamda tell the truth about the analysis", "statement": "For every FlowStability object and every history of assignments and calls: help() names the step of the pipeline to run next; it reports that everything needed is set exactly if calling that step would not be refused, and otherwise lists exactly the parameters that are still missing. lamda gives, at every reading, one rate per time scale: None for None and the positive inverse for a number, provided time_scale is not a one-shot iterator; and compute_inter_transition_matrices asks the network for exactly those rates, in that order.", "quantifier": "all constructor arguments, all histories of assignments and calls, all time scales", "why_tests_cant": "the message depends on the whole history through flags kept apart from the values; tests print it in one or two states", "anchors": ["src/flowstab/flow_stability.py: FlowStability.help, FlowStability.lamda, FlowStability.compute_inter_transition_matrices", "src/flowstab/state_tracking.py: States", "src/flowstab/helpers.py: inverted_iterator"]}
{"id": "C108", "title": "The example with alternating steps follows its schedule", "statement": "The simulation of the module's example, with the probabilities of make_step_block_probs(deltat1, deltat2, m1, p1): with three groups and m1, p1 between 0 and 1 it never fails, whatever is drawn. Within the three periods every recorded contact begins before the end of the simulation and in one step of the schedule, and respects that step: in the k-th exchange only the two groups of that exchange take part (only across them if p1=1), in the other steps contacts stay within the group if m1=1. The warning is printed exactly for times outside of the three periods. (The docstring has the two lengths exchanged: the exchange lasts deltat2.)", "quantifier": "all populations of three groups, all step lengths, probabilities and start and end times, all random draws, all numbers of passes", "why_tests_cant": "which branch of the schedule is used depends on continuous random times; an example run meets a few of them", "anchors": ["src/flowstab/synth_temp_network.py: make_step_block_probs, SynthTempNetwork.run, SynthTempNetwork.get_new_partner"]}
{"id": "C109", "title": "Flow covariances in machine arithmetic", "statement": "For dense transition matrices, each covariance in I_list of a FlowIntegralClustering, computed in double precision, agrees with the exact mean covariance of the flow: forward and backward, from inter-event or cumulative matrices, for every grid and every order of the additions in a matrix product, the error of an entry is at most the number of roundings (3mn+2n+2m+7 after m steps between n nodes) times 2^(-52), relative to the two terms whose difference the covariance is; the stability of every partition is exact up to twice that. The covariances are symmetric and finite. (Violated: they are not symmetric in double precision. And as soon as the probability of one node after one step is positive but at most 2^(-1024), its reciprocal overflows, and all covariances of all pairs of nodes for that and all later times are NaN; clustering them raises nothing and returns every node alone. What holds: the error bound, as long as all probabilities and lengths of steps are zero or between 2^(-100) and 2^100.)", "quantifier": "all dense matrices, distributions, times, grids and directions, all numbers of nodes and steps with at most 2^52 roundings, all arithmetics with bounded relative error, orders of additions and behaviours on overflow", "why_tests_cant": "rounding errors depend on every value; underflow needs long flows in which the probability of a node dies out, and the result looks like a legitimate answer", "anchors": ["src/flowstab/network_clustering.py: FlowIntegralClustering.__init__, FlowIntegralClustering._compute_T_list, FlowIntegralClustering._compute_integral, FlowIntegralClustering.find_louvain_clustering"]}
{"id": "C110", "title": "Sparse static networks with nodes that have no edge", "statement": "For a csr matrix, static_clustering(A) followed by find_louvain_clustering() returns the same partition as for the array A.toarray(), for every undirected network and every time and option. (Violated: if the last node has no edge, its probability is zero; once the first pass has merged so many nodes that the number of pairs of clusters is below the number of stored entries, the aggregated covariance has no stored entry for that node, and the second pass reads outside the arrays. What holds: the two agree if every node has an edge, the matrix has no negative entry and the two tests for a zero covariance agree.)", "quantifier": "all undirected weighted networks, times, options, random orders and limits of the search", "why_tests_cant": "needs an isolated node with the largest number and enough stored entries; with compiled code the read outside the arrays usually goes unnoticed", "anchors": ["src/flowstab/network_clustering.py: static_clustering, SparseClustering.__init__, SparseClustering._aggregate_clusters, BaseClustering.find_louvain_clustering", "src/flowstab/sparse_stoch_mat.py: SparseAutocovMat.aggregate", "src/flowstab/_cython_sparse_stoch.pyx: aggregate_csr_mat, compute_delta_PT_moveout"]}
{"id": "C111", "title": "The reported variation of information is that of the clusterings", "statement": "The values nvarinf and nvarinf_static saved by run_clusterings are the means, over the sampled pairs of repetitions, of the normalised variation of information of the two clusterings: between 0 and 1, and 0 only if all compared clusterings agree. (Violated for the static network with only_largest_comp unless exactly one node is outside the largest component: the size of the component plus one is used as the number of nodes; different clusterings with that many clusters are reported as equal, all other values are wrong by a factor and can exceed 1. Violated for the temporal network with separate_comps and initial probabilities when nodes are left out: differences are reported too small.)", "quantifier": "all covariances and component labels, all options for components, all random orders, repetitions and sampled pairs, all clusterings of the static network", "why_tests_cant": "the factor depends on the sizes of the components and the values look plausible; a test on a connected network cannot see it", "anchors": ["src/flowstab/scripts/run_clusterings.py: worker, compute_nvi_sample, load_autocov_int", "src/flowstab/network_clustering.py: norm_var_information"]}
{"id": "C112", "title": "Asking for the static comparison does not change the temporal result", "statement": "With compute_static_clustering, run_clusterings saves the same temporal clusterings, stabilities and averages as without it. (Violated: an exception in the clustering of the static network, such as the ValueError for an interval without contacts, is raised before anything is saved; every run fails and the temporal result is never written.)", "quantifier": "all temporal data, arguments, random numbers and numbers of runs; all static networks", "why_tests_cant": "whether the temporal result survives depends on a later failure on other data; tests use networks with contacts", "anchors": ["src/flowstab/scripts/run_clusterings.py: worker, compute_static_clustering_fct", "src/flowstab/network_clustering.py: static_clustering"]}
{"id": "C113", "title": "Sparse clustering in machine arithmetic ends with a partition", "statement": "find_louvain_clustering of a SparseClustering, with numbers as the machine computes them (rounded, infinite or NaN), ends within its limits for every stored covariance, order, threshold and limit, and returns a valid partition of the nodes without empty clusters. (Violated: it reads outside the stored arrays when the last row stores nothing, at the start or after an aggregation. A last node that keeps what it has and starts with weight zero stores a single zero, which the first aggregation drops. What holds: the result is a valid partition or such a read; there is none if every row stores a number and all stored numbers are positive; a phase reads outside the arrays exactly if the last row of its object is empty.)", "quantifier": "all arithmetics without any law, all well-formed stored matrices with any numbers, all random orders and set orders, thresholds and limits", "why_tests_cant": "rounded gains make the search take other branches than in exact arithmetic and rounding depends on all inputs; reads outside the arrays return arbitrary numbers and often go unnoticed", "anchors": ["src/flowstab/network_clustering.py: SparseClustering, BaseClustering.find_louvain_clustering, _louvain_move_nodes", "src/flowstab/sparse_stoch_mat.py: SparseAutocovMat.aggregate, SparseAutocovMat.is_all_zeros", "src/flowstab/_cython_sparse_stoch.pyx: aggregate_csr_mat, aggregate_csr_mat_2, cython_compute_delta_S_moveto, cython_compute_delta_S_moveout"]}
{"id": "C114", "title": "Sparse clustering in double precision is not worse than its start", "statement": "The stability of the partition found by find_louvain_clustering of a SparseClustering is at least that of the partition it starts from, in double precision as well. (Violated: two nodes that exchange slightly less than by chance can be merged. What holds for every arithmetic with relative rounding error u, positive stored numbers and weights that sum to one up to rounding: every computed gain is the true change of stability up to an error of ((1+u)^k-1) times four times the sum of stored probabilities and weight products, where k is the number of roundings, quadratic in the number of nodes; the total loss is at most this error times the number of possible moves, although the weights of clusters are summed and normalised again at every level.)", "quantifier": "all stored covariances with positive entries in every row, without overflow, all arithmetics with bounded relative error, node orders, set orders, thresholds and limits", "why_tests_cant": "the loss depends on how particular sums round and builds up over levels; an error bound must hold for all matrices", "anchors": ["src/flowstab/network_clustering.py: SparseClustering, BaseClustering.find_louvain_clustering, _louvain_move_nodes", "src/flowstab/sparse_stoch_mat.py: SparseAutocovMat.aggregate", "src/flowstab/_cython_sparse_stoch.pyx: aggregate_csr_mat, aggregate_csr_mat_2, cython_compute_delta_S_moveto, cython_compute_delta_S_moveout"]}
{"id": "C115", "title": "The second Python replacement normalises rows", "statement": "The Python replacement of row normalisation in _cython_sparse_stoch_subst gives the same matrix as the compiled routine and makes every row of nonzero sum sum to the target. (Violated: it assigns the ratio of the sum and the target to every stored entry instead of dividing by it. A row of sum s with m stored entries then sums to m s / t; this is the target t exactly when m s = t squared. Every row of a transition matrix with at least two stored entries is spoiled. The results agree exactly when every stored value x of a row of nonzero sum s satisfies x t^2 = s^2.)", "quantifier": "all sparse matrices, nonzero targets and both versions of the routine in use", "why_tests_cant": "the effect depends on all entries of a row; the exact condition for agreement ranges over all matrices", "anchors": ["src/flowstab/_cython_sparse_stoch_subst.py: inplace_csr_row_normalize, sparse_stoch_from_full_csr", "src/flowstab/_cython_subst.py: inplace_csr_row_normalize", "src/flowstab/_cython_sparse_stoch.pyx: inplace_csr_row_normalize"]}
{"id": "C116", "title": "Log level and logged paths", "statement": "After set_log_level(name) the messages of the package at that level or above are written exactly once and no others; setup_logger(level) shows messages from that level on; an unknown name raises ValueError and changes nothing; the path shown has the last two parts of the file's path, however often the logger was set up. (Violated for setup_logger: a call after the import with a level below INFO shows nothing more, because the handler made at the import keeps its level. Violated for set_log_level when the application had configured the root logger before the import: the package then has no handler whose level could be set. With a root handler added later every message is written twice.)", "quantifier": "all histories of set-up calls, level changes and root logger configuration, all message levels and paths", "why_tests_cant": "what is shown depends on the whole history of calls and on what the application did before the import", "anchors": ["src/flowstab/logger.py: setup_logger, CustomPathnameFilter.filter, get_logger", "src/flowstab/__init__.py: set_log_level"]}
{"id": "C117", "title": "Assigned parameters read back", "statement": "A value assigned to a parameter of FlowStability, or given to its constructor or setters, is what is read back and used, and no other parameter or result changes: time_direction accepts None (both) and numbers equal to -1, 0 or 1 and refuses all others without effect; t_start and t_stop accept any value; a network is stored and any other value removes it; a clustering is stored for its time scale and direction only. A clustering of the wrong direction is replaced by None with a warning, as documented. (Violated in the last point: AssertionError is raised and an older result stays.)", "quantifier": "all objects, all values of all types, all time scales", "why_tests_cant": "a value of an unexpected type or a number equal to a direction but of another type must be tried; that nothing else changes concerns every other field of every object", "anchors": ["src/flowstab/flow_stability.py: FlowStability.time_direction, t_start, t_stop, time_scale, temporal_network, flow_clustering_forward, flow_clustering_backward, set_time_scale, __init__"]}
{"id": "C118", "title": "A partition groups the nodes as its argument does", "statement": "Partition(n) puts every node alone; Partition(n, cluster_list=...) has the non-empty sets of the list in their order; Partition(n, node_to_cluster_dict=...) puts nodes together exactly if they have the same value and numbers the clusters in the order of the values. get_num_clusters counts the clusters, or those that have a node. Both arguments, or an empty dictionary, raise ValueError. (Violated for negative values in the dictionary: a node with value k<0 is put, without an error, into the cluster of the value k+max+1; IndexError is raised exactly if k is below -(max+1).)", "quantifier": "all numbers of nodes, lists of sets and dictionaries", "why_tests_cant": "gaps, order and sign of the values matter; tests use consecutive labels from zero", "anchors": ["src/flowstab/network_clustering.py: Partition.__init__, Partition.remove_empty_clusters, Partition.get_num_clusters"]}
{"id": "C119", "title": "The window of an analysis covers what was asked for", "statement": "With t_start and t_stop of FlowStability the matrices cover the time from the last event time at or before t_start up to the first event time at or after t_stop, as documented. (Violated for the end: for every t_stop strictly between two event times the window ends at the earlier one, so that the time before t_stop in the last interval is left out. The end is reached exactly if it is an event time or not after the first.)", "quantifier": "all increasing time grids and all boundaries", "why_tests_cant": "boundaries between event times on arbitrary grids; a test with a boundary on the grid cannot see it", "anchors": ["src/flowstab/flow_stability.py: FlowStability.t_start, FlowStability.t_stop, FlowStability.compute_laplacian_matrices", "src/flowstab/temporal_network.py: ContTempNetwork.compute_laplacian_matrices, ContTempNetwork._get_closest_time"]}
{"id": "C120", "title": "The default rate", "statement": "Without a rate, compute_inter_transition_matrices uses one over the median of the times between successive events, which is positive: at most half of these times are shorter than the inverse of the rate and at most half are longer.", "quantifier": "all strictly increasing time grids", "why_tests_cant": "odd and even numbers of intervals, ties and arbitrary lengths", "anchors": ["src/flowstab/temporal_network.py: ContTempNetwork.compute_inter_transition_matrices"]}
{"id": "C121", "title": "Results do not depend on the unit and origin of time", "statement": "If all times (events, window, integration grid) are expressed in another unit and with another origin, and all rates per new unit, then every sequence of calls gives the same errors, Laplacians, inter-event and cumulative transition matrices, flow integrals and inputs of the clustering; with the default rate nothing needs to be converted. Laplacians depend only on the order of the times. (Violated with fix_tau_k, where every interval counts as one unit, and for instantaneous networks, where the last contacts last one unit whatever the unit is, so that the default rate and the last matrix change.)", "quantifier": "all event lists, windows, call histories, rates, grids, positive factors between units and all origins", "why_tests_cant": "a relation between two runs of the whole chain for all factors; a test compares single runs with expected values", "anchors": ["src/flowstab/temporal_network.py: ContTempNetwork.__init__, compute_laplacian_matrices, compute_inter_transition_matrices, compute_transition_matrices, ContTempInstNetwork.__init__", "src/flowstab/network_clustering.py: FlowIntegralClustering.__init__, _compute_integral"]}
{"id": "C122", "title": "Results do not depend on the names of the nodes", "statement": "If the nodes of all contacts are given other names, different ones staying different, the network has the same number of nodes, and for every sequence of calls the same errors are raised and the Laplacians, static adjacency matrices, inter-event and cumulative transition matrices, flow integrals and covariances are the same up to the renumbering of the nodes that follows the names. A partition has the same stability under the new names, and the best partitions are the same sets of nodes.", "quantifier": "all event lists, injective renamings between ordered types of names, windows, call histories, rates, tolerances, inputs of the flow integral and partitions", "why_tests_cant": "a relation between two runs of the whole chain for all renamings, which change the order in which nodes are numbered; a test compares single runs with expected values", "anchors": ["src/flowstab/temporal_network.py: ContTempNetwork.__init__, compute_laplacian_matrices, compute_inter_transition_matrices, compute_transition_matrices, compute_static_adjacency_matrix, ContTempInstNetwork.compute_laplacian_matrices", "src/flowstab/network_clustering.py: FlowIntegralClustering.__init__, _compute_integral, Clustering.compute_stability"]}
{"id": "C123", "title": "Results do not depend on whether sparse_dot_mkl is installed", "statement": "With compressed matrices, the flow integral computed with sparse_dot_mkl, which returns only the part of the Gram matrices on and above the diagonal, has the same values as without, for every tolerance of the trimming, and the same errors are raised. With increasing times the objects are equal down to the stored arrays, so that the same random choices find the same communities.", "quantifier": "all lists of square compressed matrices, initial probabilities, times, grids, directions and tolerances", "why_tests_cant": "the optional package is not available where the tests run, and the trimming compares entries with the largest one of a half-filled matrix", "anchors": ["src/flowstab/network_clustering.py: FlowIntegralClustering._compute_integral", "src/flowstab/sparse_stoch_mat.py: sparse_gram_matrix"]}
{"id": "C124", "title": "A run can be repeated from its seed", "statement": "A search that is given a seed shows the same number of loops and the same partition on every object with the same arrays and partition, whatever was drawn from its generator before, and an object built with a seed keeps to it through any use of other objects and generators. The seeds returned by run_multi_louvain and by the pool of processes reproduce the results beside them. The seeds drawn are always accepted and different draws give different seeds. Objects that share a generator influence each other, others do not; a generator given together with a seed to the clustering of a flow integral is reseeded. (Violated when rnd_seed is among the keyword arguments of run_multi_louvain: all repetitions are then the same run and the returned seeds belong to none of them; and a second call with the same seed on the same object starts from the partition found by the first.)", "quantifier": "all generators, seeds, arrays, partitions, parameters and all programs that build objects, draw numbers, reseed and search in any order", "why_tests_cant": "tests fix one seed and one short program; independence of everything done before is a statement about all histories", "anchors": ["src/flowstab/network_clustering.py: BaseClustering.__init__, BaseClustering.find_louvain_clustering, Clustering.find_louvain_clustering, SparseClustering.__init__, FlowIntegralClustering.find_louvain_clustering, n_random_seeds, run_multi_louvain", "src/flowstab/parallel_clustering.py: compute_parallel_clustering, n_random_seeds"]}
{"id": "C125", "title": "Results do not depend on how the contacts are listed", "statement": "If the contacts are given in another order, with the two nodes of some contacts exchanged, or with some contacts repeated, the network has the same node labels, numbering and event times, and every sequence of calls gives the same Laplacians, inter-event and cumulative transition matrices, or the same exception. The same holds for instantaneous contacts. The static adjacency matrix of every window does not depend on the order nor on the roles of the nodes; it adds durations, so repetitions count there. Contacts may overlap, join a node to itself, or end before they start.", "quantifier": "all event lists and all reorderings, exchanges and repetitions, all windows and sequences of calls", "why_tests_cant": "the table is sorted with ties and the matrices are updated in place, row by row; a test tries a few orders", "anchors": ["src/flowstab/temporal_network.py: ContTempNetwork.__init__, _compute_time_grid, compute_laplacian_matrices, compute_inter_transition_matrices, compute_transition_matrices, compute_static_adjacency_matrix, ContTempInstNetwork.__init__, ContTempInstNetwork.compute_laplacian_matrices"]}
{"id": "C126", "title": "Flow stability does not increase with the integration time, and is bounded", "statement": "Along the grid of integration times of a flow integral, forward or backward, the covariance of any weighting of the nodes never increases; hence the stability of every fixed partition does not increase. It is never negative and never above one minus the sum of the squared probabilities of the clusters, which is at most one minus one over the number of clusters. The bound is the stability of a flow that does not move.", "quantifier": "all inter-event transition matrices, increasing times, distributions, grids, both directions, dense and sparse, and all partitions of the nodes", "why_tests_cant": "an inequality between sums over all nodes and steps; rounding and one network at a time hide a violation of it", "anchors": ["src/flowstab/network_clustering.py: FlowIntegralClustering.__init__, FlowIntegralClustering._compute_integral, BaseClustering.compute_stability"]}
{"id": "C127", "title": "Flow stability is a lower estimate of the mean over time of the stability of the walk", "statement": "The covariance that is clustered for a network, forward or backward and for every time scale, is a lower bound, for every weighting of the nodes, of the mean over continuous time of the covariance of the random walk on the contacts. It is below this mean at most by the longest time between two successive event times, divided by the whole time, times the covariance at the start. Hence the stability of every partition is below the mean over time of its stability by at most that fraction times one minus the sum of the squared relative sizes of its clusters.", "quantifier": "all contacts that last, join different nodes and do not overlap for a pair, all positive time scales, both directions, all partitions and weightings", "why_tests_cant": "compares a sum over event times with an integral over all times; no test can evaluate the integral for all networks", "anchors": ["src/flowstab/temporal_network.py: ContTempNetwork.compute_laplacian_matrices, compute_inter_transition_matrices", "src/flowstab/network_clustering.py: FlowIntegralClustering.__init__, _compute_integral, find_louvain_clustering, compute_stability"]}
{"id": "C128", "title": "The flow covariance depends only on who is in contact when", "statement": "Two lists of contacts with the same nodes in contact at all times give the same covariance of the flow. (Violated: a contact recorded in two parts gives a larger covariance than the same contact recorded as one, for all times and time scales, because the time of the cut becomes an event time. What holds: more cuts never lower the covariance of any weighting of the nodes, and raise it by at most the fraction of C127.)", "quantifier": "all pairs of lists of contacts as in C127 with the same contacts at all times and where the event times of one are among those of the other, all time scales, both directions", "why_tests_cant": "two runs on different inputs whose walks agree at every instant; expected values of one run do not show it", "anchors": ["src/flowstab/temporal_network.py: ContTempNetwork.compute_inter_transition_matrices", "src/flowstab/network_clustering.py: FlowIntegralClustering._compute_integral"]}
{"id": "C129", "title": "Communities join only nodes that a chain of contacts links", "statement": "The communities that an analysis finds, forward and backward and for every time scale, never contain two nodes that no chain of contacts links. The covariance of two such nodes is minus the squared probability of a node, the smallest value there is, and to split them always raises the stability. A single search keeps apart any groups of nodes that no transition connects, for all random choices and limits. Exception: if all covariances are negligible, for example when all walkers start at one node, the search joins all nodes.", "quantifier": "all contacts that last, join different nodes and do not overlap for a pair, all positive time scales, both directions, all random choices and iteration limits; for a single search, all matrices and all groupings of the nodes", "why_tests_cant": "it must hold after every move of every sweep and every aggregation, for all random orders; tests see few networks, mostly connected ones", "anchors": ["src/flowstab/network_clustering.py: FlowIntegralClustering.__init__, Clustering.find_louvain_clustering, _louvain_move_nodes, _potential_new_clusters, _aggregate_clusters", "src/flowstab/flow_stability.py: FlowStability"]}
{"id": "C130", "title": "Reading time backward exchanges forward and backward communities", "statement": "If the times of all contacts are read on a clock that runs backward, the forward covariance of the new contacts is the backward covariance of the old ones and vice versa, and two analyses with the same random choices find the same communities with the two directions exchanged, for every time scale.", "quantifier": "all contacts that last, join different nodes and do not overlap for a pair, all origins of the clock, positive time scales, both directions, random choices and limits, instances without a window with whatever history", "why_tests_cant": "compares two complete runs for all inputs; contacts are half-open intervals, which the mirror turns around, so that equality is not obvious at the event times", "anchors": ["src/flowstab/network_clustering.py: FlowIntegralClustering.__init__, _compute_integral, find_louvain_clustering", "src/flowstab/flow_stability.py: FlowStability.set_flow_clustering, find_louvain_clustering", "src/flowstab/temporal_network.py: ContTempNetwork.compute_inter_transition_matrices"]}
{"id": "C131", "title": "Analyses of equivalent data find equal communities", "statement": "Two complete analyses with the same random choices find the same communities for every time scale and direction if they differ only in the order in which the contacts are listed, in the roles of the two nodes of a contact, in the other time scales, in what was done before with the instance, in the unit and origin of time (time scales converted), or in the names of the nodes as long as their order is the same.", "quantifier": "all contacts as in C130, all pairs of listings, units, origins and order-preserving renamings, all positive time scales, both directions, random choices, limits and histories", "why_tests_cant": "two complete runs on different inputs; equality down to each cluster, for all inputs", "anchors": ["src/flowstab/flow_stability.py: FlowStability", "src/flowstab/temporal_network.py: ContTempNetwork", "src/flowstab/network_clustering.py: FlowIntegralClustering, Clustering.find_louvain_clustering"]}
{"id": "C132", "title": "The communities found cannot be improved by joining two of them", "statement": "When the community search returns, joining any two of the communities between which the walk can step does not raise the stability: it lowers it by more than the threshold of the search. The number of levels the search reports is at most the number of nodes. (Violated when partitions tie: with ties a join can raise the stability.)", "quantifier": "all numbers of nodes, non-negative transition matrices and covariances, random choices, thresholds below 1, at least two sweeps per level and as many levels as nodes; dense and sparse searches; complete analyses with all contacts, time scales and both directions", "why_tests_cant": "a local optimum is a claim about all pairs of communities of the result of a random search on all inputs; tests see single runs", "anchors": ["src/flowstab/network_clustering.py: BaseClustering.find_louvain_clustering, Clustering._louvain_move_nodes, _aggregate_clusters, SparseClustering", "src/flowstab/flow_stability.py: FlowStability.find_louvain_clustering"]}
{"id": "C133", "title": "Each community hangs together", "statement": "In the communities found no node would be better off alone, and any two nodes of a community are linked by steps inside the community. (Both are violated, for symmetric walks too; members are linked if steps between nodes are transitive, as they are between nodes that contacts link over the whole time.)", "quantifier": "all numbers of nodes, transition matrices, covariances, random choices and limits of the search", "why_tests_cant": "the defects need particular orders of visits and merges of levels; only a search over all inputs or a proof shows when they cannot occur", "anchors": ["src/flowstab/network_clustering.py: Clustering._louvain_move_nodes, _aggregate_clusters, BaseClustering.find_louvain_clustering"]}
{"id": "C134", "title": "With a time scale long compared with the data every node is alone", "statement": "If a time scale is at least three times the number of nodes times the time from the first to the last event, the analysis puts every node in a community of its own, forward and backward, whatever the random choices. All covariances of different nodes are then negative. A single search returns single nodes whenever all covariances of different nodes are negative and not all are negligible.", "quantifier": "all contacts that last, join different nodes and do not overlap for a pair, all lists of positive time scales and all among them above the bound, both directions, random choices, limits and thresholds of the search, instances without a window with whatever history", "why_tests_cant": "a bound for all networks at once; tests try a few time scales on a few networks and cannot tell from where on the result is trivial", "anchors": ["src/flowstab/network_clustering.py: FlowIntegralClustering.__init__, _compute_integral, find_louvain_clustering, Clustering._louvain_move_nodes", "src/flowstab/temporal_network.py: ContTempNetwork.compute_inter_transition_matrices", "src/flowstab/flow_stability.py: FlowStability"]}
{"id": "C135", "title": "With a short time scale, contacts that last all the time give the connected groups", "statement": "If all contacts last from the first to the last event time, there is a time below which every time scale makes the analysis return exactly the groups of nodes that chains of contacts link, forward and backward, whatever the random choices. If some nodes are not linked, the covariance of two nodes is then positive if they are linked and negative if not; if all are linked, all covariances are negligible and all nodes are returned as one community. A single search finds exactly the groups that possible steps link whenever the covariances inside the groups exceed its threshold.", "quantifier": "all lists of contacts that last from one time to another one and join different nodes, all positive time scales below a bound that depends on the contacts, both directions, random choices, thresholds of at most one over the cube of the number of nodes, at least two sweeps per level and as many levels as nodes", "why_tests_cant": "a limit: the bound depends on how fast the walk mixes, and the result must be the same for all random choices; tests try single time scales", "anchors": ["src/flowstab/network_clustering.py: FlowIntegralClustering.__init__, _compute_integral, find_louvain_clustering, Clustering._louvain_move_nodes, _aggregate_clusters", "src/flowstab/temporal_network.py: ContTempNetwork.compute_inter_transition_matrices", "src/flowstab/flow_stability.py: FlowStability"]}
{"id": "C136", "title": "The computation of integrals finds the input that the first script wrote", "statement": "In a directory that run_laplacians_transmats has written, run_cov_integrals finds the number of nodes, exactly the intervals of the files and exactly the time scales of the run. (Violated in two ways: a network name with a part that begins with w stops the script or adds a time scale that does not exist, and a time scale that needs more than four significant digits is read back as another number.)", "quantifier": "all network names, time scales, numbers of intervals, kinds of files and extensions, all orders of the files in the directory", "why_tests_cant": "names are texts: a test tries a few names, and the names that break the search are ordinary words", "anchors": ["src/flowstab/scripts/run_cov_integrals.py: all_files, num_nodes, intervals, tau_ws", "src/flowstab/scripts/run_laplacians_transmats.py: net_file0, adj_file"]}
{"id": "C137", "title": "Every integral that is asked for is computed, whatever the processes do", "statement": "run_cov_integrals makes exactly one task for each starting point, time scale and direction of time that its options ask for. In whatever order its processes work, what a task has written when the run is stopped is a beginning of what it writes alone, and when all tasks are done every integral that is asked for is on the disk, complete and right. Every order in which each task gets enough turns ends with all tasks done. (Violated for two sets of options: integrals from the start and from the finish by the two separate options give only the former, and end points that are not in increasing order give files with the integral to another end point.)", "quantifier": "all grids, time scales, options, files of a run that was stopped before, interleavings of the steps of all tasks and points at which they are stopped", "why_tests_cant": "the tasks of the two directions of time from the same point share the names of their files: only a proof over all interleavings shows that they never read or overwrite each other's files", "anchors": ["src/flowstab/scripts/run_cov_integrals.py: main, worker, all_inds, rev_time_list"]}
{"id": "C138", "title": "Every call that the command line tools make is accepted by the library", "statement": "Each call that run_laplacians_transmats, run_cov_integrals, run_clusterings and the parallel clustering make to the library fits the function that is called: no unknown or missing arguments, so each tool gets as far as computing what was asked for; and a misspelt option is refused. (Violated: run_laplacians_transmats passes verbose to six methods that do not have it; the TypeErrors are caught and, for all options, waiting times and contents of the disk, no matrix file is ever written, only the static adjacency matrices. All other calls fit, and without verbose all requested files are written. Building a network accepts any misspelt option in silence.)", "quantifier": "all calls of the tools, all options, waiting times and contents of the disk", "why_tests_cant": "a test of a tool has to run it with its options on a whole data set and look for the files; the exceptions are caught and the tool ends without an error", "anchors": ["src/flowstab/scripts/run_laplacians_transmats.py: worker", "src/flowstab/temporal_network.py: ContTempNetwork methods", "src/flowstab/scripts/run_cov_integrals.py", "src/flowstab/scripts/run_clusterings.py", "src/flowstab/parallel_clustering.py"]}
{"id": "C139", "title": "run_clusterings clusters exactly the finished integrals of its network", "statement": "run_clusterings takes from its directory exactly the finished integrals of the network it was asked for, each once. No two integrals share a file for their result, results are never taken for input, and the points of an integral are read correctly from its name. (Violated: a network name with temp_integration or pTpint in it selects nothing; integrals of a network whose name goes on with _tau_w are taken too; matrix files in the same directory are taken for integrals; with --init_p1 no file that the other tools write is ever taken; and --compute_static_clustering looks for a file that no tool writes, so that no run ever stores a clustering of the static network.)", "quantifier": "all network names, time scales, points, kinds of integrals, contents and orders of the directory", "why_tests_cant": "names are texts and directories are arbitrary; a test tries a few names, and an empty selection ends without an error", "anchors": ["src/flowstab/scripts/run_clusterings.py: files, worker", "src/flowstab/scripts/run_cov_integrals.py: worker", "src/flowstab/scripts/run_laplacians_transmats.py: worker"]}
{"id": "C140", "title": "The three command line tools together find what the library finds in one process", "statement": "After run_laplacians_transmats has written the matrices of the slices of a contact network, run_cov_integrals integrates them and run_clusterings clusters the result, with any of the first two stopped and started again any number of times, the covariance that is clustered is that of the random walk on the contacts between the two grid points, with bounds that need not be event times, forward and backward; between bounds around all contacts it is the covariance that the library computes in one process. The clusters are a partition of the nodes, and the reported number is the sum of the covariance within them. (Violated by the tools as they are: run_laplacians_transmats never writes a matrix, so run_cov_integrals writes no integral. It holds once the calls that the library refuses are repaired.)", "quantifier": "all contact networks, slices, waiting times, grid points, directions, interruptions of both tools, numbers of normalisations and random orders", "why_tests_cant": "the tools are three programs that talk through files; a test runs a few networks without interruptions and compares numbers", "anchors": ["src/flowstab/scripts/run_laplacians_transmats.py: worker", "src/flowstab/scripts/run_cov_integrals.py: worker", "src/flowstab/scripts/run_clusterings.py: worker", "src/flowstab/temporal_network.py: ContTempNetwork"]}
{"id": "C141", "title": "Transition matrices do not react strongly to contacts that are recorded inexactly", "statement": "For two contact tables with the same labels, the transition matrices over the whole time that are clustered, forward and backward, differ in every row by at most twice the time during which the two tables have different contacts, in units of the waiting time of the walk. If the starting and ending times of all contacts have been recorded with errors of at most some bound, no row changes by more than four times the bound per contact, in units of the waiting time.", "quantifier": "all pairs of contact tables over the same labels, with contacts of any number, times and order of equal times, all waiting times and both directions", "why_tests_cant": "measured times are never exact; tests compare with tables as they are and cannot vary all times", "anchors": ["src/flowstab/temporal_network.py: ContTempNetwork.compute_laplacian_matrices, compute_inter_transition_matrices", "src/flowstab/network_clustering.py: FlowIntegralClustering"]}
{"id": "C142", "title": "The flow stability does not react strongly to errors of the recorded times", "statement": "If the starting and ending times of the contacts have been recorded with errors of at most some bound, the sum of the changes of all entries of the covariance that is clustered, and so the change of the flow stability of every partition of the labels, is at most the bound times 6 (2 m + 1) / w + 8 m / d, where m is the number of contacts, w the waiting time and d the time between the start of a contact and the end of one, also if equal times become different or change their order.", "quantifier": "all contact tables and all errors of their times, waiting times, directions and partitions", "why_tests_cant": "a bound for all errors is not tested by any of them; the event times at which the code evaluates the covariance change with the errors, and can become more or fewer", "anchors": ["src/flowstab/network_clustering.py: FlowIntegralClustering, Clustering.compute_stability", "src/flowstab/temporal_network.py: ContTempNetwork"]}
{"id": "C143", "title": "Results change smoothly with the waiting time, and are known for long ones", "statement": "For contacts that all take place between two times of difference D, changing the waiting time from w to w' changes every row of the transition matrix that is clustered by at most 2 D |1/w - 1/w'|, and the flow stability of every partition, and the sum of the changes of all entries of the covariance, by at most 6 D |1/w - 1/w'|. So a partition that is more stable than another by more than twice that stays more stable. For a waiting time w, every row of the transition matrix is within 2 D / w of not moving, and the flow stability of every partition within 6 D / w of one minus the sum of the squared shares of the nodes in its clusters.", "quantifier": "all contact tables, pairs of waiting times (any order of size), directions, orders of equal times, partitions and pairs of partitions", "why_tests_cant": "scans over waiting times are evaluated on a grid chosen by the user; that nothing jumps between its points is a claim about all waiting times", "anchors": ["src/flowstab/temporal_network.py: ContTempNetwork.compute_inter_transition_matrices", "src/flowstab/network_clustering.py: FlowIntegralClustering, Clustering.compute_stability"]}
{"id": "C144", "title": "What has been computed already is recognised by the names of its files", "statement": "run_laplacians_transmats takes a matrix as computed exactly if the directory holds a file with the name of that network, waiting time, slice and kind of matrix, whatever the network and the directories are called. (Violated: the names are used as patterns. With a network called like run[12], the files of the network are never found, so every session computes and writes all of them again; and once the files of run1 are in the directory, nothing at all is computed for run[12]. A name with a star finds the files of every name that fits.)", "quantifier": "all names of networks and directories, all files in the directory, all options", "why_tests_cant": "tests use a few plain names; that no other name is mistaken is a claim about all names", "anchors": ["src/flowstab/scripts/run_laplacians_transmats.py: worker"]}
{"id": "C145", "title": "A pool of processes on one or several machines writes the matrices of all slices", "statement": "When run_laplacians_transmats has been started any number of times with the same options, on any slices and machines with a common directory, and stopped at any point, a last session that comes to its end leaves for every slice that it treats all files that were asked for, with the content that the slice determines; this does not depend on the order in which processes make their steps. Files of other slices and of other networks are left as they are. Sessions come to their end after a number of steps that depends only on the slices. The slices given to the machines are together all slices that are not skipped, each once.", "quantifier": "all numbers of processes and machines, interleavings of their steps, points where earlier sessions stopped, slices, options and contents of the directory that belong to others", "why_tests_cant": "schedules and interruptions cannot be enumerated by tests, and the processes share one directory", "anchors": ["src/flowstab/scripts/run_laplacians_transmats.py: main, worker"]}
{"id": "C146", "title": "A pool of processes leaves a result for every integral, whatever was interrupted before", "statement": "When run_clusterings has been started any number of times, with any options and on any integrals, and stopped at any point, a last session that comes to its end leaves a complete result for every integral that it treats and whose computations do not fail, whatever the order in which the processes make their steps and whatever happens to the other integrals. A result that is there is never changed; files of other integrals and other files are left as they are; with the same random numbers the files do not depend on the order of steps; every process ends after at most five accesses to the directory. (Violated with --save_clustering_before_nvarinf: an integral whose session was stopped after its intermediate clusterings never gets a result, in any later sessions.)", "quantifier": "all numbers of integrals and processes, interleavings, points where earlier sessions stopped, options and random numbers", "why_tests_cant": "schedules and interruptions cannot be enumerated by tests, and the processes share one directory", "anchors": ["src/flowstab/scripts/run_clusterings.py: main, worker"]}
{"id": "C147", "title": "Walkers get exactly where chains of contacts lead, in the order of time", "statement": "For contacts that last, connect different labels and do not overlap for a pair, and for every waiting time: the computed transition matrix has a positive probability from one label to another exactly if a chain of contacts leads there, each contact at the time of the one before it or later; elsewhere it is zero. Backward in time the same holds with the ends exchanged. The covariance of two labels is never smaller than minus the squared probability of a label, and has this value exactly if walkers from both can never meet (backward: cannot come from a common label). Separating labels whose walkers cannot meet makes the stability of every partition larger, by this square for each ordered pair.", "quantifier": "all tables of contacts, labels, waiting times and directions", "why_tests_cant": "the claim is an equivalence over all chains of contacts of any length and all tables; tests see numbers of single tables in which tiny probabilities and zeros cannot be told apart", "anchors": ["src/flowstab/temporal_network.py: ContTempNetwork, compute_laplacian_matrices, compute_inter_transition_matrices", "src/flowstab/network_clustering.py: FlowIntegralClustering"]}
{"id": "C148", "title": "Probabilities depend only on contacts that walkers can notice", "statement": "If two tables have the same contacts wherever and whenever walkers from a label can be (forward or backward in time), the computed probabilities of the ways from this label are the same for both, for every waiting time; the tables can differ in all other contacts, in their labels and in their times. So contacts between labels that are not linked with it can be added, and contacts that end before its walkers can take part in them.", "quantifier": "all pairs of tables of contacts, labels, waiting times and directions", "why_tests_cant": "compares pairs of arbitrary tables with networks, time grids and matrices of different size", "anchors": ["src/flowstab/temporal_network.py: ContTempNetwork, compute_laplacian_matrices, compute_inter_transition_matrices", "src/flowstab/network_clustering.py: FlowIntegralClustering"]}
{"id": "C149", "title": "The static comparison clusters walkers that ignore who was the source of a contact", "statement": "For every static network of an interval without negative durations in which every node meets someone, and all options: the static comparison of run_clusterings ends without an exception and returns one result per repetition, in order and with its seed. Each result is a partition of the nodes into clusters that are not empty, reported with the stability of these clusters for walkers that after a unit of waiting step to a node chosen by contact time, whichever end was the source. The stability is at least that of one cluster for each node, or the result is one cluster with all nodes. Exchanging source and target of all contacts, or measuring the durations in another unit, changes none of the results.", "quantifier": "all networks, options, random orders, seeds and numbers of repetitions", "why_tests_cant": "ranges over all weights and random orders; a wrong symmetrisation shows only on networks with one-sided contacts, where no expected value is known", "anchors": ["src/flowstab/scripts/run_clusterings.py: compute_static_clustering_fct, worker", "src/flowstab/network_clustering.py: static_clustering, SparseClustering"]}
{"id": "C150", "title": "The probabilities of a group that meets are known", "statement": "Let the members of a group of k labels be in contact all with all at some moments, and have no other contacts. Whatever else the table holds, and forward as backward in time: the share exp(-k/(k-1) d/scale) of the walkers from a member has stayed, where d is the time that the group spent together and scale the waiting time, the others are spread evenly over the group, and none is outside. For two labels the probability to get to the other one is (1 - exp(-2 d/scale))/2, where d is the sum of the durations of their contacts, however they are split up. With a shorter waiting time more walkers are at another member, always less than 1/k.", "quantifier": "all tables of contacts, groups, meeting times, waiting times and directions", "why_tests_cant": "gives the exact value for a whole family of inputs, with any other contacts around; tests compare a few tables with rounding errors", "anchors": ["src/flowstab/temporal_network.py: ContTempNetwork, compute_laplacian_matrices, compute_inter_transition_matrices", "src/flowstab/network_clustering.py: FlowIntegralClustering"]}
{"id": "C151", "title": "Groups that meet are found exactly when they have mixed enough", "statement": "Let everybody belong to a group whose members are in contact all with all at some moments, and with nobody else. Let s be the mean over time of exp(-2 k/(k-1) d/scale), where k is the size of a group and d the time that it has spent together so far. The covariance of two members is (1-s)/(k n) - 1/n^2, that of labels of different groups -1/n^2, where n is the number of labels. If the former exceeds half of the threshold for every group, the communities found are exactly the groups, forward and backward in time and for all random choices. If it is negative for every group, and there are at least two groups, every label is alone.", "quantifier": "all tables of contacts of this kind, waiting times, directions, random choices and search options", "why_tests_cant": "gives the exact criterion and result for a whole family of inputs and all random orders; tests try a few networks and seeds", "anchors": ["src/flowstab/flow_stability.py: FlowStability.set_temporal_network, compute_laplacian_matrices, compute_inter_transition_matrices, set_flow_clustering, find_louvain_clustering", "src/flowstab/network_clustering.py: FlowIntegralClustering, Clustering.find_louvain_clustering"]}
{"id": "C152", "title": "Labels that can be exchanged are treated alike", "statement": "If renaming the labels by an injective map leads to the same contacts at all times, the computed probabilities and the covariances that are clustered stay the same under the map, and so does the flow stability of every division of the labels; forward and backward in time, for every waiting time and whatever the order of the table. In particular two labels that are always in contact with the same others have equal probabilities and covariances with these, with themselves and with each other.", "quantifier": "all tables of contacts, maps of the labels, waiting times, directions and divisions", "why_tests_cant": "symmetric inputs of every size and every symmetry; the internal numbering and the order of events could break the symmetry in cases no test tries", "anchors": ["src/flowstab/temporal_network.py: ContTempNetwork, compute_laplacian_matrices, compute_inter_transition_matrices", "src/flowstab/network_clustering.py: FlowIntegralClustering"]}
{"id": "C153", "title": "The communities found treat labels alike that can be exchanged", "statement": "If renaming the labels leads to the same contacts at all times, the communities found put the new labels of two labels together exactly when they put the two labels together.", "quantifier": "all tables of contacts, symmetries, waiting times, directions and random choices", "why_tests_cant": "depends on ties between divisions and on random orders; a test sees one of several results with the same stability", "anchors": ["src/flowstab/network_clustering.py: Clustering.find_louvain_clustering", "src/flowstab/temporal_network.py: ContTempNetwork"]}
{"id": "C154", "title": "The description of a network counts its nodes and events", "statement": "The printed description of a network names its class, the number of nodes that take part in a contact, each counted once, and the number of contacts, after merging of overlapping contacts the number of those that are left. A network that is saved, after any computations, and loaded has the same description.", "quantifier": "all tables of contacts, merged or not, and all computations before saving", "why_tests_cant": "holds for every table and every history of computations; tests print a few", "anchors": ["src/flowstab/temporal_network.py: ContTempNetwork.__repr__, save, load, _merge_overlapping_events"]}
{"id": "C155", "title": "Asking for durations changes neither results nor exceptions", "statement": "A timed sparse function returns what the function returns and raises what it raises. If verbose is true and the function returns, exactly one line is printed, with the name of the function and the message, if one is given; else none.", "quantifier": "all functions, arguments, values of verbose and messages", "why_tests_cant": "ranges over all functions and keyword arguments", "anchors": ["src/flowstab/sparse_stoch_mat.py: timing, sparse_outer, sparse_matmul, sparse_gram_matrix"]}
{"id": "C156", "title": "Documented methods keep their own documentation", "statement": "Decorating a method with the documentation of a class never fails; the new documentation starts with that of the method and ends with that of the class.", "quantifier": "all methods and classes, with and without documentation, and all options of the interpreter", "why_tests_cant": "tests run with the documentation in place", "anchors": ["src/flowstab/helpers.py: include_doc_from", "src/flowstab/flow_stability.py: FlowStability.temporal_network, set_temporal_network, set_time_scale"]}
{"id": "C157", "title": "The connectedness of two lists of nodes is the sum of their covariances", "statement": "For all lists of nodes, the connectedness is the sum of the covariances from the nodes of the first list to those of the second, and zero if one of them is empty. Numbers that are not nodes raise an exception.", "quantifier": "all covariances and all lists of nodes, empty ones included", "why_tests_cant": "ranges over all lists and matrices; the failing shapes are empty lists", "anchors": ["src/flowstab/network_clustering.py: BaseClustering._compute_subsets_connectedness"]}
{"id": "C158", "title": "The command line tools start with the settings that were given", "statement": "If options that exist are given to one of the three scripts, each with what it takes, in any order and number, the script starts with these settings, for each option the last one, and with the defaults of all others. Values can be given as --name=value, also if they begin with a dash; as a separate word such a value stops the script unless it is a negative number or has a space. A beginning of a name stands for the option if it fits only one and stops the script if it fits several; a name that is also the beginning of others means the option itself. Unknown options stop the script wherever they are.", "quantifier": "all command lines, values and sets of options", "why_tests_cant": "ranges over all command lines; tests do not start the scripts, which read their options when they are imported", "anchors": ["src/flowstab/scripts/run_laplacians_transmats.py: ap", "src/flowstab/scripts/run_cov_integrals.py: ap", "src/flowstab/scripts/run_clusterings.py: ap"]}
{"id": "C159", "title": "The options of run_cov_integrals do what they say together", "statement": "Integrals are computed in exactly the directions of time asked for with --time_direction, from the starting points asked for; other texts for the direction are refused. The matrices used are those that are not excluded, and options that exclude all are refused.", "quantifier": "all combinations of options, grids and time scales", "why_tests_cant": "ranges over combinations of options; the effects show only in which files are missing at the end", "anchors": ["src/flowstab/scripts/run_cov_integrals.py: main, rev_time_list, use_expm_transmats, use_lin_transmats", "src/flowstab/scripts/run_laplacians_transmats.py: compute_expm_transmat"]}
