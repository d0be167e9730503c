import Verif.Calls.Model

/-!
# The signatures of the library and the calls of its scripts

Read off the source: the parameters of every function and method of the library that
`run_laplacians_transmats`, `run_cov_integrals`, `run_clusterings` or `parallel_clustering` call
(without the object itself for methods), and all those calls.  Calls of methods whose object may be
a scipy matrix (`tocsr`, `toarray`, `copy`) are left out, and so are functions that a script defines
itself.  The values of the arguments play no role here.
-/

set_option linter.dupNamespace false

namespace Verif.Calls

/-- The functions of the library that the scripts call. -/
inductive Fn
  /-- `ContTempNetwork.load` -/
  | load
  /-- `ContTempNetwork._compute_time_grid` -/
  | timeGrid
  /-- `ContTempNetwork.compute_static_adjacency_matrix` -/
  | staticAdj
  /-- `ContTempNetwork.compute_laplacian_matrices` -/
  | laplacians
  /-- `ContTempNetwork._compute_stationary_transition` -/
  | stationary
  /-- `ContTempNetwork.compute_inter_transition_matrices` -/
  | inter
  /-- `ContTempNetwork.compute_lin_inter_transition_matrices` -/
  | linInter
  /-- `ContTempNetwork.compute_transition_matrices` -/
  | trans
  /-- `ContTempNetwork.compute_lin_transition_matrices` -/
  | linTrans
  /-- `ContTempNetwork.save_inter_T` -/
  | saveInter
  /-- `ContTempNetwork.save_inter_T_lin` -/
  | saveInterLin
  /-- `ContTempNetwork.save_T` -/
  | saveT
  /-- `ContTempNetwork.save_T_lin` -/
  | saveTLin
  /-- `ContTempNetwork.load_T` -/
  | loadT
  /-- `ContTempNetwork.load_inter_T` -/
  | loadInter
  /-- `ContTempNetwork.__init__` -/
  | network
  /-- `set_to_zeroes` -/
  | zeroes
  /-- `inplace_csr_row_normalize` -/
  | normalize
  /-- `sparse_matmul` -/
  | matmul
  /-- `sparse_gram_matrix` -/
  | gram
  /-- `inplace_csr_matmul_diag` -/
  | csrDiag
  /-- `inplace_diag_matmul_csr` -/
  | diagCsr
  /-- `SparseAutocovMat.__init__` -/
  | autocov
  /-- `SparseAutocovMat.aggregate` -/
  | aggregate
  /-- `FlowIntegralClustering.__init__` -/
  | flowInt
  /-- `Clustering.__init__` -/
  | clustering
  /-- `SparseClustering.__init__` -/
  | sparseClustering
  /-- `Clustering.find_louvain_clustering` -/
  | louvain
  /-- `Clustering.compute_stability` -/
  | stability
  /-- `SparseClustering.compute_stability` -/
  | sparseStability
  /-- `static_clustering` -/
  | staticClustering
  /-- `norm_var_information` -/
  | nvi
  /-- `Partition.get_num_clusters` -/
  | numClusters
  deriving DecidableEq, Repr

/-- A call in a script. -/
structure Site where
  line : Nat
  fn : Fn
  args : Nat
  kws : List String
  deriving DecidableEq, Repr

/-- The shape of the call. -/
def Site.call (s : Site) : Call := ⟨s.args, s.kws⟩

/-- The parameters, in order. -/
def sig : Fn → Sig
  /- src/flowstab/temporal_network.py:318 -/
  | .load => ⟨[need "filename", opt "matrices_list", opt "attributes_list"], [], false⟩
  /- src/flowstab/temporal_network.py:1093 -/
  | .timeGrid => ⟨[], [], false⟩
  /- src/flowstab/temporal_network.py:1046 -/
  | .staticAdj => ⟨[opt "start_time", opt "end_time"], [], false⟩
  /- src/flowstab/temporal_network.py:1142 -/
  | .laplacians => ⟨[], [opt "t_start", opt "t_stop", opt "save_adjacencies"], false⟩
  /- src/flowstab/temporal_network.py:1742 -/
  | .stationary => ⟨[opt "t_start", opt "t_stop", opt "use_sparse_stoch"], [], false⟩
  /- src/flowstab/temporal_network.py:1328 -/
  | .inter => ⟨[], [opt "lamda", opt "t_start", opt "t_stop", opt "fix_tau_k", opt
      "use_sparse_stoch", opt "dense_expm"], false⟩
  /- src/flowstab/temporal_network.py:1450 -/
  | .linInter => ⟨[opt "lamda", opt "t_start", opt "t_stop", opt "t_s", opt "fix_tau_k", opt
      "use_sparse_stoch"], [], false⟩
  /- src/flowstab/temporal_network.py:1569 -/
  | .trans => ⟨[opt "lamda", opt "t_start", opt "t_stop", opt "save_intermediate", opt
      "reverse_time", opt "force_csr", opt "tol"], [], false⟩
  /- src/flowstab/temporal_network.py:1661 -/
  | .linTrans => ⟨[opt "lamda", opt "t_start", opt "t_stop", opt "t_s", opt "save_intermediate",
      opt "reverse_time"], [], false⟩
  /- src/flowstab/temporal_network.py:407 -/
  | .saveInter => ⟨[need "filename", opt "lamda", opt "round_zeros", opt "tol", opt
      "compressed", opt "save_delta", opt "replace_existing"], [], false⟩
  /- src/flowstab/temporal_network.py:571 -/
  | .saveInterLin => ⟨[need "filename", opt "lamda", opt "round_zeros", opt "tol", opt
      "compressed", opt "replace_existing", opt "save_delta"], [], false⟩
  /- src/flowstab/temporal_network.py:790 -/
  | .saveT => ⟨[need "filename", opt "lamda", opt "round_zeros", opt "tol", opt "compressed"],
      [], false⟩
  /- src/flowstab/temporal_network.py:874 -/
  | .saveTLin => ⟨[need "filename", opt "lamda", opt "round_zeros", opt "tol", opt
      "compressed"], [], false⟩
  /- src/flowstab/temporal_network.py:962 -/
  | .loadT => ⟨[need "filename"], [], false⟩
  /- src/flowstab/temporal_network.py:696 -/
  | .loadInter => ⟨[need "filename"], [], false⟩
  /- src/flowstab/temporal_network.py:107 -/
  | .network => ⟨[], [opt "source_nodes", opt "target_nodes", opt "starting_times", opt
      "ending_times", opt "extra_attrs", opt "relabel_nodes", opt "reset_event_table_index", opt
      "node_to_label_dict", opt "merge_overlapping_events", opt "events_table"], true⟩
  /- src/flowstab/temporal_network.py:2646 -/
  | .zeroes => ⟨[need "Tcsr", opt "tol", opt "relative", opt "use_absolute_value"], [], false⟩
  /- src/flowstab/sparse_stoch_mat.py:537 -/
  | .normalize => ⟨[need "X", opt "row_sum"], [], false⟩
  /- src/flowstab/sparse_stoch_mat.py:1155 -/
  | .matmul => ⟨[need "A", need "B", opt "verbose", opt "log_message"], [], false⟩
  /- src/flowstab/sparse_stoch_mat.py:1165 -/
  | .gram => ⟨[need "A", need "transpose", opt "verbose", opt "log_message"], [], false⟩
  /- src/flowstab/sparse_stoch_mat.py:613 -/
  | .csrDiag => ⟨[need "A", need "diag_vec"], [], false⟩
  /- src/flowstab/sparse_stoch_mat.py:645 -/
  | .diagCsr => ⟨[need "A", need "diag_vec"], [], false⟩
  /- src/flowstab/sparse_stoch_mat.py:687 -/
  | .autocov => ⟨[need "PT", need "p1", need "p2", opt "PT_symmetric"], [], false⟩
  /- src/flowstab/sparse_stoch_mat.py:950 -/
  | .aggregate => ⟨[need "idx_list"], [], false⟩
  /- src/flowstab/network_clustering.py:1803 -/
  | .flowInt => ⟨[opt "T_list", opt "p1", opt "time_list", opt "T_inter_list", opt
      "integral_time_grid", opt "reverse_time", opt "rtol", opt "verbose"], [], false⟩
  /- src/flowstab/network_clustering.py:1062 -/
  | .clustering => ⟨[opt "p1", opt "p2", opt "T", opt "S", opt "cluster_list", opt
      "node_to_cluster_dict", opt "rnd_state", opt "rnd_seed", opt "S_threshold"], [], false⟩
  /- src/flowstab/network_clustering.py:1528 -/
  | .sparseClustering => ⟨[opt "p1", opt "p2", opt "T", opt "S", opt "cluster_list", opt
      "node_to_cluster_dict", opt "rnd_state", opt "rnd_seed"], [], false⟩
  /- src/flowstab/network_clustering.py:1450 -/
  | .louvain => ⟨[opt "delta_r_threshold", opt "n_meta_iter_max", opt "n_sub_iter_max", opt
      "verbose", opt "rnd_seed", opt "save_progress", opt "print_num_loops"], [], false⟩
  /- src/flowstab/network_clustering.py:1117 -/
  | .stability => ⟨[opt "R"], [], false⟩
  /- src/flowstab/network_clustering.py:1636 -/
  | .sparseStability => ⟨[opt "R"], [], false⟩
  /- src/flowstab/network_clustering.py:2377 -/
  | .staticClustering => ⟨[need "A", opt "t", opt "rnd_seed", opt "discrete_time_rw", opt
      "linearized", opt "directed"], [], false⟩
  /- src/flowstab/network_clustering.py:2259 -/
  | .nvi => ⟨[need "clusters1", need "clusters2", opt "N", opt "use_clust_list"], [], false⟩
  /- src/flowstab/network_clustering.py:175 -/
  | .numClusters => ⟨[opt "non_empty"], [], false⟩

/-- The calls in src/flowstab/scripts/run_laplacians_transmats.py:
the line, the function, the number of positional arguments and the
names of the others. -/
def lapsCalls : List Site :=
  [⟨232, .load, 0, ["filename", "attributes_list"]⟩,
   ⟨239, .timeGrid, 0, []⟩,
   ⟨285, .network, 0, ["events_table"]⟩,
   ⟨300, .staticAdj, 0, ["start_time", "end_time"]⟩,
   ⟨355, .laplacians, 0, ["t_start", "t_stop", "verbose"]⟩,
   ⟨365, .stationary, 0, ["verbose", "use_sparse_stoch"]⟩,
   ⟨393, .inter, 0, ["lamda", "verbose", "use_sparse_stoch", "dense_expm"]⟩,
   ⟨405, .saveInter, 1, ["lamda", "round_zeros", "tol", "compressed", "save_delta"]⟩,
   ⟨418, .linInter, 0, ["lamda", "verbose", "t_s", "use_sparse_stoch"]⟩,
   ⟨429, .saveInterLin, 1, ["lamda", "round_zeros", "tol", "compressed", "save_delta"]⟩,
   ⟨461, .trans, 0, ["lamda", "force_csr", "tol", "verbose", "save_intermediate",
     "reverse_time"]⟩,
   ⟨472, .flowInt, 0, ["T_list", "time_list"]⟩,
   ⟨485, .saveT, 1, ["round_zeros", "tol", "compressed"]⟩,
   ⟨501, .linTrans, 0, ["lamda", "t_s", "verbose", "save_intermediate", "reverse_time"]⟩,
   ⟨511, .flowInt, 0, ["T_list", "time_list"]⟩,
   ⟨525, .saveTLin, 1, ["round_zeros", "tol", "compressed"]⟩]

/-- The calls in src/flowstab/scripts/run_cov_integrals.py:
the line, the function, the number of positional arguments and the
names of the others. -/
def covCalls : List Site :=
  [⟨288, .loadT, 1, []⟩,
   ⟨295, .zeroes, 1, ["tol"]⟩,
   ⟨296, .normalize, 1, []⟩,
   ⟨299, .zeroes, 1, ["tol"]⟩,
   ⟨300, .normalize, 1, []⟩,
   ⟨517, .loadInter, 1, []⟩,
   ⟨528, .zeroes, 1, ["tol"]⟩,
   ⟨529, .normalize, 1, []⟩,
   ⟨531, .matmul, 2, ["verbose", "log_message"]⟩,
   ⟨534, .zeroes, 1, ["tol"]⟩,
   ⟨535, .normalize, 1, []⟩,
   ⟨538, .matmul, 2, ["verbose", "log_message"]⟩,
   ⟨547, .csrDiag, 2, []⟩,
   ⟨550, .gram, 1, ["transpose", "verbose", "log_message"]⟩,
   ⟨557, .zeroes, 2, []⟩,
   ⟨562, .zeroes, 2, []⟩,
   ⟨593, .loadInter, 1, []⟩,
   ⟨605, .zeroes, 1, ["tol"]⟩,
   ⟨606, .normalize, 1, []⟩,
   ⟨608, .matmul, 2, ["verbose", "log_message"]⟩,
   ⟨612, .zeroes, 1, ["tol"]⟩,
   ⟨613, .normalize, 1, []⟩,
   ⟨615, .matmul, 2, ["verbose", "log_message"]⟩,
   ⟨624, .csrDiag, 2, []⟩,
   ⟨627, .gram, 1, ["transpose", "verbose", "log_message"]⟩,
   ⟨634, .zeroes, 2, []⟩,
   ⟨639, .zeroes, 2, []⟩]

/-- The calls in src/flowstab/scripts/run_clusterings.py:
the line, the function, the number of positional arguments and the
names of the others. -/
def clustCalls : List Site :=
  [⟨257, .zeroes, 2, []⟩,
   ⟨268, .diagCsr, 2, []⟩,
   ⟨269, .csrDiag, 2, []⟩,
   ⟨285, .normalize, 2, []⟩,
   ⟨298, .autocov, 0, ["PT", "p1", "p2", "PT_symmetric"]⟩,
   ⟨332, .zeroes, 2, []⟩,
   ⟨360, .normalize, 2, []⟩,
   ⟨374, .autocov, 0, ["PT", "p1", "p2", "PT_symmetric"]⟩,
   ⟨418, .aggregate, 1, []⟩,
   ⟨456, .aggregate, 1, []⟩,
   ⟨479, .autocov, 3, ["PT_symmetric"]⟩,
   ⟨513, .autocov, 3, ["PT_symmetric"]⟩,
   ⟨533, .sparseClustering, 0, ["p1", "p2", "T", "S", "rnd_seed"]⟩,
   ⟨539, .louvain, 0, ["n_meta_iter_max", "n_sub_iter_max", "verbose", "print_num_loops"]⟩,
   ⟨548, .sparseStability, 0, []⟩,
   ⟨565, .sparseClustering, 0, ["p1", "p2", "T", "S", "rnd_seed"]⟩,
   ⟨571, .louvain, 0, ["n_meta_iter_max", "n_sub_iter_max", "verbose", "print_num_loops"]⟩,
   ⟨576, .numClusters, 0, []⟩,
   ⟨589, .sparseStability, 0, []⟩,
   ⟨609, .staticClustering, 1, ["rnd_seed"]⟩,
   ⟨611, .louvain, 0, ["n_meta_iter_max", "n_sub_iter_max", "verbose", "print_num_loops"]⟩,
   ⟨620, .stability, 0, []⟩,
   ⟨638, .nvi, 3, ["use_clust_list"]⟩,
   ⟨907, .nvi, 2, ["N", "use_clust_list"]⟩]

/-- The calls in src/flowstab/parallel_clustering.py:
the line, the function, the number of positional arguments and the
names of the others. -/
def parCalls : List Site :=
  [⟨129, .autocov, 3, ["PT_symmetric"]⟩,
   ⟨155, .clustering, 0, ["p1", "p2", "T", "S", "rnd_seed"]⟩,
   ⟨161, .louvain, 0, ["n_meta_iter_max", "n_sub_iter_max", "verbose", "print_num_loops"]⟩,
   ⟨170, .stability, 0, []⟩,
   ⟨183, .sparseClustering, 0, ["p1", "p2", "T", "S", "rnd_seed"]⟩,
   ⟨189, .louvain, 0, ["n_meta_iter_max", "n_sub_iter_max", "verbose", "print_num_loops"]⟩,
   ⟨198, .sparseStability, 0, []⟩,
   ⟨240, .nvi, 3, ["use_clust_list"]⟩]

end Verif.Calls
