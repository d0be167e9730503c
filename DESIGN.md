# Formal model of flow_stability in Lean 4

## Approach

The model is a set of small, total Lean functions that mirror the Python and Cython functions
branch by branch. Exceptions are values (`Except` or `Option`), loops are folds, structural
recursion or recursion with a bound on the steps that the theorems show is never reached, and
random choices and the order of Python sets are arguments (an arbitrary schedule). External
numerical routines are parameters with a recorded contract, or the mathematical function that
they compute.

Each area of the code has a folder under `lean/Verif/`:

* `Model.lean` (or `*Model.lean`): the definitions that mirror the code, each with the file and lines it models
* `Spec.lean`: the vocabulary of the statements, independent of the model's helpers
* `*Lemmas.lean`: helper lemmas, without claims about properties
* `Props.lean` and files named after a topic: the property theorems, named after the property
  (`C26_gain_exact`), each with an `example` that a concrete non-trivial case meets its hypotheses

A property that the code does not have is proved where it holds (`_partial`), with the guard that
the code needs, and refuted where it does not (`_violated`, `_fails`, `_worse`).

Numbers: Python ints are `Nat` or `Int`. Python floats are elements of an arbitrary ordered field,
or of the reals where logarithms or exponentials occur. Machine arithmetic, with rounding, is modelled for the dense
clustering (C100-C102) and for cumulative transition matrices (C106, with underflow and overflow); elsewhere rounding
errors, infinities and overflow are not modelled. Where NaN matters for the control flow or the result, it is an error value.

## Plan per property

For each property: what is modelled and how it is proved. The theorems are listed in `MANIFEST.json`;
"violated" means that the negation, or the failure, is proved with a witness or for all inputs.

| id | title | folder | model and proof | status |
|----|-------|--------|-----------------|--------|
| C01 | Analysis steps are gated | `StateTracking` | metaclass tables, setter and method wrappers of state_tracking.py over an arbitrary class description; case analysis and induction over histories | proved |
| C02 | State after a step | `StateTracking` | same machine; the state after a step that returns or raises | proved |
| C03 | Assigning a property never advances the state and invalidates later steps | `StateTracking` | same machine; assignments as operations of a history, induction over the history | proved |
| C04 | Set/unset flags mirror the assignment history | `StateTracking` | same machine; the flags as a fold over the history | proved |
| C05 | state.next reports exactly what is missing, and a runnable step | `StateTracking` | same machine; the report of `state.next` against the table of requirements | proved |
| C06 | FlowStability steps happen in pipeline order | `FlowStability` | FlowStability as an instance of the machine with its own fields; invariant over all histories | proved |
| C07 | Every admissible time direction can be carried to a clustering | `FlowStability` | same; refusal for single directions for all histories, success for both directions | partial |
| C08 | A network given to the constructor or by assignment is usable | `FlowStability` | same; refusal of an assigned network for all histories | partial |
| C09 | A rejected network value does not count as set | `FlowStability` | same; the flag after a value that is rejected | partial |
| C10 | Time scales: validation and read-back | `FlowStability` | setter and getter of time_scale with lists and one-shot iterators; case analysis | partial |
| C11 | Compressed stochastic matrix: full-matrix round trip | `Csr, SparseStoch` | CSR arrays and compressed matrices; refinement to functions of two indices | partial |
| C12 | Compressed addition and subtraction are exact | `SparseStoch` | sparse accumulator and the merge loop of two index lists; loop invariant | proved |
| C13 | Compressed product is exact | `SparseStoch` | product of compressed matrices; refinement to the matrix product | proved |
| C14 | Compressed transpose, scalar product and diagonal shifts are exact | `SparseStoch` | transpose, scalar product and diagonal shifts; refinement | proved |
| C15 | Row normalisation makes rows sum to the target and keeps ratios | `SparseStoch` | row normalisation over the arrays of a CSR matrix; loop invariant | proved |
| C16 | Trimming small values removes exactly the small values | `SparseStoch` | trimming of small values, as a function and as a method | partial |
| C17 | User-chosen kept indices | `SparseStoch` | compression with a user list of indices; the matrix represented for every list | partial |
| C18 | Sparse autocovariance: element and block sums | `Autocov` | sums of a sparse autocovariance over index lists; finite sums | partial |
| C19 | Sparse gain computations are exact | `Autocov` | gain loops with their merge of indices; loop invariants | partial |
| C20 | Aggregation preserves block sums | `Autocov` | two aggregation loops; block sums | partial |
| C21 | Autocovariance of a Markov transition has vanishing row and column sums | `Autocov` | autocovariance from a transition; finite sums | proved |
| C22 | Forward flow autocovariance is symmetric, has zero row sums and is positive semidefinite | `Autocov, Flow` | forward autocovariance and its integral; sums of squares | partial |
| C23 | Partition consistency | `Partition` | Partition object; invariant over lists of operations | proved |
| C24 | Integrity check is exact | `Partition` | integrity check against the definition of a partition | partial |
| C25 | Failed node move is atomic | `Partition` | node move that fails; state after the failure | partial |
| C26 | Dense Louvain gains are exact | `Louvain` | gain functions; exact identity of finite sums | proved |
| C27 | A sweep of Louvain moves never decreases stability and reports the exact gain | `Louvain` | sweeps with an arbitrary order of nodes and of sets; invariant of the sweep | proved |
| C28 | Aggregation preserves stability | `Louvain` | aggregation; regrouping of sums | proved |
| C29 | Louvain never returns a partition worse than its start | `Louvain` | the whole Louvain loop; invariant over meta iterations, witnesses for the failures | partial |
| C30 | Louvain terminates | `Louvain` | number of sweeps from the minimal gain of a sweep; bound by the number of clusterings | proved |
| C31 | Node relabelling is an order-preserving bijection | `TempNet` | constructor from lists; sorted lists without repetition | proved |
| C32 | Closest-time lookup | `TempNet` | time grid and lookup; minimum over a sorted list | proved |
| C33 | Laplacians describe the active contacts | `TempNet, Merge` | event loop of the Laplacians; invariant: the matrix counts the active contacts | partial |
| C34 | Laplacian rows sum to zero | `TempNet, Trans` | row sums from the loop invariant; the exponential as a power series over the reals | proved |
| C35 | Merging overlapping contacts preserves activity | `Merge` | merging pass and loop; invariants and a termination measure; witnesses | partial |
| C36 | Static adjacency matrix | `TempNet` | adjacency sums; finite sums | proved |
| C37 | Transition matrices are cached consistently | `Trans` | cache of matrices as state; history invariant and witnesses | partial |
| C38 | Cumulative transition matrices | `Trans` | cumulative products with and without trimming; induction | proved |
| C39 | Delta-encoded saving of transition matrices | `Trans` | delta encoding; induction over the list | partial |
| C40 | Linear approximation of the transition matrix is stochastic | `Trans` | linear approximation; convex combinations | proved |
| C41 | Stationary transition matrix | `Trans` | stationary transition matrix by connected components | proved |
| C42 | Variation of information is a normalised metric | `Info` | variation of information; concavity of entropy over the reals | partial |
| C43 | Mutual information | `Info` | mutual information; entropies | proved |
| C44 | Sorted intersection length | `Info` | merge loop on sorted vectors; loop invariant | proved |
| C45 | Jaccard distance returns a distance | `Info` | function without a return value | partial |
| C46 | sort_clusters returns a permutation and terminates | `Info` | sorting loop of clusters; permutation invariant and termination measure | proved |
| C47 | Flow integral uses the right time steps | `Flow` | weights of the integral and grids; telescoping sums | partial |
| C48 | Synthetic network events are well-formed | `Synth` | discrete event simulation with arbitrary draws; invariant over steps | partial |
| C49 | Work splitting covers every slice exactly once | `Scripts` | batches and slices; list lemmas | partial |
| C50 | Interrupted covariance integration can be resumed | `Scripts` | restartable script over a file store; invariant over histories with a crash at every step | partial |
| C51 | Interrupted clustering run can be resumed | `Scripts` | same for the clustering script | partial |
| C52 | Indicator matrix of a partition | `Partition` | indicator matrix of a partition | proved |
| C53 | Louvain moves are greedy | `Louvain` | choice of the best cluster; maximum over the candidates | proved |
| C54 | Louvain handles every transition matrix the constructor accepts | `Louvain` | failures of the constructor and of the loop for zero rows | partial |
| C55 | The all-zeros test of an autocovariance | `Autocov` | all-zeros test; bounds on sums | partial |
| C56 | A network built from an events table behaves like one built from event lists | `TempNet` | constructor from a table or a path; comparison with lists | partial |
| C57 | Instantaneous networks | `TempNet` | instantaneous networks; one contact interval per time | proved |
| C58 | Computing cumulative matrices does not change the inter-event matrices | `Trans` | aliasing of cached matrices in the cumulative computation | partial |
| C59 | Transition matrices depend on the contacts only | `Trans` | transition matrices as a function of the contacts | proved |
| C60 | All ways of computing the exponential agree | `Trans` | exponential by columns, by components and in parallel; block structure of the exponential | proved |
| C61 | Linear inter-event matrices | `Trans` | linear inter-event matrices; history of calls | partial |
| C62 | All versions of the variation of information agree | `Info` | versions for vectors and matrices and the parallel version | partial |
| C63 | Average variation of information of an ensemble | `Info` | average over pairs of an ensemble | proved |
| C64 | A simulation loses and invents no contact | `Synth` | log of the simulation; invariant over steps | proved |
| C65 | Simulated contacts respect the groups | `Synth` | choice of partners; invariant | proved |
| C66 | Simulations end without failure | `Synth` | progress of the simulation | partial |
| C67 | Every simulated individual stays active | `Synth` | queue of activations; invariant | proved |
| C68 | The saved summary of repeated clusterings describes them | `Scripts` | summary as a function of the results | proved |
| C69 | Clustering with sparse matrices | `SparseLouvain` | Louvain on sparse autocovariances; simulation of the dense loop | partial |
| C70 | Clustering the connected components one by one | `Scripts (Comp*)` | clustering of connected components and assembly of the result | partial |
| C71 | The number of worker processes does not change the clusterings | `Scripts (CompPool)` | pool of workers as a map over tasks | proved |
| C72 | The clustered covariance is that of the saved flow | `Scripts (Load*)` | loading of integrals, composed with the model of the script that wrote them; tolerance, filled diagonals and rows of probability zero for csr files of other programs (LoadTol) | partial |
| C73 | Clustering of a static network optimises Markov stability | `Static` | random walk, stationary distribution and covariance of a static network | partial |
| C74 | Repeated Louvain clusterings of one object | `Static` | repeated runs as a map over seeds | partial |
| C75 | Covariance between source and target clusters | `Bipart` | covariance of two partitions and its updates; finite sums | proved |
| C76 | Saving and loading a network | `SaveLoad` | objects as attribute dictionaries, files as a map from paths; induction over attribute assignments | partial |
| C77 | Normalisation of a symmetric matrix stored as its upper triangle | `Triu` | passes over the rows of a triangle; the rows above the current one are final (invariant over passes) | partial |
| C78 | Clustering with a pool of processes gives the results of separate runs | `Parallel` | a pool is the order in which its tasks finish; induction over this order shows that answers are stored by position; the single runs are those of C74 and C69 | partial |
| C79 | Saving and loading of transition matrices | `MatFiles` | files are a function from names to contents; the loops over dictionaries are one recursive function with an exception, whose result is computed once for all loaders and savers | partial |
| C80 | Interrupted computations of the transition matrices of a time slice | `Laps` | a run is the list of its writes, a stopped run a beginning of it; an invariant on the disk (right content, products only after the files they need) holds after every write, so at every crash point | partial |
| C81 | From contacts to communities | `EndToEnd` | the open parts of the FlowStability model are filled with the models of the network, the flow clustering and the Louvain search over the real numbers; each step is shown to return with an invariant on the instance, and the theorems of C33, C59, C34, C47 and C29 are chained to a statement about contacts | partial |
| C82 | Cumulative linear matrices | `LinTrans` | Both classes of networks with their six attributes; a call gives the attributes after it and the exception. Invariant of all sessions that keep their options, from a generic lemma on the linear matrix of a random-walk Laplacian; witnesses on three nodes by kernel evaluation. | partial |
| C83 | Transition matrices of instantaneous contacts | `LinTrans` | Same model with the class of instantaneous contacts; the Laplacians of C57 describe the graphs, the invariant of C82 does the rest; exponentials over the reals. | partial |
| C84 | Stopped runs and recorded progress of the Louvain search | `FlowRuns` | a run is the list of its writes to the object, a stopped run a beginning of it; along the writes the partitions are valid, coarser and better (induction over the meta loops with the invariant of C29) | partial |
| C85 | Sessions on a flow clustering | `FlowRuns` | an object with its two dictionaries; a call gives the object after it and how it ended; an invariant over sessions traces each stored partition to a completed run, to which C29 applies | partial |
| C86 | Partitions and clusterings are independent of each other | `Sharing` | Sets have addresses in a heap; partitions and lists of the caller hold addresses; operations of the program (constructions, moves, removals of empty clusters, Louvain runs with any moves and any results, changes by the caller) act on the heap. Every operation is one of a few kinds of change; the invariant that the sets of a partition are held by nobody else gives independence by induction over the operations, and that the view of the partition is what the single-partition model of C23 makes of it. Violations are proved for every list of clusters. The identity of a set occurring twice in a list of the caller is not kept by the modelled deep copy. | partial |
| C87 | Louvain with separate source and target partitions | `Bipart` | The node-moving phase of the base class with the open methods of subclasses as parameters; invariant that the clustered covariance and the running stability agree with the partitions (from C75), by induction over candidates, nodes and rounds. Aggregation and the shape-dependent part of the constructor are modelled; the exact condition for it to succeed is proved. | partial |
| C88 | Compressed matrices stay usable after row normalisation | `Widths` | The compressed matrices of C11-C16 with the integer type of their index arrays; a compiled routine declared with int[:] accepts 32-bit arrays only (behaviour of Cython memoryviews, trusted). Products are shown to be blocked exactly when an operand with 64-bit indices is used uncopied; compute_transition_matrices is a loop over the inter-event matrices with the stored list as state. Induction over the list for the Python routines, exact lengths at which the compiled run raises, and the second call. | partial |
| C89 | The sparse clustering does not depend on the version of the helper routines | `Backends` | The search of C69 with the version of the helper routines as a parameter: each call of a helper routine either does what the compiled routine does or raises as the replacement does (array.array has no attribute shape; a routine has another name; aggregation is not implemented). Proved equal to C69 for the compiled version; for the replacements by induction over nodes and rounds of the first phase, starting from the default partition when the weights are numbers. | partial |
| C90 | Helper functions on sparse matrices | `Helpers` | The arrays of the result of sparse_outer are built as in the code (index lists, lengths in turn, cumulative sums) and shown equal to the arrays of a matrix given row by row; dense values follow by induction on the stored entries. Row normalisation, rounding to one and the dense forward covariance are modelled on the stored arrays or dense values; scipy conversions between CSR and CSC are transposes. | partial |
| C91 | Removing and restoring empty rows and columns | `Helpers` | remove_nnz_rowcol as the selection of occupied rows and columns; numpy_rebuild_nnz_rowcol as a fold over the rows of the new matrix with the write position of the small matrix as state, related to the expansion of compressed matrices (C11); counting of listed rows gives the exact success condition. | proved |
| C92 | find_spectral_gap returns the spectral gap | `Spectral` | The matrix given to eigsh over the reals; eigenvalues as existence of a vector. For graphs with equal degrees the eigenvalues of that matrix are minus one and the non-zero ones of the Laplacian (column sums, quadratic form, connectedness). eigsh is trusted to return the eigenvalue nearest to zero of a symmetric matrix; its convergence and rounding are not modelled. | partial |
| C93 | The compiled sparse routines access only their arrays | `Memory` | Second model of the compiled routines, one step per array access: reads and writes are partial operations on lists of fixed length that end the run with a fault when the index is outside; loops are folds over ranges of integers, C++ maps are association lists that answer 0 for missing keys, numpy slices are cut at the end and assignments of slices compare lengths. Loop invariants relate each run to the model used for C11 to C22, so both models agree and the runs do not fault. Integers are unbounded here (widths: C88). | partial |
| C94 | The compiled dense routines access only their arrays and agree with the numpy versions | `DenseMem` | The dense routines of _cython_fast_funcs.pyx with one step per array access (reads and writes outside end the run with a fault) and their numpy replacements with index wrapping, broadcasting and errors. Loop invariants give the results in closed form; the exact conditions for stray accesses follow from the first access that fails. The constructor of the dense clustering is modelled from its tests of T, p1 and p2 to the covariance. | partial |
| C95 | The parallel variation of information does not depend on the threads | `Races` | Small-step model of the threads of one row: a thread either loads the shared element or stores its difference; a schedule is any list of thread numbers. Invariant: the element is the start minus a sub-multiset of the terms already begun. Lost updates by construction of a schedule for all inputs with two working threads. Compiler reordering and torn accesses are not modelled. | partial |
| C96 | The component-wise exponential is the exponential, serial and parallel, for the stored arrays | `ExpmArrays` | Sparse matrices as arrays with a format flag; the message to the worker processes is the three arrays, read back as CSC. Rebuilding of the full arrays as a run over the rows with the row pointers from cumulated counts (accesses as in C93). Dense exponentials of blocks and the product exp(A)v are the parameters of C60, with exp from Mathlib over the reals; the processes of the pool are a map over the columns (C78 treats the distribution of work). | partial |
| C97 | Individuals are simulated with their own parameters and groups | `SynthRuns` | Distributions, individuals and the class lists as records; random numbers are location plus scale times a number of the tape; the durations of the simulation (C48) become lookups by position. Invariants over the passes give the parameters of every recorded contact and every activation ahead. | partial |
| C98 | Saved states of a simulation describe its contacts | `SynthRuns` | The loop with its two dictionaries in the order of insertion and the time of the next bin. Invariants relate the saved matrices to the contacts begun so far; counting of saved keys gives the exact rule for saved_states. | partial |
| C99 | A second run of the same simulation | `SynthRuns` | A run started from the state left by another. Invariant for blocked pairs: the entry of the matrix stays set until an end of contact that is due after the end time. For runs without contacts in progress, a lifting of states commutes with every function of the simulation; later entries do not change which entry of the queue comes first. | partial |
| C100 | Louvain clustering gives a valid partition in machine arithmetic | `Rounding` | Second model of the dense Louvain clustering in which addition, subtraction, negation, division, sums and comparisons are parameters without laws, as are the orders in which clusters are listed. The partition invariants of C26 are carried over by induction on the loops. With the exact operations (and NaN for a division by zero) the loops are shown equal to those of the exact model. | proved |
| C101 | In double precision the clustering found is not worse than the start | `Rounding` | Arithmetics with relative rounding error u below an overflow bound B (structure Rounds); an error calculus (value, exact value, sum of absolute values, number of roundings) gives the bounds for compiled sums, numpy sums and aggregated matrices; induction on sweeps, phases and levels. Double precision (53 bits, ties to even, no exponent limits) is defined on the rationals and shown to be such an arithmetic; the violation is a run of it evaluated by the kernel. | partial |
| C102 | A node-moving phase goes on only while the partition improves | `Rounding` | Induction on the nodes of a sweep relates the reported to the true gain. For the cycle, the sweep is evaluated by the kernel on the two partitions of the cycle, and induction on the number of sweeps gives the run for every limit. | partial |
| C103 | Flow integrals of sparse matrices hold the covariances of the flow | `SparseFlow` | FlowIntegralClustering on the arrays of csr matrices: products, row normalisation, gram matrix (upper triangle with sparse_dot_mkl), trimming, sums and differences of scipy, stored covariances. Refinement to the value-level model of C47 by induction on the products and on the loop. The trimmed loop is run beside the loop without trimming; invariants bound the loss of every entry and keep the diagonal. | proved |
| C104 | Clustering a sparse flow integral gives a valid partition that is not worse than no clustering | `SparseFlow` | The invariants of C103 give the conditions of C69 (every row stores its diagonal entry, only positive numbers are stored), and the error bound carries its conclusion over to the exact mean covariance. For a zero probability the row of the node is shown to be empty for every input, so the visit of the last node fails in the first sweep. | partial |
| C105 | A covariance passes for zero only if no partition has a noticeable stability | `SparseFlow` | The stability of any partition is bounded entry by entry. The violation is proved for every number of nodes: the covariance of two halves is computed in closed form and compared with the tolerance of the test. | partial |
| C106 | Cumulative transition matrices do not drift in machine arithmetic | `FloatTrans` | Products (sparse accumulator), row sums and row normalisation on stored rows with machine operations as parameters; assumptions on the operations in the structure Rounds (relative error u, absolute error u*tau below tau, no overflow up to B). Induction on the accumulated products and on the summed entries bounds the error of a row; a step maps nearly stochastic matrices to nearly stochastic ones with the same slack, so induction on the events gives a bound that does not grow, and a telescoping sum the linear bound on the distance to the exact product. Double precision with gradual underflow is defined on the rationals and shown to satisfy Rounds. | proved |
| C107 | help() and lamda tell the truth about the analysis | `FlowStability` | help is read off the same state description and flags as the refusals of C01-C10; the two are compared stage by stage for every reachable stage. lamda is the reading of the time scales with every number inverted; the loop of compute_inter_transition_matrices is followed rate by rate. | proved |
| C108 | The example with alternating steps follows its schedule | `Synth` | The schedule is modelled branch by branch and compared with three periods stated separately; its rows sum to one or to zero, so C66 applies. A new invariant shows that a recorded contact was begun before the end. C65 then gives a positive entry of the matrix, which is looked up in every branch. | proved |
| C109 | Flow covariances in machine arithmetic | `FloatFlow` | The dense branch of FlowIntegralClustering with number operations as parameters. Error analysis by counting roundings of non-negative quantities and keeping track of their exponent range; an instance for IEEE double precision with gradual underflow. Infinities and NaN by laws that hold for IEEE arithmetic, with an instance, and the dense Louvain model of C100 on NaN. | partial |
| C110 | Sparse static networks with nodes that have no edge | `StaticSparse` | The object built from the stored arrays. A node without edges keeps its place under powers, linear steps and exponentials (the indicator of the node is a stationary vector, detailed balance gives the column). Invariant of the first pass: the node is alone in the last cluster; then the row of that cluster is empty after aggregation, C19 gives the read outside the arrays. | partial |
| C111 | The reported variation of information is that of the clusterings | `NviReport` | The number of rows that worker passes to norm_var_information for each option, the models of C42 and C70 for the values and the clusterings. A lemma gives the value of norm_var_information for a wrong number of nodes; strict monotonicity of n log n makes the factor differ from one. | partial |
| C112 | Asking for the static comparison does not change the temporal result | `NviReport` | The worker of C51/C68 with the static clusterings of the model of C110. Case analysis of the worker; for a network without contacts the static model ends with ValueError for every seed; induction on the runs. | partial |
| C113 | Sparse clustering in machine arithmetic ends with a partition | `SparseRound` | The sparse routines again with number operations as parameters without laws, and the stored arrays as they are. Induction over candidates, nodes, loops and levels with the invariant that the partition is valid and the arrays have their shape; positivity of sums keeps the last row. The instance for exact arithmetic equals the model of C69. | partial |
| C114 | Sparse clustering in double precision is not worse than its start | `SparseRound` | The model of C113 with laws for rounding (RoundsS). Counting roundings: every stored number, weight and sum is near its exact value with an exponent; products add exponents, normalisation doubles them. A level (SLevel) states this of an aggregated object; aggregation of the original matrix gives a level, moves on a level change the exact stability by the computed gain up to the error; induction over the levels. | partial |
| C115 | The second Python replacement normalises rows | `Subst` | The loop of _cython_sparse_stoch_subst.py:33-40 as a map over the rows of the data array. Each row is rewritten explicitly; the conditions follow by algebra and by comparing rows with the model of C15. | partial |
| C116 | Log level and logged paths | `Logs` | State of the package logger and of the root logger; set-up, level changes and root configuration as events. Induction over the history with the invariant that the package has one handler, or none when the root logger had one at the import, and at least one filter. Splitting a joined path gives back its parts, so the path filter is idempotent. | partial |
| C117 | Assigned parameters read back | `FlowStability` | The setters of the model of C06-C10, with every Python type a value can have as a constructor of Val; the assigned world is computed explicitly and compared with a separate reading of directions. | partial |
| C118 | A partition groups the nodes as its argument does | `Partition` | The constructor model of C23. Every valid argument leads to a list of sets in which the position of a node is its key; removing empty sets is strictly monotone on positions. For arbitrary dictionaries the position is the value as a Python index. | partial |
| C119 | The window of an analysis covers what was asked for | `TempNet` | The window model of C33 and the lookup of C32, compared with the documented boundaries. | partial |
| C120 | The default rate | `Units` | The median of the model of C37/C81 (sorted list, middle elements) compared with a specification by permutation and order; counting in a sorted list. | proved |
| C121 | Results do not depend on the unit and origin of time | `Units` | No new model: the functions of C31-C38 and C47 are compared on two inputs. Everything up to the Laplacians commutes with strictly increasing maps of time (induction over sorting, filtering and the event loop). Products of lengths and rates do not change; induction over the calls with the invariant that the window lies inside the times. In the integral all lengths scale, trimming is relative, and the division by the total time removes the factor. | partial |
| C122 | Results do not depend on the names of the nodes | `Rename` | No new model: the functions of C31-C38, C47 and C26 are compared on two inputs. The sorted table of events is the renumbered table because sorting looks at times only. A simulation relation is kept by every row of the event loop; sums, maxima and products over all nodes do not change under a permutation. The exponential is compared power by power. | proved |
| C123 | Results do not depend on whether sparse_dot_mkl is installed | `Rename` | The models of C47 and C103. Invariant of the loop: one run holds the upper half of the symmetric matrix of the other; both have the same largest entry, so the same entries are trimmed. Arrays without repetitions and zeros are determined by their values after sorting. | proved |
| C124 | A run can be repeated from its seed | `Seeds` | The loops of C26/C69 written again with a generator (abstract: seed, shuffle) handed on, and generators in a heap shared by reference. Refinement: for every start there is a schedule with which the earlier models give the same result (induction over loops, the schedule built backwards). Frame lemmas for searches and constructors; induction over programs. | partial |
| C125 | Results do not depend on how the contacts are listed | `Listing` | No new model: the functions of C31-C38 are compared on two inputs. After any rows the whole state of the event loop is a function of the adjacency matrix (degrees are row sums, a contact of a node with itself counted twice), and an entry is set by the last row of its pair. The last row of a sorted list depends only on the set of contacts. Induction over the times and over the calls. | proved |
| C126 | Flow stability does not increase with the integration time, and is bounded | `Decay` | No new model: the object of C47 and the stability of C26. The quadratic form of a covariance is a sum of squares of what arrives at a node over its probability; a further stochastic step lowers it by the inequality of Cauchy and Schwarz. Running means of a decreasing sequence decrease (induction). The bound is the form of the identity matrix, evaluated on the members of the clusters. | proved |
| C127 | Flow stability is a lower estimate of the mean over time of the stability of the walk | `Average` | computedFlow composes the models of C31-C38 and C47. The walk in continuous time is a specification of its own. Its covariance is monotone in time by C126 (chaining over the intervals between event times), so the sum over event times is a lower sum of its integral; lower and upper sums differ by a telescoping sum. Integrals from Mathlib. | proved |
| C128 | The flow covariance depends only on who is in contact when | `Average` | The same walk fits both lists of contacts; a lower sum on a finer grid is not smaller (induction over the coarse grid). Violation: the exponential of the Laplacian of a pair is computed from its power series, the covariance of one node after time t is exp(-4t)/4, which falls strictly. | partial |
| C129 | Communities join only nodes that a chain of contacts links | `Groups` | No new model: the search of C26, the sessions of C81. Invariant of the search: no cluster meets two groups. A visit moves a node only to a cluster of a neighbour, and the aggregated transition matrix respects the groups of the clusters; induction over visits, sweeps, loops. Products and exponentials of matrices that respect the groups respect them; the Laplacian of a contact does. Covariances of nodes of different groups have no term but the product of probabilities. | proved |
| C130 | Reading time backward exchanges forward and backward communities | `Mirror` | No new model. C81_search: the partition held after a session is the result of one search on the matrices of the specification (the search reads only the entries of its nodes: congruence by induction over its loops, Louvain/Congr). The steps of the walk on mirrored contacts are the steps of the walk in reverse order, because contacts do not change between event times. | proved |
| C131 | Analyses of equivalent data find equal communities | `Mirror` | Corollaries of C81_search: the matrices of the specification are equal for the two inputs. | proved |
| C132 | The communities found cannot be improved by joining two of them | `Optimum` | No new model: the searches of C26 and C69, the sessions of C81. The last level of the search ends with a sweep that moves nothing or changes the stability by at most the threshold. Without ties a sweep that moves a node changes the grouping and hence the stability by more than the threshold, so that the last sweep moved nothing: no community is better off in the community of a neighbour. The number of clusters falls at every level but the last. Sparse search: equal to the dense one by C69. Ties: a concrete walk for which the search stops too early. | partial |
| C133 | Each community hangs together | `Optimum` | No new model. Concrete symmetric walks on which the search returns a community that a node should leave, or one without inner links. Linked members: C129 with the links as groups. | partial |
| C134 | With a time scale long compared with the data every node is alone | `Scales` | No new model: the search of C26, the sessions of C81. The exponential of minus a Laplacian with diagonal at most 1 keeps at least exp(-t) on its diagonal (power series of a non-negative matrix), products add the times; a walk that stays with probability at least 1 - 1/(3n) has negative covariances for different nodes. If those are negative, singletons beat every other partition, and the search, which starts there, never does worse (C27, C30). | proved |
| C135 | With a short time scale, contacts that last all the time give the connected groups | `Scales` | No new model: the search of C26, the sessions of C81. The walk can reach each linked node in any positive time (power series, chains), hence the columns of its transition matrices become flat on a group: the oscillation shrinks by a constant factor per unit of time (induction). Bounds of the covariances in terms of the flatness. The search: as long as two communities are adjacent, joining them gains more than the threshold, so that the last level joins all adjacent ones; it never joins unlinked nodes (C129). | proved |
| C136 | The computation of integrals finds the input that the first script wrote | `CovMain` | Names as lists of characters: splitext, split at underscores, the search for int and six digits, int() and float(), and the formats {:06d} and {:.3e} of the names that the first script writes. The parts of a name are computed for all network names; reading a number back gives the number that was written (digits as lists, induction); the fold over all parts fails exactly if a part is not a number, and otherwise collects exactly the numbers. | partial |
| C137 | Every integral that is asked for is computed, whatever the processes do | `CovMain` | main as the list of its tasks; a pool as a machine in which any task can do its next step, where the worker of C50 is cut into steps (worker_begin shows that the steps in a row are the worker). Invariant for every task: its state is that of the worker alone after some of its steps, and the disk agrees with the disk of the worker alone on all files of its direction of time. The two tasks that share a disk own different files, since end points lie on different sides of the starting point. Content of the files: C50. | partial |
| C138 | Every call that the command line tools make is accepted by the library | `Calls` | Python signatures and shapes of calls with the matching of arguments to parameters (`bind`), proved to accept exactly the calls that fit a separate description (`Fits`); a table of all signatures and calls involved, read off the source; the worker of run_laplacians_transmats with its calls, on top of the model of C80. For the script as it is, induction over the waiting times shows that nothing is written; a script whose calls are accepted is shown equal to the model of C80. | partial |
| C139 | run_clusterings clusters exactly the finished integrals of its network | `ClustMain` | The choice of files by their names, the names that run_cov_integrals writes and the names of results, on top of the names of C136 and the worker of C51. Names are cut at the underscore after the name of the network: a text that occurs in the whole lies on one side or crosses it. No pair of adjacent characters of an unwanted text occurs in the rest of the name. Names are told apart by their parts between underscores, read from the end. | partial |
| C140 | The three command line tools together find what the library finds in one process | `Pipeline` | The contents of the files of C80 are computed with the methods of the network (Trans) and read by the worker of C50; run_clusterings loads what that writes (C72). Every slice holds the steps between the event times of its bounds; the slices of a stretch put together hold the steps of the stretch (induction over slices), so the flow is that of the contacts, which is compared with a separate description of the walk as in C81. For the tools as they are, C138 gives empty disks, and an invariant of the worker of C50 (nothing integrated, nothing written) does the rest. | partial |
| C141 | Transition matrices do not react strongly to contacts that are recorded inexactly | `Noise` | The composition of C81 up to the transition matrix, compared with the walk in continuous time of C127 on the union of the event times of both tables. Exponentials of two generators: derivative of exp((s-r)A)exp(rB) and the mean value inequality in the row sum norm, where the exponentials have norm at most one. Along the walks the distances add up, and grow only while the contacts differ (Lebesgue measure of these moments). Moved contacts differ at most between the old and the new start and end. | proved |
| C142 | The flow stability does not react strongly to errors of the recorded times | `Noise` | The covariance of a transition changes by at most three times the change of the rows (walkers are conditioned on where they end). The mean over event times is rewritten as one over all times with repetitions, whose sorted lists move as little as the times (counting), and compared term by term. | proved |
| C143 | Results change smoothly with the waiting time, and are known for long ones | `Smooth` | The walk in continuous time of C127 at two rates on the same contacts, with the distances of C141: one step by the mean value inequality for exponentials of multiples of one generator, walks by chaining steps, covariances and their mean as in C142. For long waiting times the second walk is the one at rate zero, which stays where it is, and the stability of a flow that does not move is known (C126). | proved |
| C144 | What has been computed already is recognised by the names of its files | `Glob, LapMain` | `fnmatch` and `glob` of the Python library as a parser of patterns and a matcher of names: stars, question marks, sets in brackets with ranges and exclamation marks, brackets that are not closed, hidden files, directories. Ordinary names are read as themselves (induction over the text), so that the search finds exactly the names that begin with the text. For `u[s]v` the names found are those that begin with `u`, one character of `s` and `v`. In the pool of C145: if all answers are yes nothing is written, and if all are no all files that were asked for are (both by induction over the program of the worker and the steps of the pool). | partial |
| C145 | A pool of processes on one or several machines writes the matrices of all slices | `LapMain` | The worker of C80 as a tree of questions to the directory and of writes, shown equal to the worker of C80 if it runs alone; the pool as a machine in which any slice makes its next step, on one common list of files with their names. Names of different slices, waiting times and kinds differ and do not begin with one another, and a search finds only files of the same key, so each slice sees its own part of the directory: its state is always that of the worker alone after some of its steps. Then C80 gives the content. Machines: C49. | proved |
| C146 | A pool of processes leaves a result for every integral, whatever was interrupted before | `ClustPool` | The worker of C51 cut into its accesses to the directory (is there a result, are there intermediate clusterings, write), the pool as a machine in which any integral makes its next step, with the names of C139. Names of different integrals and of the two kinds of files differ, so the two files of an integral are changed by its own process only: at any time they are those of the worker alone after some of its writes (invariant). Then C51 gives the content. Every step lowers a number of steps left. | partial |
| C147 | Walkers get exactly where chains of contacts lead, in the order of time | `Causal` | The composition of C127 and C141 (contacts, Laplacians, transition matrices, flow). Spec: an inductive relation of chains of contacts that respect time. One step of the walk is positive exactly along chains of contacts of its interval (the exponential of a Laplacian has positive entries along its links, and is closed under its components); products of nonnegative matrices with positive diagonals are positive exactly along chains of positive entries; induction over the chain and over the intervals. Backward: steps can be undone, so the reversed product has the transposed support. Covariance: sum of nonnegative terms, one of which is positive exactly if there is a common end; ends met after some intervals are still met at the last. | proved |
| C148 | Probabilities depend only on contacts that walkers can notice | `Local` | The composition of C141. Both walks are put on the grid of all times of both tables. Invariant along the grid: the row of the first walk is zero outside of the labels that can be visited, and the row of the second is the same row on its own list of labels. A step keeps it: on visited labels both generators have the same row (degrees counted by labels), visited labels are closed under contacts, so all powers of the generators act alike there, and with the series their exponentials. | proved |
| C149 | The static comparison clusters walkers that ignore who was the source of a contact | `StaticRuns` | The model of the static repetitions (NviReport, CompareModel) on the sparse object. Spec: contact time, share, hop and the stability of a list of clusters, written without the model. The probabilities of the model are the shares, its stored walk satisfies the conditions of C69, which gives the search; exchange of directions and change of unit give the same symmetrised matrix or the same probabilities. | proved |
| C150 | The probabilities of a group that meets are known | `Clique` | The composition of C141 (contacts, Laplacians, transition matrices). Spec: the moments at which a group meets, their duration (Lebesgue measure) and the resulting shares. On the rows of the group every generator is a multiple of the projection away from the mean, so its powers are known and the series gives the exponential; such matrices multiply by adding the exponents; induction along the grid of times, where the group meets always or never within a step. For two labels the measure is the sum of the durations of their separate contacts. | proved |
| C151 | Groups that meet are found exactly when they have mixed enough | `Parties` | The composition of C127 and the session of C81. Spec: the mean share of walkers that are not mixed, from the durations of the meetings, and the condition that groups meet. The walk at each time of the grid has the block of C150 on the rows of a group and nothing enters the group from outside, so that walkers are spread evenly and the covariance is the square of the block; the mean over the steps is affine in the mean share. Positive covariances within groups give the groups (search lemma of C135), negative ones single labels (C134). | proved |
| C152 | Labels that can be exchanged are treated alike | `Symmetry` | The compositions of C127 and C141 (contacts, Laplacians, transition matrices, covariance). Spec: maps of the labels under which the contacts stay the same, labels with the same contacts. Such a map permutes the labels of the table, so it is a renumbering of the network onto itself; contacts, degrees, Laplacians, exponentials (C122), products and covariances are fixed by the renumbering. The exchange of two labels with the same contacts is such a map. | proved |
| C153 | The communities found treat labels alike that can be exchanged | `Symmetry` | The search of C26 and the stability of C152. Violated: a walk on a ring of four nodes, for which the search finds two pairs of neighbours. Partial: the image of a division under the map is a division with the same stability, so a division whose stability no other one has is mapped onto itself; shown to apply when covariances are positive within and negative between clusters, as for the groups of C151. | partial |
| C154 | The description of a network counts its nodes and events | `Extras` | Description on the objects of C76 (attributes by name). Spec: number of different nodes of a list of events (cardinality of a finite set). The attributes read by the description are set by the constructors and among those that C76 shows to survive saving. | proved |
| C155 | Asking for durations changes neither results nor exceptions | `Extras` | The wrapper as a function of the result of the wrapped function and the keyword arguments, with printed lines as output. Cases on the result, on verbose and on the message; violations for all functions and arguments. | partial |
| C156 | Documented methods keep their own documentation | `Extras` | The decorator on optional texts. Prefix and suffix of the new text; violated for every function without documentation. | partial |
| C157 | The connectedness of two lists of nodes is the sum of their covariances | `Extras` | Indexing with negative numbers, bounds and the shapes of empty lists. Sum over lists by induction, over sets by lists without repetition; violated for every empty first list and second list with two nodes or more. | partial |
| C158 | The command line tools start with the settings that were given | `CommandLine` | The part of argparse that the scripts use: classification of words (names, abbreviations, text after the equals sign, negative numbers, spaces) and the loop over the words with its three modes; the tables of options of the three scripts. Spec: what the user gives for options, the words for it, and the setting wanted for each option. Induction over the list of given options; membership of a bad word by induction over all words. | proved |
| C159 | The options of run_cov_integrals do what they say together | `CommandLine` | The derived settings and the list of tasks of C137. A direction occurs among the tasks iff it is asked for (partial); violations for all grids and time scales. | partial |

## Assumptions about libraries and the runtime

* `numpy` sorting, `unique`, `searchsorted`-like comparisons, fancy indexing and sums follow their documentation.
* scipy CSR/CSC products, sums and conversions give the matrix that they represent; where the order of stored
  entries or explicit zeros matter, the model says so (sums of sparse matrices store nonzero entries in column order;
  `scipy.sparse.triu` returns a COO matrix, which has no `indptr`).
* `scipy.sparse.csgraph.connected_components` returns labels `0..c-1`, equal exactly for connected nodes.
* `scipy.linalg.expm` and `expm_multiply` compute the exponential (`Verif.Trans.expm`, the power series over the reals).
* `scipy.sparse.linalg.eigs` returns some eigenpair of modulus one; `linear_sum_assignment` returns an optimal assignment.
* Sets: an arbitrary order of iteration, given as an argument. Where the sparse and the dense clustering are compared,
  equal sets are listed in the same order.
* `pickle`/`gzip` files give back what was written if the write was finished; a write that is interrupted
  leaves a file that cannot be read. Writes of other files are not affected.
* Pools of processes return the results in the order of the tasks; tasks share no state.
* The random generators may give any values in their documented range.
* Slices have positive spans where the span of an interval is the sum of its inter-event times.


## Trusted base

* Lean 4.33.0's kernel, and Mathlib's definitions that occur in the statements (`Finset.sum`, `Real.log`, `Real.exp`, `Matrix` where used).
* The faithfulness of the hand-written model to the source, cited line by line, and the assumptions above.
* No `sorry`, no axioms of our own, no `native_decide` or `bv_decide`. Witnesses over the rationals use `decide +kernel`.

Axioms, from `#print axioms` on every theorem of the manifest:

* propext, Classical.choice, Quot.sound: all the theorems of `MANIFEST.json` not listed below
* propext: `Calls.C138_calls_violated`, `Calls.C138_nothing_violated`, `CovMain.C136_nodes`, `Extras.C155_message_violated`, `Extras.C155_position_violated`, `Extras.C156_optimised_violated`, `Info.C45_no_value`, `Laps.C80_never_overwritten`, `Laps.C80_torn_violated`, `Logs.C116_unknown_name`, `Logs.C116_written_twice`, `Scripts.C50_grid_too_fine_violated`
* propext, Quot.sound: `Calls.C138_without_verbose`, `CommandLine.C158_abbreviations`, `CommandLine.C158_dash`, `CommandLine.C158_equals`, `CommandLine.C158_given`, `CommandLine.C158_order`, `CovMain.C137_flags_violated`, `Extras.C155_timed_partial`, `Extras.C157_empty_violated`, `Extras.C157_sum_partial`, `FloatFlow.C109_tiny_violated`, `FloatTrans.C106_final`, `Flow.C47_window_lengths`, `FlowRuns.C85_inputs`, `FlowStability.C09_flag_matches_network_partial`, `FlowStability.C09_rejected_value_counts_as_set`, `FlowStability.C117_network`, `FlowStability.C117_results_partial`, `FlowStability.C117_time_scale_frame`, `FlowStability.C117_window`, `FlowStability.C117_wrong_direction_violated`, `Glob.C144_brackets`, `Glob.C144_brackets_violated`, `Glob.C144_found_partial`, `Glob.C144_star_violated`, `LapMain.C145_batches`, `Laps.C80_alike_violated`, `Laps.C80_more_asked_violated`, `Laps.C80_resumed_partial`, `Laps.C80_same_files`, `Logs.C116_paths`, `Logs.C116_set_log_level`, `Logs.C116_setup_violated`, `Logs.C116_shown_iff`, `Rename.C122_laplacians`, `SaveLoad.C76_merged_constructed`, `Scripts.C49_batches`, `Scripts.C49_work`, `Scripts.Cluster.C68_number_of_pairs`, `SparseStoch.C17_index_outside`, `StateTracking.C03_assign_lowers`, `StateTracking.C03_assignments_never_advance`, `StateTracking.C03_rejected_changes_nothing`, `StateTracking.C04_flags_mirror_history`, `SynthRuns.C97_made`, `SynthRuns.C97_made_violated`, `TempNet.C36_symmetric`, `TempNet.C56_path_partial`, `TempNet.C56_path_violated`, `Trans.C39_round_trip_partial`, `Trans.C40_negative_rejected`, `Trans.C61_empty_window_violated`, `Units.C120_no_rate`
* no axiom: `Calls.C138_worker_calls`, `CommandLine.C159_both_violated`, `CommandLine.C159_mats_partial`, `Scripts.C50_grid_end_violated`

## What is modelled and what is not

Not modelled: logging, progress printing, the durations measured (`_compute_times` is opaque), dtype conversions other than those of C88 (widths of stored indices), and the MKL library beyond
the flag of C103. Thread interleavings inside compiled code are modelled for the parallel variation of information (C62, C95).
Cython bounds checks are switched off in the source: single accesses to memory are modelled for the sparse (C93, C96) and
dense (C94) compiled routines; elsewhere the model gives out-of-range reads an error value or shows that they do not occur.


Functions of the source with a model, found from the citations in the model, and functions without one:

| file | modelled | not modelled |
|------|----------|--------------|
| __init__.py | set\_log\_level | - |
| _cython_fast_funcs.pyx | sum\_Sto, sum\_Sout, compute\_S, compute\_S\_0t0, cython\_nmi, cython\_nvi, cython\_nvi\_parallel, cython\_nvi\_vectors, cython\_nvi\_mat, cython\_nvi\_mat\_test, indices\_intersection\_length, sorted\_vectors\_intersection\_length, cset\_intersection\_length | - |
| _cython_sparse_stoch.pyx | csr\_csc\_matmul\_countnnz, stoch\_mat\_add, stoch\_mat\_sub, rebuild\_nnz\_rowcol, inplace\_csr\_row\_normalize, inplace\_csr\_row\_normalize\_array, cython\_inplace\_csr\_row\_normalize\_triu, sparse\_stoch\_from\_full\_csr, get\_submat\_sum, aggregate\_csr\_mat, aggregate\_csr\_mat\_2, compute\_delta\_PT\_moveto, compute\_delta\_S\_moveto, compute\_delta\_PT\_moveout, compute\_delta\_S\_moveout | - |
| _cython_sparse_stoch_subst.py | sparse\_stoch\_from\_full\_csr, inplace\_csr\_row\_normalize | - |
| _cython_subst.py | sparse\_stoch\_from\_full\_csr, inplace\_csr\_row\_normalize, SPA.\_\_init\_\_, SPA.scatter, SPA.reset, stoch\_mat\_add, stoch\_mat\_sub, rebuild\_nnz\_rowcol, get\_submat\_sum, aggregate\_csr\_mat, aggregate\_csr\_mat\_2, compute\_delta\_PT\_moveto, compute\_delta\_S\_moveto, compute\_delta\_PT\_moveout, cython\_compute\_delta\_S\_moveout, inplace\_csr\_row\_normalize\_array | - |
| flow_stability.py | FlowStability.\_\_init\_\_, FlowStability.\_\_repr\_\_, FlowStability.help, FlowStability.temporal\_network, FlowStability.set\_temporal\_network, FlowStability.time\_scale, FlowStability.set\_time\_scale, FlowStability.lamda, FlowStability.t\_start, FlowStability.t\_stop, FlowStability.time\_direction, FlowStability.compute\_laplacian\_matrices, FlowStability.compute\_inter\_transition\_matrices, FlowStability.flow\_clustering\_forward, FlowStability.flow\_clustering\_backward, FlowStability.set\_flow\_clustering, FlowStability.find\_louvain\_clustering | - |
| helpers.py | include\_doc\_from, inverted\_iterator | - |
| logger.py | CustomPathnameFilter.filter, setup\_logger, get\_logger | - |
| network_clustering.py | Partition.\_\_init\_\_, Partition.\_\_repr\_\_, Partition.move\_node, Partition.remove\_empty\_clusters, Partition.get\_num\_clusters, Partition.get\_indicator, Partition.iter\_cluster\_node\_index, Partition.\_\_str\_\_, Partition.check\_integrity, BaseClustering.\_\_init\_\_, BaseClustering.\_compute\_S, BaseClustering.\_compute\_clustered\_autocov, BaseClustering.\_find\_optimal\_flow, BaseClustering.compute\_stability, BaseClustering.\_compute\_new\_R\_moveto, BaseClustering.\_compute\_new\_R\_moveout, BaseClustering.\_potential\_new\_clusters, BaseClustering.\_compute\_subsets\_connectedness, BaseClustering.\_louvain\_move\_nodes, BaseClustering.\_aggregate\_clusters, BaseClustering.\_get\_updated\_partition, BaseClustering.find\_louvain\_clustering, BaseClustering.\_save\_progress, BaseClustering.\_get\_node\_cluster, BaseClustering.\_move\_node\_to\_cluster, BaseClustering.\_get\_cluster\_list, BaseClustering.\_get\_num\_clusters, BaseClustering.\_remove\_empty\_clusters, BaseClustering.\_update\_original\_partition, BaseClustering.\_update\_to\_fullpart, BaseClustering.\_check\_if\_S\_is\_zero, Clustering.\_\_init\_\_, Clustering.compute\_stability, Clustering.\_compute\_clustered\_autocov, Clustering.\_compute\_delta\_stab\_moveto, Clustering.\_compute\_delta\_stab\_moveout, Clustering.\_louvain\_move\_nodes, Clustering.\_potential\_new\_clusters, Clustering.\_compute\_new\_R\_moveto, Clustering.\_compute\_new\_R\_moveout, Clustering.\_aggregate\_clusters, Clustering.\_save\_progress, Clustering.\_get\_node\_cluster, Clustering.\_move\_node\_to\_cluster, Clustering.\_get\_cluster\_list, Clustering.\_get\_num\_clusters, Clustering.\_remove\_empty\_clusters, Clustering.\_update\_original\_partition, Clustering.\_update\_to\_fullpart, Clustering.find\_louvain\_clustering, SparseClustering.\_\_init\_\_, SparseClustering.\_compute\_S, SparseClustering.compute\_stability, SparseClustering.\_compute\_clustered\_autocov, SparseClustering.\_compute\_delta\_stab\_moveto, SparseClustering.\_compute\_delta\_stab\_moveout, SparseClustering.\_aggregate\_clusters, SparseClustering.\_check\_if\_S\_is\_zero, FlowIntegralClustering.\_\_init\_\_, FlowIntegralClustering.\_compute\_T\_list, FlowIntegralClustering.\_compute\_integral, FlowIntegralClustering.find\_louvain\_clustering, jaccard\_distance, norm\_mutual\_information, norm\_var\_information, avg\_norm\_var\_information, static\_clustering, n\_random\_seeds, run\_multi\_louvain, sort\_clusters | - |
| parallel_clustering.py | compute\_parallel\_clustering, n\_random\_seeds, \_init\_sub\_worker, \_init\_sub\_worker\_sparse, \_compute\_sym\_clustering\_fct, \_compute\_sym\_sparse\_clustering\_fct, compute\_parallel\_nvi, \_compute\_nvi\_sample | - |
| parallel_expm.py | \_init\_worker, \_worker, compute\_parallel\_expm, \_stack\_sparse\_cols, \_expm\_worker, compute\_subspace\_expm\_parallel | - |
| run_clusterings.py | load\_autocov\_int, \_init\_sub\_worker, \_init\_sub\_worker\_list, \_compute\_clustering\_fct, \_compute\_sym\_list\_clustering\_fct, compute\_static\_clustering\_fct, n\_random\_seeds, compute\_nvi\_sample, worker, main | - |
| run_cov_integrals.py | load\_trans\_mat, worker, main | - |
| run_laplacians_transmats.py | worker, main | - |
| sparse_stoch_mat.py | timing, SparseStochMat.\_\_init\_\_, SparseStochMat.from\_small\_csr\_matrix, SparseStochMat.from\_full\_csr\_matrix, SparseStochMat.create\_diag, SparseStochMat.inplace\_row\_normalize, SparseStochMat.set\_to\_zeroes, SparseStochMat.to\_full\_mat, SparseStochMat.tocsr, SparseStochMat.toarray, SparseStochMat.copy, SparseStochMat.to\_dict, SparseStochMat.sub\_diag, SparseStochMat.add\_diag, SparseStochMat.transpose, SparseStochMat.T, SparseStochMat.check\_nz\_intersect\_len, SparseStochMat.\_\_repr\_\_, SparseStochMat.\_\_add\_\_, SparseStochMat.\_\_radd\_\_, SparseStochMat.\_\_sub\_\_, SparseStochMat.\_\_rsub\_\_, SparseStochMat.\_\_matmul\_\_, SparseStochMat.\_\_rmatmul\_\_, SparseStochMat.\_\_mul\_\_, SparseStochMat.\_\_rmul\_\_, inplace\_csr\_row\_normalize, rebuild\_nnz\_rowcol, inplace\_csr\_matmul\_diag, inplace\_diag\_matmul\_csr, SparseAutocovMat.\_\_init\_\_, SparseAutocovMat.\_\_repr\_\_, SparseAutocovMat.from\_T, SparseAutocovMat.from\_T\_forward, SparseAutocovMat.copy, SparseAutocovMat.toarray, SparseAutocovMat.get\_submat\_sum, SparseAutocovMat.get\_element, SparseAutocovMat.get\_row\_idx\_sum, SparseAutocovMat.get\_col\_idx\_sum, SparseAutocovMat.aggregate, SparseAutocovMat.is\_all\_zeros, SparseAutocovMat.\_compute\_delta\_S\_moveto, SparseAutocovMat.\_compute\_delta\_S\_moveout, sparse\_outer, sparse\_matmul, sparse\_gram\_matrix | - |
| state_tracking.py | OrderedEnum.\_\_lt\_\_, OrderedEnum.\_\_eq\_\_, OrderedEnum.\_\_hash\_\_, OrderedEnum.\_\_str\_\_, State.\_\_init\_\_, State.missing\_parameters, State.next, StateMeta.\_\_new\_\_, StateMeta.init\_state, StateMeta.attach\_state, StateMeta.register | - |
| synth_temp_network.py | Distro.\_\_init\_\_, Distro.draw\_val, Individual.\_\_init\_\_, Individual.draw\_inter\_duration, Individual.draw\_activ\_time, SynthTempNetwork.\_\_init\_\_, SynthTempNetwork.Event, SynthTempNetwork.put\_event, SynthTempNetwork.get\_new\_partner, SynthTempNetwork.initialize\_events, SynthTempNetwork.run, make\_step\_block\_probs | - |
| temporal_network.py | \_\_init\_\_, \_\_repr\_\_, save, load, save\_inter\_T, save\_inter\_T\_lin, load\_inter\_T, save\_T, save\_T\_lin, load\_T, compute\_static\_adjacency\_matrix, \_compute\_time\_grid, \_get\_closest\_time, compute\_laplacian\_matrices, compute\_inter\_transition\_matrices, compute\_lin\_inter\_transition\_matrices, compute\_transition\_matrices, compute\_lin\_transition\_matrices, \_compute\_stationary\_transition, \_merge\_overlapping\_events, \_compute\_delta\_trans\_mat, ContTempInstNetwork.\_\_init\_\_, ContTempInstNetwork.compute\_laplacian\_matrices, ContTempInstNetwork.compute\_inter\_transition\_matrices, ContTempInstNetwork.compute\_lin\_inter\_transition\_matrices, lin\_approx\_trans\_matrix, compute\_stationary\_transition, compute\_subspace\_expm, csc\_row\_normalize, find\_spectral\_gap, remove\_nnz\_rowcol, numpy\_rebuild\_nnz\_rowcol, sparse\_lapl\_expm, sparse\_lin\_approx, sparse\_stationary\_trans, set\_to\_ones, set\_to\_zeroes | - |

## Where the code does not have the property

The code at the pinned commit violates these properties, or a part of them. The model follows the
code; the theorems with the suffix `_violated`, `_fails` or `_worse` prove the failure.

* **C07**: The code violates the property for time_direction 1 and -1: C07_single_direction_refused proves the refusal for every history. What holds (direction 0) is C07_both_directions_partial.
* **C08**: The code violates the property: C08_assigned_network_refused. What holds is C08_set_temporal_network_partial.
* **C09**: The code violates the property for values of other types: C09_rejected_value_counts_as_set.
* **C10**: Validation and rejection are proved in full; read-back is violated for one-shot iterators (C10_iterator_reads_empty) and proved for everything else (C10_read_back_partial).
* **C11**: The meaning of expansion is proved in full. The round trip holds for every nonzero diag_val and every matrix without stored zeros or repeats (C11_round_trip_partial); it is violated for diag_val = 0 with a zero row and column (C11_zero_diag_fails) and for stored zeros (C11_stored_zero_fails).
* **C16**: Proved for CSR matrices and for the method of the class; violated by temporal_network.set_to_zeroes on a compressed matrix, which ignores use_absolute_value.
* **C17**: Violated for lists that are not increasing (C17_order_matters); C17_effect says exactly what is represented for every order.
* **C18**: Exact for index lists without repetition; violated when a column index is repeated (C18_repeated_columns).
* **C19**: Exact whenever the row of the node stores an entry, as it does for every stochastic matrix; violated for empty rows (C19_empty_row_violated, C19_trailing_empty_rows_fail).
* **C20**: Exact for nonnegative PT and normalised weights; violated for a negative block sum and for weights that do not sum to one.
* **C22**: One transition and the integral over time, in exact arithmetic; violated when small values of sparse matrices are dropped.
* **C24**: Violated for nodes outside 0..N-1 (C24_out_of_range_accepted); exact for nodes in range.
* **C25**: Violated for every consistent partition and every index past the end; atomic only for unknown nodes.
* **C29**: Proved from the default partition; violated for a supplied partition, a second call and negligible covariances (three witnesses).
* **C33**: Exact for sorted tables whose same-pair contacts last and do not overlap or touch; violated for overlapping contacts and for tables that are not sorted by time.
* **C35**: Termination, no overlaps left and nothing invented hold for all tables of lasting events. Activity is preserved when contacts of a pair start at different times, do not contain each other and overlap transitively; violated for contained contacts, equal starts and chains.
* **C37**: Holds for histories that compute the Laplacians first and always use the same options for a rate; violated when the window, fix_tau_k or the time direction changes.
* **C39**: Exact without rounding; violated with rounding, and saving all rates at once fails.
* **C42**: Metric on clusterings without empty clusters, in every accepted form of input; violated for dictionaries that skip a label and for lists with an empty cluster.
* **C45**: The property is false of the code: the negation is proved. The counts of which the distance is made are computed correctly; they are not returned.
* **C47**: Holds for one more time than matrices and grids that start at the first time, without two times in one interval; violated otherwise, in particular for transition matrices of a time window.
* **C48**: Proved for one run of a population with IDs from 0 to N-1; violated by a second run of the same object and by negative IDs, which are accepted.
* **C49**: Proved for positive slice lengths; for a length of zero or less the loop never ends, as proved.
* **C50**: Proved for one kind of transition matrix and runs killed between writes; violated when both kinds are computed (the default), and for runs killed during a write.
* **C51**: Holds without intermediate files; violated by every run killed after or while it saved intermediate clusterings, as proved for all later histories.
* **C54**: Violated for zero rows (C54_zero_row_fails); returns when every row sum is positive (C29_returns_partial).
* **C55**: Zero matrices are always recognised. The converse holds up to the accumulated tolerance for covariances of stochastic matrices; violated for matrices with unstored entries.
* **C56**: Violated for paths and for tables whose node labels are not 0..n-1; holds for tables labelled 0..n-1.
* **C58**: Holds without tolerance; violated with one, C58_with_tolerance says exactly what is left.
* **C61**: Holds on a new network; violated after a change of window and for empty windows with the sparse option.
* **C62**: Holds for the vector and matrix versions; violated by the parallel version.
* **C66**: Violated for rows of zeros. That a draw from a nonempty set of partners succeeds after finitely many attempts is assumed.
* **C69**: Proved for positive stored entries and no empty row; a row without stored entries is accepted by the constructor and breaks the property, as proved.
* **C70**: Partition, respect of components and ranking proved without restriction on the data; the reported stability is violated, with the exact kind of error proved. C70_no_worse_partial and C70_largest_partial need that the pieces do not pass the all-zeros test.
* **C72**: Proved without tolerance; with a tolerance, or with initial probabilities, every file of run_cov_integrals is rejected, as proved. C72_init_partial is about files with initial probabilities that other programs may write.
* **C73**: Undirected networks without restriction; directed networks need a solver that returns the eigenvalue one, and fail for every other eigenvalue, as proved.
* **C74**: Proved for matrices without zero rows; a partition held by the given object is lost, as proved.
* **C76**: Proved for continuous-time networks, with the exact differences for merged ones and the exact result for all lists of names; violated for instantaneous networks and for file names with a dot.
* **C77**: Proved for matrices in which no row of the triangle sums to zero when its turn comes; C77_row says exactly what the other rows get. Violated by the two by two matrix of ones.
* **C78**: Proved for dense objects and for sparse objects whose joint probabilities are symmetric. Violated for sparse objects built from other transition matrices (treated as symmetric by the processes) and for sparse objects built from a covariance alone (its probabilities are replaced).
* **C79**: Proved for tables of one kind and names that the loader accepts (the exact condition is Fits), and for lists of compressed matrices; the failures outside are proved one by one.
* **C80**: Proved for all histories of stopped runs with the same options; content exact when matrices are not rounded in place, otherwise up to the rounding, as the violation shows. Files cut off, changed options and waiting times written alike are proved failures.
* **C81**: Proved for all non-overlapping contacts, all positive time scales, both directions, no window; joins the models behind C06-C10, C33, C34, C47, C59 and C29. With a window the last step raises, a window set later is ignored, a time scale None or the linear approximation makes set_flow_clustering raise.
* **C82**: proved for every session that keeps window, fix_tau_k and, per rate and t_s, direction and save_intermediate; the code violates the rest: default rate, changed direction, retry after an exception
* **C83**: proved for every session that keeps its options; a changed window, direction or save_intermediate is ignored by the caches (C37, C82)
* **C84**: Proved for every run from the default partition with a covariance that is not negligible, at every stop point; the attribute partition lags behind compute_stability after a stop or an exception, supplied partitions can lose stability, and a negligible covariance ends the recorded progress too early. Dense class.
* **C85**: Proved for every session, also with stopped and failing calls; an interval whose run was stopped never gets a partition, a second call for an interval is ignored, and an index counted from the end combines the covariance of one interval with the transition matrix of another. Dense matrices.
* **C86**: Partitions made by default, from a dictionary or by find_louvain_clustering are independent of everything else in the program; partitions made from a list of clusters are so exactly when the list is used once and not changed afterwards: two partitions of one list share its sets, and a move in one breaks the other and changes the list of the caller (proved for every list).
* **C87**: For every class built on BaseClustering: the node-moving phase ends, keeps both partitions valid, is greedy and reports its gain exactly. Violated: the aggregated clustering cannot be constructed when the numbers of source and target clusters differ (exact condition proved).
* **C88**: With the Python helper routines matrices stay usable after row normalisation and the cumulative matrices are the products. With the compiled routines a normalised matrix has 64-bit indices that addition, subtraction and product refuse; compute_transition_matrices on compressed matrices raises for three or more inter-event matrices (two with a tolerance), and a second call returns without completing. Exact conditions proved.
* **C89**: With the compiled routines the model is that of C69. With the Python replacements compute_stability raises AttributeError for every partition of at least one node; the search raises AttributeError for every covariance with vectors and at least one pass, and, for numbers and the default start, exactly when two different nodes share a stored value; in all other cases of the default start both versions agree.
* **C90**: Dense meaning proved for every row and matrix. Violated: sparse_outer raises exactly for rows without values and, without triu, for rows with one value; csc_row_normalize changes a CSR matrix of the caller; compute_S_0t0 raises exactly where a final probability is zero.
* **C92**: For connected graphs with equal degrees the result is the gap if it is below one and minus one if it is above one (every complete graph); for graphs with different degrees the matrix handed to the symmetric eigenvalue routine is not symmetric, so nothing is promised. The eigenvalue routine is represented by what it promises for symmetric matrices.
* **C93**: Every array access of the compiled routines is modelled. Restoring, adding, subtracting, aggregating and normalising stay inside their arrays and give the dense result for all well-formed matrices. Exact conditions for the other three: a block sum reads outside for a row that does not exist, a gain reads outside when the row of the node and all later rows store nothing, and the extraction of the kept block writes outside when the rows left out store fewer entries than there are such rows (always for diagonal value 0 with a zero row and column and at least as many entries as rows).
* **C94**: Every array access of the dense compiled routines is modelled next to the numpy versions. Inside the arrays and equal for distributions of the right length and existing nodes; exact conditions for stray accesses. Violated: lengths of p1 and p2 are not compared with T when p2 is given, and clusters may list nodes that do not exist.
* **C95**: Loads and stores of the threads in any order: the element ends as the start minus a nonempty part of the terms; the whole sum if updates are not interrupted or there is one thread; lost updates occur for a suitable order whenever two threads have work, and the measure is then wrong.
* **C96**: Arrays of the blocks, of the stacked columns and of the rebuilt matrix. The serial version returns the exponential for both formats; the parallel one returns the same arrays for CSC. Violated for CSR arguments with blocks below 1000 nodes: the exponential of the transposed matrix is returned, and after normalisation one-way transitions vanish.
* **C97**: Own parameters and groups for lists in the order of the IDs. For all lists: parameters of the individual at the position given by the ID. Violated for lists in another order, up to contacts that all join different groups, and for the class lists after a refused individual.
* **C98**: Same run, times and contents of the saved matrices for all runs; exact contents if nothing is due at the time just treated. Violated: events at the same time; distances between saved states can be arbitrarily small for every dt.
* **C99**: Recorded contacts are kept; after a run that ends with nobody in contact the second run is a new simulation with the rest of the tape. Violated for all runs: pairs in contact at the end of the first run begin no contact in the second.
* **C101**: Error bounds for every arithmetic with bounded relative error (instantiated for 53-bit binary arithmetic with rounding to nearest even). Violated in double precision with the compiled sums and with numpy. Gradual underflow is not modelled.
* **C102**: Strict progress if the threshold is at least the rounding error of a sweep. Violated in double precision with the default threshold, for every limit of sweeps.
* **C104**: Holds if rtol is below the smallest starting probability. Violated for all flows in which the last node starts with probability zero: the search never returns a partition.
* **C105**: Bound on the stability of every partition of a covariance that passes for zero. Violated for all networks of two separate halves of at least 5000 nodes each.
* **C109**: The error bounds hold for probabilities and lengths that are zero or between 2^(-100) and 2^100 (C109_double), in general under a condition on the exponent range (C109_error_partial). Covariances are NaN as soon as the reciprocal of a computed probability overflows, for all inputs (C109_tiny_violated), and the clustering of NaN leaves every node alone without an error (C109_silent_violated). They are not symmetric (C109_symmetric_violated).
* **C110**: Equality of sparse and dense clustering if every node has an edge (C110_same_partial). For all networks whose last node has none, all times and options, the search reads outside the arrays once the first pass has merged enough (C110_last_isolated_violated).
* **C111**: The means are right without options for components, for the temporal network with only_largest_comp, and for the static network unless only_largest_comp is given. C111_separate_partial gives the factor with separate_comps. The violations hold for all inputs that meet the stated conditions on the sizes.
* **C112**: Same temporal result if the static clusterings succeed; C112_saved_iff says exactly when a result is saved; for intervals without contacts it never is (C112_lost_violated).
* **C113**: A valid partition or a read outside the arrays in any arithmetic (C113_any_arithmetic_partial); no such read for positive stored numbers in every row (C113_safe_partial). Exact conditions for the read in a phase (C113_phase_iff) and for its cause after an aggregation (C113_dropped_row_iff); it happens for all inputs with an empty last row (C113_empty_last_violated) and for a stored zero (C113_zero_weight_violated). C113_exact ties the model to that of C69.
* **C114**: Error of one gain (C114_gain_error_partial) and of the whole call (C114_loss_bounded_partial); doubleS_rounds shows that double precision meets the assumptions, and C114_double_violated gives an input that meets all of them and ends worse than it starts.
* **C115**: The exact effect of the routine, the exact conditions for a row to reach its target and for agreement with the routine in use, and failure for every row of sum 1 with two or more stored entries.
* **C116**: Proved for set_log_level without root handlers, unknown names and paths. Violated for setup_logger after the import and with a configured root logger, in each case for all histories; C116_shown_iff gives the exact condition.
* **C117**: For every reachable or unreachable object and every value. Violated for a clustering of the wrong direction, where the documentation promises None and a warning.
* **C118**: C118_as_given for all valid arguments; for dictionaries with negative values the exact condition for IndexError and the exact grouping otherwise (C118_negative_violated).
* **C119**: The start is covered. The end is covered exactly if it is an event time or not after the first (C119_reaches_stop_iff); for all others the window stops short (C119_stop_violated).
* **C121**: Proved for continuous networks, all call histories that use the interval lengths, and the flow integral. Violated with fix_tau_k and for instantaneous networks, in both cases for all inputs and all changes of the unit. Numbers are exact.
* **C124**: Dense and sparse class share one model of the inherited search. Violated by run_multi_louvain with rnd_seed among the keyword arguments, proved for all inputs and with a case in which the reported seeds find other clusters. C124_parallel is for the dense class. Seeds are integers; arrays of integers are not modelled.
* **C128**: Violated for every contact that is cut in two (C128_cut_violated). C128_cut_partial: monotone in the cuts and bounded. Transition matrices do not change, see C59.
* **C132**: The code violates the property: if partitions tie, the last sweep can leave two communities whose join raises the stability (C132_ties_violated). Proved for inputs on which no two partitions tie up to the threshold: dense search, sparse search, complete analyses.
* **C133**: The code violates the property: a member can be better off alone, and a community can consist of nodes without a link between them. Proved: members are linked if links are transitive.
* **C136**: The code violates the property: parts of the network name that begin with w are read as time scales, and time scales are read from names with four significant digits. Proved for names without such parts: exactly the intervals, and of each time scale the number in its names (the scale itself if four digits are enough).
* **C137**: The code violates the property for --only_from_start together with --only_from_finish, and for an --int_list that is not increasing. Proved for all other options, increasing grids and all interleavings. As in C50, runs that were stopped before are continued with one kind of matrices; with both kinds the directory is empty at first.
* **C138**: Partial because the code violates the property: run_laplacians_transmats passes an argument that the methods do not have, so it writes no matrix files at all; proved for all options, waiting times and disks. That the interpreter accepts exactly the calls that fit is proved for all signatures and calls; the calls and signatures are read off the source.
* **C139**: Partial because the code violates the property in the five ways that the statement lists, each proved for all inputs. C139_selected_partial is for network names without the three texts that the script looks for and directories with files of run_cov_integrals.
* **C140**: Partial because the code violates the property: the first tool writes no matrices (C138), so nothing is integrated; proved for all options and any number of runs. With the calls repaired, waiting times read back exactly (C136), nothing trimmed and matrices from the exponential, the property is proved in full.
* **C144**: Partial because the code violates the property: names are used as patterns. Proved for names of directories and networks without *, ? and [. The two theorems of LapMain show what follows for run_laplacians_transmats, for all options and contents. As it is, the script writes no matrices at all (C138); the worker is that of C80, with its calls accepted.
* **C146**: Partial because the code violates the property if intermediate clusterings are saved: an integral whose session was stopped between the two files never gets a result (C51). Proved for sessions that do not save them. What a process draws at random is an argument of its own.
* **C153**: The code violates the property: on a ring of four nodes two of the four links are in communities (C153_ring_violated). It holds for every division that no other division equals in stability (C153_unique_partial).
* **C155**: The code violates the property: a message that is not a text raises after the computation, and verbose given by position is ignored. It holds if verbose is given by name and the message is a text.
* **C156**: The code violates the property: without documentation (python -OO) the decorator raises, and with it the import. It holds for methods with documentation.
* **C157**: The code violates the property: an empty first list raises if the second has at least two nodes. It holds in all other cases; negative numbers count from the end.
* **C159**: The code violates the property: --only_from_start and --only_from_finish override the direction, a misspelt direction is not refused, and two options together exclude all matrices. It holds otherwise.

## Tests of the theorems

`seeded/LOG.jsonl` lists edits of the model, one realistic bug per line: the definition, the edit, the claim that
it breaks, the theorems that failed to compile, and those that were tightened afterwards. Edits that broke no
theorem are either equivalent programs, as the note says, or led to a stronger theorem.

How far to trust the log. An edit is tested on one file made of the edited module and all modules that depend on
it. Until the tests of C158 no run without an edit was made first, and in this set-up some proofs fail without any
edit (a tactic finds no goal left), so that a theorem could be listed as failed for the wrong reason. This was
found late. The log was then checked: such a theorem is listed in all lines with the same targets and module, so
runs without edit were made for all such groups in which a line had no other theorem.
- Bipart/Moves, Scripts/LoadModel and CommandLine/Model were affected. All their edits, and those of Seeds/Model,
  were run again after the proofs had been changed, and the lines of the log corrected.
- Five edits of Scripts/LoadModel that were logged as caught had broken no theorem. C72_rows, C72_filled,
  C72_not_filled and C72_tolerance were added for them; the lines have a note.
- For 13 groups the run without edit is missing. Each of their lines names a theorem that is not common to the
  group, so the edit was caught, but the lists may name a theorem too many.
- The check uses the modules as they are now, not as they were when a line was written.
- A theorem that fails shows that its proof does not fit the edited program. For edits marked as equivalent, and
  possibly others, this is the proof script and not the claim.

