import Verif.Partition.Lemmas
import Mathlib.Data.Finset.Sort

/-!
# C23, C24, C25, C52: partitions
-/

namespace Verif.Partition

/-- **C23.** Starting from a constructor call with an argument that describes a
partition of `0..n-1`, the constructor succeeds, and after any sequence of moves to
existing clusters and removals of empty clusters the cluster list and the dictionary
describe the same partition of `0..n-1`. -/
theorem C23_partition_consistent (n : Nat) (arg : Arg) (check : Bool) (hv : ValidArg n arg) :
    ∃ p, mk' n arg check = .ok p ∧
      ∀ ops, TargetsExist p ops → Consistent (run p ops) ∧ (run p ops).numNodes = n := by
  obtain ⟨p, hp, hc, hn⟩ := mk'_ok n arg check hv
  refine ⟨p, hp, fun ops ht => ?_⟩
  have := run_consistent p ops hc ht
  exact ⟨this.1, this.2.trans hn⟩

/-- **C23.** A move of a node to an existing cluster does what it says: afterwards the
node is in the target cluster and every other node is where it was. -/
theorem C23_move_effect (p : Part) (h : Consistent p) (v cf : Nat) (hv : v < p.numNodes)
    (hcf : cf < p.clusters.length) :
    (moveNode p v cf).1 = none ∧
      ∀ u i, At (moveNode p v cf).2.clusters i u ↔ if u = v then i = cf else At p.clusters i u := by
  obtain ⟨ci, hd, hat⟩ := h.dict_some hv
  have hdisj := h.1.disj
  by_cases hne : ci = cf
  · subst hne
    have : moveNode p v ci = (none, p) := by unfold moveNode; rw [hd]; simp
    rw [this]
    refine ⟨rfl, fun u i => ?_⟩
    split
    · rename_i hu
      subst hu
      exact ⟨fun h => hdisj u i ci h hat, fun h => h ▸ hat⟩
    · rfl
  · rw [moveNode_ok h hd hcf hne]
    refine ⟨rfl, fun u i => ?_⟩
    rw [at_move _ _ _ _ hne hcf]
    by_cases hu : u = v
    · subst hu
      simp only [if_true, ne_eq, not_true_eq_false, false_and, true_or]
      split
      · rename_i h1; simp [h1]
      · rename_i h1
        split
        · simp [h1]
        · rename_i h2
          exact ⟨fun h => absurd (hdisj u i ci h hat) h2, fun h => absurd h h1⟩
    · simp only [hu, if_false, false_or, ne_eq, not_false_eq_true, true_and, ite_self]

/-- **C23.** Removing empty clusters keeps who is with whom and leaves no empty
cluster. -/
theorem C23_removeEmpty_effect (p : Part) :
    (∀ u v, Together (removeEmpty p).clusters u v ↔ Together p.clusters u v) ∧
      ∀ c ∈ (removeEmpty p).clusters, c.Nonempty :=
  removeEmpty_effect p

/-- Non-vacuity for C23: a dictionary argument, two moves and a removal. -/
example : ∃ p, mk' 3 (.nodeDict [(0, 1), (1, 1), (2, 4)]) true = .ok p ∧
    TargetsExist p [.move 2 0, .removeEmpty, .move 1 0] := by
  refine ⟨_, rfl, ?_⟩
  refine ⟨by decide +kernel, ?_⟩
  refine ⟨by decide +kernel, trivial⟩

/-- **C24, violated.** `check_integrity` accepts clusters that are not a partition of the
node set: one cluster holding node 5 in a network of one node. -/
theorem C24_out_of_range_accepted :
    ∃ p : Part, mk' 1 (.clusterList [{5}]) true = .ok p ∧ checkIntegrity p = .ok () ∧
      ¬ IsPartition p.numNodes p.clusters := by
  refine ⟨_, rfl, rfl, fun h => ?_⟩
  exact (h 5).2 (by decide) 0 ⟨{5}, rfl, by simp⟩

/-- **C24, partial.** For clusters of nodes below `num_nodes`, `check_integrity` succeeds
exactly when the clusters are a partition of `0..num_nodes-1`.  Missing: clusters with
other nodes, see `C24_out_of_range_accepted`. -/
theorem C24_integrity_exact_partial (p : Part)
    (hr : ∀ c ∈ p.clusters, ∀ v ∈ c, v < p.numNodes) :
    checkIntegrity p = .ok () ↔ IsPartition p.numNodes p.clusters := by
  rw [checkIntegrity_iff, isPartition_iff_card]
  rintro v i ⟨c, hc, hv⟩
  exact hr c (List.mem_of_getElem? hc) v hv

/-- **C24.** In general it succeeds exactly when no node is in two clusters and the sizes
add up to `num_nodes`; a failure is a `ValueError`. -/
theorem C24_integrity_decides_counts (p : Part) :
    (checkIntegrity p = .ok () ↔
      (∀ v i j, At p.clusters i v → At p.clusters j v → i = j) ∧
        (p.clusters.map Finset.card).sum = p.numNodes) ∧
      (checkIntegrity p = .ok () ∨ checkIntegrity p = .error .valueError) := by
  refine ⟨checkIntegrity_iff p, ?_⟩
  unfold checkIntegrity
  dsimp only
  split
  · exact Or.inr rfl
  · split
    · exact Or.inr rfl
    · exact Or.inl rfl

example : ∃ p, mk' 3 (.clusterList [{0, 2}, {1}]) true = .ok p := ⟨_, rfl⟩
example : mk' 3 (.clusterList [{0, 2}, {1, 2}]) true = .error .valueError := rfl
example : mk' 3 (.clusterList [{0}, {1}]) true = .error .valueError := rfl

/-- **C25, violated.** Whatever the consistent partition and the node, a move to an index
past the end raises `IndexError` and leaves the partition broken: the node is in no
cluster and the dictionary names the missing one. -/
theorem C25_failed_move_loses_node (p : Part) (h : Consistent p) (v : Nat) (hv : v < p.numNodes)
    (cf : Int) (hcf : (p.clusters.length : Int) ≤ cf) :
    (moveNode p v cf).1 = some .indexError ∧ (moveNode p v cf).2.dict v = some cf ∧
      (∀ i, ¬ At (moveNode p v cf).2.clusters i v) ∧ ¬ Consistent (moveNode p v cf).2 := by
  obtain ⟨ci, hd, hat⟩ := h.dict_some hv
  have hlt := at_lt hat
  have hne : (ci : Int) ≠ cf := by omega
  have h1 : pyIndex p.clusters.length (ci : Int) = some ci := by
    rw [pyIndex_nonneg (by omega) (by omega)]; simp
  have h2 : pyIndex (p.clusters.modify ci (·.erase v)).length cf = none := by
    rw [List.length_modify]
    unfold pyIndex
    rw [if_pos (by omega), if_neg (by omega)]
  have heq : moveNode p v cf = (some .indexError,
      { p with dict := fun u => if u = v then some cf else p.dict u
               clusters := p.clusters.modify ci (·.erase v) }) := by
    unfold moveNode
    simp only [hd, ne_eq, hne, not_false_eq_true, if_true, h1, at_getD.2 hat, h2]
  have hno : ∀ i, ¬ At (p.clusters.modify ci (·.erase v)) i v := by
    intro i hi
    rw [at_modify] at hi
    split at hi
    · obtain ⟨c, _, hc⟩ := hi
      simp at hc
    · rename_i hi2
      exact hi2 (h.1.disj v i ci hi hat)
  rw [heq]
  refine ⟨rfl, by simp, hno, fun hc => ?_⟩
  obtain ⟨k, hk, _⟩ := (hc.1 v).1 hv
  exact hno k hk

/-- **C25, partial.** A move that raises because the node is unknown leaves a consistent
partition unchanged.  Missing: an unknown target, see `C25_failed_move_loses_node`. -/
theorem C25_unknown_node_atomic_partial (p : Part) (h : Consistent p) (v : Nat)
    (hv : p.numNodes ≤ v) (cf : Int) : moveNode p v cf = (some .keyError, p) := by
  have : p.dict v = none := by
    cases hd : p.dict v with
    | none => rfl
    | some i => have := (h.dict_lt hd).2.2; omega
  unfold moveNode
  rw [this]

/-- **C25, violated for negative indices too.** A move to a negative index (which
raises nothing when it counts to a cluster from the end) leaves the dictionary with an index that is not the position of the cluster. -/
theorem C25_negative_index_breaks (p : Part) (h : Consistent p) (v : Nat) (hv : v < p.numNodes)
    (cf : Int) (hneg : cf < 0) : ¬ Consistent (moveNode p v cf).2 := by
  intro hc
  obtain ⟨ci, hd, hat⟩ := h.dict_some hv
  have hlt := at_lt hat
  have hne : (ci : Int) ≠ cf := by omega
  have h1 : pyIndex p.clusters.length (ci : Int) = some ci := by
    rw [pyIndex_nonneg (by omega) (by omega)]; simp
  have hdict : (moveNode p v cf).2.dict v = some cf := by
    unfold moveNode
    simp only [hd, ne_eq, hne, not_false_eq_true, if_true, h1, at_getD.2 hat]
    split <;> simp
  have := hc.dict_lt hdict
  omega

/-- Non-vacuity for C25. -/
example : ∃ p, mk' 3 .none true = .ok p ∧ Consistent p ∧ p.numNodes = 3 ∧ p.clusters.length = 3 := by
  obtain ⟨p, hp, hc, hn⟩ := mk'_ok 3 .none true trivial
  have : p = removeEmpty ⟨3, singletons 3, dictOf (singletons 3)⟩ := by
    have h2 : mk' 3 .none true
        = .ok (removeEmpty ⟨3, singletons 3, dictOf (singletons 3)⟩) := rfl
    rw [h2] at hp
    injection hp with hp
    exact hp.symm
  exact ⟨p, hp, hc, hn, by rw [this]; rfl⟩

/-- **C52.** Both forms of the indicator matrix are the same 0/1 matrix: entry `(v, i)`
is one exactly when node `v` is in cluster `i`, whatever the order in which Python lists
its sets. -/
theorem C52_indicator (p : Part) (it : Finset Nat → List Nat)
    (hit : ∀ s, (it s).Nodup ∧ ∀ v, v ∈ it s ↔ v ∈ s) (v i : Nat) (hi : i < p.clusters.length) :
    (At p.clusters i v → indicatorSparse it p v i = 1 ∧ indicatorDense p v i = 1) ∧
      (¬ At p.clusters i v → indicatorSparse it p v i = 0 ∧ indicatorDense p v i = 0) := by
  have hmem : v ∈ p.clusters.getD i ∅ ↔ At p.clusters i v := at_getD
  unfold indicatorSparse indicatorDense
  simp only [indicator_slice it p.clusters i hi]
  refine ⟨fun h => ⟨?_, if_pos (hmem.2 h)⟩, fun h => ⟨?_, if_neg (fun h' => h (hmem.1 h'))⟩⟩
  · exact List.count_eq_one_of_mem (hit _).1 (((hit _).2 v).2 (hmem.2 h))
  · exact List.count_eq_zero_of_not_mem fun hc => h (hmem.1 (((hit _).2 v).1 hc))

/-- Non-vacuity for C52: a listing order exists and the matrix is not constant. -/
example : (∀ s : Finset Nat, (s.sort (· ≤ ·)).Nodup ∧ ∀ v, v ∈ s.sort (· ≤ ·) ↔ v ∈ s) ∧
    At [{0, 2}, {1}] 0 2 ∧ ¬ At [{0, 2}, {1}] 1 2 :=
  ⟨fun s => ⟨s.sort_nodup _, fun v => s.mem_sort _⟩, ⟨{0, 2}, rfl, by simp⟩,
    fun ⟨c, hc, hv⟩ => by simp at hc; subst hc; simp at hv⟩

/-- **C52.** Every row of the indicator of a consistent partition has exactly one one:
the sparse index array holds each node exactly once and has the allocated length. -/
theorem C52_indicator_rows (p : Part) (h : Consistent p) (it : Finset Nat → List Nat)
    (hit : ∀ s, (it s).Nodup ∧ ∀ v, v ∈ it s ↔ v ∈ s) :
    (indicatorIndices it p.clusters).length = p.numNodes ∧
      ∀ v < p.numNodes, ∃! i, i < p.clusters.length ∧ indicatorSparse it p v i = 1 := by
  constructor
  · have hlen : ∀ s, (it s).length = s.card := by
      intro s
      have : (it s).toFinset = s := by ext v; rw [List.mem_toFinset]; exact (hit s).2 v
      rw [← List.toFinset_card_of_nodup (hit s).1, this]
    have h1 : (indicatorIndices it p.clusters).length = (p.clusters.map Finset.card).sum := by
      unfold indicatorIndices
      rw [List.length_flatMap]
      congr 1
      apply List.map_congr_left
      intro s _
      exact hlen s
    rw [h1]
    exact ((isPartition_iff_card (fun v i hi => by
      by_contra hv
      exact (h.1 v).2 (by omega) i hi)).1 h.1).2
  · intro v hv
    obtain ⟨i, hi, huniq⟩ := (h.1 v).1 hv
    refine ⟨i, ⟨at_lt hi, ?_⟩, ?_⟩
    · exact ((C52_indicator p it hit v i (at_lt hi)).1 hi).1
    · rintro j ⟨hj, hj1⟩
      apply huniq
      by_contra hnot
      have := ((C52_indicator p it hit v j hj).2 hnot).1
      omega

end Verif.Partition
