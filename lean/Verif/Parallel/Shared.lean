import Verif.Parallel.Props

/-!
# The covariance the processes of `compute_parallel_clustering` work on (C78)
-/

namespace Verif.Parallel

open Verif.Louvain (Sched Params Clu)
open Verif.Autocov Verif.SparseLouvain Verif.Csr Verif.Partition

variable {K : Type} [Field K] [LinearOrder K] [IsStrictOrderedRing K]

/-- The covariance of the sparse object the processes build from the shared arrays. -/
def shared : Obj K → Option (Nat → Nat → K)
  | .sparse A p1 p2 => some (workerCov A p1 p2).toarray
  | _ => none

theorem shared_val (A : Autocov K) (p1 p2 : Nat → K) (h : A.PT.WF) (i j : Nat)
    (hi : i < A.PT.nrows) :
    (workerCov A p1 p2).toarray i j = A.PT.val i j - p1 i * p2 j :=
  toarray_mk A.PT (.vectors p1 p2) true h i j hi

/-- **C78** (objects from a transition matrix).  For an object built from a transition matrix
`T` and start probabilities `p`, the processes work on the covariance of the object:
`p i T(i,j)` minus the product of `p i` and the probability `∑ p k T(k,j)` of being at `j`. -/
theorem C78_shared_T (T : Csr K) (p : Nat → K) (h : T.WF) :
    ∃ S, shared (ofT T p) = some S ∧ ∀ i < T.nrows, ∀ j,
      S i j = p i * T.val i j - p i * ∑ k ∈ Finset.range T.nrows, p k * T.val k j := by
  refine ⟨_, rfl, fun i hi j => ?_⟩
  have hwf : (diagMatmul T p).WF := by
    unfold diagMatmul; exact wf_mapVals h _
  have hn : (diagMatmul T p).nrows = T.nrows := by rw [diagMatmul, nrows_mapVals]
  have hPT : (fromT T (some p) none).PT = sortIndices (diagMatmul T p) := rfl
  have hs : (fromT T (some p) none).PT.WF := wf_sortIndices hwf
  rw [shared_val _ _ _ hs i j (by rw [hPT, nrows_sortIndices, hn]; exact hi), hPT,
    val_sortIndices hwf _ _ (by rw [hn]; exact hi), val_diagMatmul _ _ _ _ hi, mul_comm]
  rfl

/-- **C78** is violated for objects built from a covariance `A`: whatever the probabilities of
`A`, the processes work on the stored matrix minus the product of uniform start probabilities
and the column means, so on the covariance of `A` exactly if the products of probabilities
are these. -/
theorem C78_shared_cov_violated (A : Autocov K) (h : A.PT.WF) :
    ∃ S, shared (ofCov A) = some S ∧
      (∀ i < A.PT.nrows, ∀ j, S i j = A.PT.val i j - 1 / (A.PT.nrows : K) *
        ∑ k ∈ Finset.range A.PT.nrows, 1 / (A.PT.nrows : K) * A.PT.val k j) ∧
      ((∀ i < A.PT.nrows, ∀ j < A.PT.nrows, S i j = A.toarray i j) ↔
        ∀ i < A.PT.nrows, ∀ j < A.PT.nrows, A.w.p0 i j = 1 / (A.PT.nrows : K) *
          ∑ k ∈ Finset.range A.PT.nrows, 1 / (A.PT.nrows : K) * A.PT.val k j) := by
  have hv : ∀ i < A.PT.nrows, ∀ j, (workerCov A (uniform A.PT.nrows)
      (vecMat (uniform A.PT.nrows) A.PT)).toarray i j = A.PT.val i j - 1 / (A.PT.nrows : K) *
        ∑ k ∈ Finset.range A.PT.nrows, 1 / (A.PT.nrows : K) * A.PT.val k j := by
    intro i hi j
    rw [shared_val _ _ _ h i j hi]
    rfl
  refine ⟨_, rfl, hv, ?_⟩
  refine forall₂_congr fun i hi => forall₂_congr fun j _ => ?_
  rw [hv i hi j]
  unfold Autocov.toarray
  constructor <;> intro hh
  · exact (sub_right_injective hh).symm
  · rw [hh]

/-- The covariance of `C78_defaults_violated`: its probabilities are not the default ones. -/
example : unevenCov.PT.WF ∧ unevenCov.w.p0 0 0 = 25 / 64 ∧ 1 / (unevenCov.PT.nrows : ℚ) *
    ∑ k ∈ Finset.range unevenCov.PT.nrows, 1 / (unevenCov.PT.nrows : ℚ) * unevenCov.PT.val k 0 =
      5 / 32 := by
  refine ⟨?_, by decide +kernel, by decide +kernel⟩
  exact (good_mk _ _ _ (wf_ofRows _ _ (by decide +kernel)) (by decide)
    (by unfold Csr.NoRepeats; decide +kernel) (fun _ => uneven_symm)).wf

end Verif.Parallel
