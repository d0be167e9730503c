import Verif.SparseLouvain.Spec
import Verif.Louvain.Lemmas
import Verif.Autocov.AggLemmas
import Mathlib.Algebra.BigOperators.Group.List.Lemmas
import Mathlib.Tactic.Linarith

/-!
# Sparse Louvain follows the dense one step by step
-/

set_option linter.unusedSectionVars false
set_option linter.unusedSimpArgs false
set_option linter.dupNamespace false

namespace Verif.SparseLouvain

open Verif.Partition Verif.Autocov Verif.Csr
open Verif.Louvain (Sched Params getCluster potentialNewClusters listSet updatePart neighs Clu
  visit sweep scan moveLoop moveNodes metaLoop stability mem_listSet listSet_nodup aggS blockSum)

variable {K : Type} [Field K] [LinearOrder K] [IsStrictOrderedRing K]

@[simp] theorem lift_ok {α : Type} (a : α) : lift (.ok a) = .ok a := rfl
@[simp] theorem lift_error {α : Type} (e : Verif.Partition.Err) :
    lift (.error e : Except Verif.Partition.Err α) = .error (.part e) := rfl

/-- The stored covariance `A` and the dense arrays `S`, `T` describe the same problem. -/
structure Rel (A : Autocov K) (n : Nat) (S T : Nat → Nat → K) : Prop where
  rows : A.PT.nrows = n
  good : Good A
  diag : ∀ i < n, readDiag A.PT i = .ok (A.PT.val i i)
  val : ∀ i < n, ∀ j < n, A.toarray i j = S i j
  nb : ∀ i < n, (sneighs A i).erase i = (neighs T n i).erase i

theorem listSet_toFinset (c : Finset Nat) : (listSet c).toFinset = c := by
  ext v
  rw [List.mem_toFinset, mem_listSet]

theorem sum_listSet (c : Finset Nat) (f : Nat → K) : ((listSet c).map f).sum = ∑ v ∈ c, f v := by
  rw [← List.sum_toFinset f (listSet_nodup c), listSet_toFinset]

theorem getCluster_lt {p : Part} (h : Consistent p) {ci : Int} {c : Finset Nat}
    (hc : getCluster p ci = .ok c) : ∀ v ∈ c, v < p.numNodes := by
  unfold getCluster at hc
  split at hc
  · simp at hc
  · rename_i k _
    injection hc with hc
    subst hc
    intro v hv
    exact Verif.Louvain.at_lt_n h.1 (Verif.Louvain.at_iff_getD.2 hv)

theorem toarray_diag (A : Autocov K) (k : Nat) : A.PT.val k k - A.w.p0 k k = A.toarray k k := rfl

theorem sDeltaTo_eq {A : Autocov K} {n : Nat} {S T : Nat → Nat → K} (r : Rel A n S T) {p : Part}
    (h : Consistent p) (hn : p.numNodes = n) {k : Nat} (hk : k < n) (cf : Int) :
    sDeltaTo A p k cf = lift (Verif.Louvain.deltaTo S p k cf) := by
  unfold sDeltaTo Verif.Louvain.deltaTo
  match hc : getCluster p cf with
  | .error e => rfl
  | .ok c =>
    have hlt := getCluster_lt h hc
    rw [hn] at hlt
    dsimp only
    split
    · rfl
    · rw [deltaTo_eq A r.good.columns k (by rw [r.rows]; exact hk) (listSet c) (listSet_nodup c)
        (fun i hi => by rw [r.rows]; exact hlt i ((mem_listSet c i).1 hi)) _
        (r.diag k hk), toarray_diag]
      simp only [lift_ok, Except.ok.injEq]
      rw [sum_listSet, sum_listSet, r.val k hk k hk]
      congr 2
      · exact Finset.sum_congr rfl fun j hj => r.val k hk j (hlt j hj)
      · exact Finset.sum_congr rfl fun j hj => r.val j (hlt j hj) k hk

theorem sDeltaOut_eq {A : Autocov K} {n : Nat} {S T : Nat → Nat → K} (r : Rel A n S T) {p : Part}
    (h : Consistent p) (hn : p.numNodes = n) {k : Nat} (hk : k < n) (ci : Int) :
    sDeltaOut A p k ci = lift (Verif.Louvain.deltaOut S p k ci) := by
  unfold sDeltaOut Verif.Louvain.deltaOut
  match hc : getCluster p ci with
  | .error e => rfl
  | .ok c =>
    have hlt := getCluster_lt h hc
    rw [hn] at hlt
    dsimp only
    split
    · rfl
    · rw [deltaOut_eq A r.good.columns k (by rw [r.rows]; exact hk) (listSet c) (listSet_nodup c)
        (fun i hi => by rw [r.rows]; exact hlt i ((mem_listSet c i).1 hi)) _
        (r.diag k hk), toarray_diag]
      simp only [lift_ok, Except.ok.injEq]
      rw [sum_listSet, sum_listSet, r.val k hk k hk]
      congr 2
      · congr 1
        exact Finset.sum_congr rfl fun j hj => r.val k hk j (hlt j hj)
      · exact Finset.sum_congr rfl fun j hj => r.val j (hlt j hj) k hk

theorem sScan_eq {A : Autocov K} {n : Nat} {S T : Nat → Nat → K} (r : Rel A n S T) {p : Part}
    (h : Consistent p) (hn : p.numNodes = n) {k : Nat} (hk : k < n) (ci : Int) (rOut : K)
    (l : List Int) (best : K) (c : Int) :
    sScan A p k ci rOut l best c = lift (scan S p k ci rOut l best c) := by
  induction l generalizing best c with
  | nil => rfl
  | cons cf l ih =>
    unfold sScan scan
    rw [sDeltaTo_eq r h hn hk cf]
    split
    · match Verif.Louvain.deltaTo S p k cf with
      | .error e => rfl
      | .ok d =>
        simp only [lift_ok]
        split <;> exact ih _ _
    · exact ih _ _

/-- The node itself makes no difference to the candidate clusters. -/
theorem potentialNewClusters_erase (p : Part) (nb : Finset Nat) (v : Nat) (ci : Int)
    (hd : p.dict v = some ci) :
    potentialNewClusters p nb v = potentialNewClusters p (nb.erase v) v := by
  unfold potentialNewClusters
  have h1 : none ∈ nb.image p.dict ↔ none ∈ (nb.erase v).image p.dict := by
    simp only [Finset.mem_image, Finset.mem_erase]
    constructor
    · rintro ⟨u, hu, he⟩
      exact ⟨u, ⟨fun h => by subst h; rw [hd] at he; simp at he, hu⟩, he⟩
    · rintro ⟨u, ⟨_, hu⟩, he⟩
      exact ⟨u, hu, he⟩
  simp only [h1, hd]
  split
  · rfl
  · congr 1
    ext x
    simp only [Finset.mem_erase, Finset.mem_eraseNone, Finset.mem_image]
    constructor
    · rintro ⟨hx, u, hu, he⟩
      exact ⟨hx, u, ⟨fun h => by subst h; rw [hd] at he; injection he with he; exact hx he.symm,
        hu⟩, he⟩
    · rintro ⟨hx, u, ⟨_, hu⟩, he⟩
      exact ⟨hx, u, hu, he⟩

theorem sVisit_eq {A : Autocov K} {n : Nat} {S T : Nat → Nat → K} (r : Rel A n S T) {p : Part}
    (h : Consistent p) (hn : p.numNodes = n) (it : Finset Int → List Int) {v : Nat} (hv : v < n) :
    sVisit A it p v = lift (visit S T n it p v) := by
  unfold sVisit visit
  match hd : p.dict v with
  | none => rfl
  | some ci =>
    dsimp only
    rw [potentialNewClusters_erase p (sneighs A v) v ci hd, r.nb v hv,
      ← potentialNewClusters_erase p (neighs T n v) v ci hd]
    rw [sDeltaOut_eq r h hn hv ci]
    match Verif.Louvain.deltaOut S p v ci with
    | .error e => rfl
    | .ok rOut =>
      simp only [lift_ok]
      match potentialNewClusters p (neighs T n v) v with
      | .error e => rfl
      | .ok comms =>
        dsimp only
        rw [sScan_eq r h hn hv ci rOut]
        match scan S p v ci rOut (it comms) 0 ci with
        | .error e => rfl
        | .ok (best, c) =>
          simp only [lift_ok]
          split
          · match moveNode p v c with
            | (some e, _) => rfl
            | (none, p') => rfl
          · rfl

theorem sSweep_eq {A : Autocov K} {n : Nat} {S T : Nat → Nat → K} (r : Rel A n S T)
    (it : Nat → Finset Int → List Int) (hit : ∀ v s x, x ∈ it v s ↔ x ∈ s) (l : List Nat)
    (hl : ∀ v ∈ l, v < n) (d : K) {p : Part} (h : Consistent p) (hn : p.numNodes = n) :
    sSweep A it l d p = lift (sweep S T n it l d p) := by
  induction l generalizing d p with
  | nil => rfl
  | cons v l ih =>
    unfold sSweep sweep
    rw [sVisit_eq r h hn (it v) (hl v (by simp))]
    obtain ⟨g, p1, h1, h2, h3, _⟩ := Verif.Louvain.visit_spec S T h (it v) (hit v)
      (v := v) (by rw [hn]; exact hl v (by simp))
    rw [hn] at h1
    rw [h1]
    simp only [lift_ok]
    exact ih (fun u hu => hl u (by simp [hu])) _ h2 (h3.trans hn)

theorem sMoveLoop_eq {A : Autocov K} {n : Nat} {S T : Nat → Nat → K} (r : Rel A n S T)
    (sc : Sched) (m : Nat) (thr : K) (nSub steps nLoop : Nat) (dLoop dTot : K) {p : Part}
    (h : Consistent p) (hn : p.numNodes = n) :
    sMoveLoop sc m thr nSub A steps nLoop dLoop dTot p =
      lift (moveLoop sc m thr nSub S T n steps nLoop dLoop dTot p) := by
  induction steps generalizing nLoop dLoop dTot p with
  | zero => rfl
  | succ steps ih =>
    unfold sMoveLoop moveLoop
    have hl : ∀ v ∈ sc.order m nLoop n, v < n := by
      intro v hv
      exact List.mem_range.1 ((sc.order_perm m nLoop n).mem_iff.1 hv)
    split
    · rw [r.rows, sSweep_eq r _ (sc.mem_listing m nLoop) _ hl 0 h hn]
      obtain ⟨g, p1, h1, h2, h3, _⟩ := Verif.Louvain.sweep_spec S T (sc.listing m nLoop)
        (sc.mem_listing m nLoop) (sc.order m nLoop n) 0 h (by rw [hn]; exact hl)
      rw [hn] at h1
      rw [h1]
      simp only [lift_ok]
      exact ih _ _ _ h2 (h3.trans hn)
    · rfl

theorem sMoveNodes_eq {A : Autocov K} {n : Nat} {S T : Nat → Nat → K} (r : Rel A n S T)
    (sc : Sched) (m : Nat) (thr : K) (nSub steps : Nat) {p : Part}
    (h : Consistent p) (hn : p.numNodes = n) :
    sMoveNodes sc m thr nSub ⟨A, p⟩ steps = lift (moveNodes sc m thr nSub ⟨n, T, S, p⟩ steps) :=
  sMoveLoop_eq r sc m thr nSub steps 1 1 0 h hn

theorem sStability_eq (A : Autocov K) (p : Part) : sStability A p = stability A.toarray p := by
  unfold sStability stability sClusteredAutocov Verif.Louvain.clusteredAutocov
  congr 1
  apply List.map_congr_left
  intro c _
  split
  · rw [submatSum_eq A _ _ (listSet_nodup c), sum_listSet]
    unfold blockSum
    exact Finset.sum_congr rfl fun i _ => sum_listSet _ _
  · rfl

end Verif.SparseLouvain
