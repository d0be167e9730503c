import Verif.Rounding.Model
import Verif.SparseLouvain.Model

/-!
# The sparse Louvain clustering in machine arithmetic

`find_louvain_clustering` of class `SparseClustering`
(`src/flowstab/network_clustering.py:888-992, 1221-1331, 1480-1751`) and the routines of
`SparseAutocovMat` it calls (`src/flowstab/sparse_stoch_mat.py:950-1098`,
`_cython_sparse_stoch.pyx:634-913`) again, this time with the number operations of the
machine instead of exact ones.  The operations are parameters without any law: they may
round, overflow or meet NaN.  Stored matrices, partitions, moves and induced partitions are
those of `Verif.Csr`, `Verif.Partition` and `Verif.Louvain`.
-/

namespace Verif.SparseRound

open Verif.Partition Verif.Csr Verif.Autocov
open Verif.Louvain (Params getCluster potentialNewClusters updatePart)
open Verif.Rounding (Arith FSched)
open Verif.SparseLouvain (SErr SClu mkS sneighs)

/-- The operations on numbers used by the sparse clustering.  No law is assumed. -/
structure SArith (F : Type) extends Arith F where
  mul : F → F → F
  /-- an integer as a number -/
  ofInt : Int → F
  /-- `np.allclose` of two numbers -/
  allclose : F → F → Bool
  /-- the number scipy's `tocsr` stores for entries with the same place, in the order it meets
  them -/
  dup : List F → F

variable {F : Type} (ar : SArith F)

/-- `s += x` for the stored entries of a row whose column is listed
(`_cython_sparse_stoch.pyx:757-762`). -/
def addIn (r : List (Nat × F)) (idx : List Nat) (s : F) : F :=
  r.foldl (fun s e => if e.1 ∈ idx then ar.add s e.2 else s) s

/-- `s -= x` for the stored entries of a row whose column is listed
(`_cython_sparse_stoch.pyx:846-851`). -/
def subIn (r : List (Nat × F)) (idx : List Nat) (s : F) : F :=
  r.foldl (fun s e => if e.1 ∈ idx then ar.sub s e.2 else s) s

/-- The search for `PT[k,k]` (`_cython_sparse_stoch.pyx:764-772, 853-861`): the list holds the
stored entries from position `indptr[k]` on, `m` is the number of further steps the condition
`j + 1 < PTindptr[k+1]` allows.  `none`: the search ends at another column and nothing is
added; an exception: the search starts after the last stored entry. -/
def fScanDiag (k : Nat) : Nat → List (Nat × F) → Except SErr (Option F)
  | _, [] => .error .read
  | m, e :: rest =>
    if e.1 < k ∧ 0 < m then fScanDiag k (m - 1) rest
    else if e.1 = k then .ok (some e.2)
    else .ok none

/-- `PT[k,k]` as the gain routines read it (`_cython_sparse_stoch.pyx:764-772`). -/
def fReadDiag (M : Csr F) (k : Nat) : Except SErr (Option F) :=
  fScanDiag k (M.indptr.getD (k + 1) 0 - M.indptr.getD k 0 - 1)
    ((M.indices.zip M.data).drop (M.indptr.getD k 0))

/-- `if l == k: s += PTdata[j]` (`_cython_sparse_stoch.pyx:771-772, 860-861`). -/
def addDiag (s : F) : Option F → F
  | none => s
  | some d => ar.add s d

/-- `_compute_delta_S_moveto` (sparse_stoch_mat.py:1033-1064, `_cython_sparse_stoch.pyx:740-819`). -/
def fDeltaTo (A : Autocov F) (k : Nat) (idx : List Nat) : Except SErr F :=
  match fReadDiag A.PT k with
  | .error e => .error e
  | .ok d =>
    let s := addDiag ar (addIn ar (A.PTcsc.row k) idx (addIn ar (A.PT.row k) idx ar.zero)) d
    match A.w with
    | .scalars a b => .ok (ar.sub s (ar.mul (ar.ofInt (2 * idx.length + 1)) (ar.mul a b)))
    | .vectors p1 p2 =>
      .ok (ar.sub (idx.foldl (fun s i => ar.sub (ar.sub s (ar.mul (p1 k) (p2 i)))
        (ar.mul (p1 i) (p2 k))) s) (ar.mul (p1 k) (p2 k)))

/-- `_compute_delta_S_moveout` (sparse_stoch_mat.py:1067-1098, `_cython_sparse_stoch.pyx:828-913`). -/
def fDeltaOut (A : Autocov F) (k : Nat) (idx : List Nat) : Except SErr F :=
  match fReadDiag A.PT k with
  | .error e => .error e
  | .ok d =>
    let s := addDiag ar (subIn ar (A.PTcsc.row k) idx (subIn ar (A.PT.row k) idx ar.zero)) d
    match A.w with
    | .scalars a b => .ok (ar.add s (ar.mul (ar.ofInt (2 * idx.length - 1)) (ar.mul a b)))
    | .vectors p1 p2 =>
      .ok (ar.sub (idx.foldl (fun s i => ar.add (ar.add s (ar.mul (p1 k) (p2 i)))
        (ar.mul (p1 i) (p2 k))) s) (ar.mul (p1 k) (p2 k)))

/-- `_compute_delta_stab_moveto` (network_clustering.py:1677-1698). -/
def deltaTo (A : Autocov F) (lst : Finset Nat → List Nat) (p : Part) (k : Nat) (cf : Int) :
    Except SErr F :=
  match getCluster p cf with
  | .error e => .error (.part e)
  | .ok c => if k ∈ c then .error (.part .valueError) else fDeltaTo ar A k (lst c)

/-- `_compute_delta_stab_moveout` (network_clustering.py:1701-1723). -/
def deltaOut (A : Autocov F) (lst : Finset Nat → List Nat) (p : Part) (k : Nat) (ci : Int) :
    Except SErr F :=
  match getCluster p ci with
  | .error e => .error (.part e)
  | .ok c => if k ∉ c then .error (.part .valueError) else fDeltaOut ar A k (lst c)

/-- The loop over candidate clusters (network_clustering.py:1271-1290). -/
def scan (A : Autocov F) (lst : Finset Nat → List Nat) (p : Part) (node : Nat) (ci : Int) (rOut : F) :
    List Int → F → Int → Except SErr (F × Int)
  | [], best, c => .ok (best, c)
  | cf :: l, best, c =>
    if cf ≠ ci then
      match deltaTo ar A lst p node cf with
      | .error e => .error e
      | .ok rIn =>
        if ar.le best (ar.add rOut rIn) then scan A lst p node ci rOut l (ar.add rOut rIn) cf
        else scan A lst p node ci rOut l best c
    else scan A lst p node ci rOut l best c

/-- Body of the loop over nodes (network_clustering.py:1252-1305): the gain of an executed
move, and the new partition. -/
def visit (A : Autocov F) (it : Finset Int → List Int) (lst : Finset Nat → List Nat) (p : Part)
    (node : Nat) : Except SErr (Option F × Part) :=
  match p.dict node with
  | none => .error (.part .keyError)
  | some ci =>
    match deltaOut ar A lst p node ci with
    | .error e => .error e
    | .ok rOut =>
      match potentialNewClusters p (sneighs A node) node with
      | .error e => .error (.part e)
      | .ok comms =>
        match scan ar A lst p node ci rOut (it comms) ar.zero ci with
        | .error e => .error e
        | .ok (best, c) =>
          if c ≠ ci then
            match moveNode p node c with
            | (some e, _) => .error (.part e)
            | (none, p') => .ok (some best, p')
          else .ok (none, p)

/-- One pass over the nodes (network_clustering.py:1252-1305); `delta_r_loop` changes only when a
node moves. -/
def sweep (A : Autocov F) (it : Nat → Finset Int → List Int) (lst : Nat → Finset Nat → List Nat) :
    List Nat → F → Part → Except SErr (F × Part)
  | [], d, p => .ok (d, p)
  | v :: l, d, p =>
    match visit ar A (it v) (lst v) p v with
    | .error e => .error e
    | .ok (none, p') => sweep A it lst l d p'
    | .ok (some g, p') => sweep A it lst l (ar.add d g) p'

/-- The `while` loop of `_louvain_move_nodes` (network_clustering.py:1228-1331). -/
def moveLoop (sc : FSched) (m : Nat) (thr : F) (nSub : Nat) (A : Autocov F) :
    (steps : Nat) → (nLoop : Nat) → (dLoop dTot : F) → Part → Except SErr (F × Nat × Part)
  | 0, _, _, _, _ => .error (.part .outOfSteps)
  | steps + 1, nLoop, dLoop, dTot, p =>
    if ar.lt thr dLoop = true ∧ nLoop < nSub then
      match sweep ar A (sc.listing m nLoop) (sc.nodes m nLoop) (sc.order m nLoop A.PT.nrows)
          ar.zero p with
      | .error e => .error e
      | .ok (d, p') => moveLoop sc m thr nSub A steps (nLoop + 1) d (ar.add dTot d) p'
    else .ok (dTot, nLoop, removeEmpty p)

/-- `_louvain_move_nodes` (network_clustering.py:1221-1331). -/
def moveNodes (sc : FSched) (m : Nat) (thr : F) (nSub : Nat) (c : SClu F) (steps : Nat) :
    Except SErr (F × Nat × Part) :=
  moveLoop ar sc m thr nSub c.A steps 1 ar.one ar.zero c.part

/-- `get_submat_sum` of the helper module (`_cython_sparse_stoch.pyx:637-662`). -/
def fSubmat (M : Csr F) (rows cols : List Nat) : F :=
  rows.foldl (fun s row => addIn ar (M.row row) cols s) ar.zero

/-- `aggregate_csr_mat` followed by `tocsr` (`_cython_sparse_stoch.pyx:666-696`,
sparse_stoch_mat.py:983): one entry per pair of groups whose sum is positive. -/
def fAggregate1 (M : Csr F) (groups : List (List Nat)) : Csr F :=
  ofRows groups.length ((List.range groups.length).map fun a =>
    (List.range groups.length).filterMap fun b =>
      if ar.lt ar.zero (fSubmat ar M (groups.getD a []) (groups.getD b [])) = true then
        some (b, fSubmat ar M (groups.getD a []) (groups.getD b []))
      else none)

/-- Entries of a row, those with the same column combined (scipy's `tocsr`). -/
def merged (n : Nat) (r : List (Nat × F)) : List (Nat × F) :=
  (List.range n).filterMap fun j =>
    if r.any (fun e => e.1 == j) then some (j, ar.dup ((r.filter fun e => e.1 == j).map Prod.snd))
    else none

/-- `aggregate_csr_mat_2` followed by `tocsr` (`_cython_sparse_stoch.pyx:701-735`,
sparse_stoch_mat.py:983). -/
def fAggregate2 (M : Csr F) (groups : List (List Nat)) : Csr F :=
  ofRows groups.length ((List.range groups.length).map fun a =>
    merged ar groups.length
      (((List.range M.nrows).filter fun i => groupOf groups i == a).flatMap fun i =>
        (M.row i).map fun e => (groupOf groups e.1, e.2)))

/-- The choice between the two versions (sparse_stoch_mat.py:968-981). -/
def fAggregatePT (M : Csr F) (groups : List (List Nat)) : Csr F :=
  if groups.length ^ 2 < M.data.length then fAggregate1 ar M groups else fAggregate2 ar M groups

/-- `newp = [oldp[idx].sum() for idx in idx_list]`, divided by its sum
(sparse_stoch_mat.py:993-1001). -/
def fAggregateP (p : Nat → F) (groups : List (List Nat)) (a : Nat) : F :=
  ar.div (ar.sum ((groups.getD a []).map p)) (ar.sum (groups.map fun g => ar.sum (g.map p)))

/-- `aggregate` (sparse_stoch_mat.py:950-1011).  Scalars become the uniform vector. -/
def fAggregate (A : Autocov F) (groups : List (List Nat)) : Autocov F :=
  let q : (Nat → F) × (Nat → F) := match A.w with
    | .scalars _ _ => (fun _ => ar.div ar.one (ar.ofInt A.PT.nrows),
        fun _ => ar.div ar.one (ar.ofInt A.PT.nrows))
    | .vectors p1 p2 => (p1, p2)
  mkAutocov (fAggregatePT ar A.PT groups)
    (.vectors (fAggregateP ar q.1 groups) (fAggregateP ar q.2 groups)) A.symmetric

/-- `_aggregate_clusters` followed by the construction of the new clustering
(network_clustering.py:1725-1747, 966-967). -/
def aggregate (lst : Finset Nat → List Nat) (A : Autocov F) (p : Part) : Except SErr (SClu F) :=
  if p.clusters.length = A.PT.nrows then mkS A .none
  else mkS (fAggregate ar A (p.clusters.map lst)) .none

/-- The `while` loop of `find_louvain_clustering` (network_clustering.py:925-990). -/
def metaLoop (sc : FSched) (par : Params F) (A : Autocov F) :
    (steps : Nat) → (nMetaLoop : Nat) → (delta : F) → (stop : Bool) → (self : Part) →
    (mc : SClu F) → Except SErr (Nat × Part)
  | 0, _, _, _, _, _ => .error (.part .outOfSteps)
  | steps + 1, nMetaLoop, delta, stop, self, mc =>
    if ar.le delta par.thr = true ∨ stop = true ∨ par.nMeta < nMetaLoop then .ok (nMetaLoop, self)
    else
      let k := nMetaLoop + 1
      match moveNodes ar sc k par.thr par.nSub mc (par.nSub + 1) with
      | .error e => .error e
      | .ok (d, _, mp) =>
        match updatePart self mp with
        | .error e => .error (.part e)
        | .ok self' =>
          if (∀ c ∈ self'.clusters, c.card = 1) ∨ par.nMeta < k ∨ ar.le d par.thr = true then
            metaLoop sc par A steps k d true self' { mc with part := removeEmpty mp }
          else
            match aggregate ar (sc.block k) A self' with
            | .error e => .error e
            | .ok mc' => metaLoop sc par A steps k d false self' mc'

/-- `is_all_zeros` (sparse_stoch_mat.py:1014-1031). -/
def fIsAllZeros (A : Autocov F) : Bool :=
  (List.range A.PT.nrows).all fun row =>
    (A.PT.row row).all fun e => ar.allclose e.2 (match A.w with
      | .scalars a b => ar.mul a b
      | .vectors p1 p2 => ar.mul (p1 row) (p2 e.1))

/-- `find_louvain_clustering` (network_clustering.py:888-992, 1749-1751) of a
`SparseClustering`. -/
def findLouvain (sc : FSched) (par : Params F) (c : SClu F) : Except SErr (Nat × Part) :=
  if fIsAllZeros ar c.A then
    match mk' c.A.PT.nrows (.clusterList [Finset.range c.A.PT.nrows]) false with
    | .error e => .error (.part e)
    | .ok p => .ok (0, p)
  else
    match mkS c.A (.clusterList c.part.clusters) with
    | .error e => .error e
    | .ok mc => metaLoop ar sc par c.A (par.nMeta + 3) 0 ar.one false c.part mc

end Verif.SparseRound
