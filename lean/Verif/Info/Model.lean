import Verif.Partition.Model
import Mathlib.Analysis.SpecialFunctions.Log.Base

/-!
# Model of the comparison measures between clusterings

`src/flowstab/network_clustering.py:2152-2374, 2553-2589`,
`src/flowstab/_cython_fast_funcs.pyx:116-530` and
`src/flowstab/parallel_clustering.py:201-245`.  Floating point numbers are real numbers.
-/

namespace Verif.Info

open Verif.Partition (maxValue addItems)

/-- Exceptions. -/
inductive Err where
  /-- conversion of a dictionary -/
  | partition (e : Partition.Err)
  /-- `clusters[0]` of an empty list -/
  | indexError
  /-- `min()` of an empty cluster -/
  | valueError
  /-- division by zero -/
  | zeroDivision
  /-- missing node -/
  | keyError
  deriving DecidableEq

/-- Arguments of the measures: a dictionary from nodes to clusters as its items, a list of
clusters, or a `Partition`. -/
inductive Arg where
  | dict (items : List (Nat × Int))
  | clusters (l : List (Finset Nat))
  | partition (p : Partition.Part)

/-- Conversion to a list of sets (network_clustering.py:2200-2217, 2272-2289).  Lists whose
elements are lists or arrays are turned into sets as well; this is the same list here. -/
def Arg.toList : Arg → Except Err (List (Finset Nat))
  | .dict items =>
    match maxValue items with
    | none => .error (.partition .valueError)
    | some m =>
      match addItems items (List.replicate (m + 1).toNat ∅) with
      | .error e => .error (.partition e)
      | .ok cl => .ok cl
  | .clusters l => .ok l
  | .partition p => .ok p.clusters

/-- The inner loop of the variation of information, with its early exit
(network_clustering.py:2328-2339, _cython_fast_funcs.pyx:193-206). -/
noncomputable def nviRow (c1 : Finset Nat) : List (Finset Nat) → Nat → ℝ → ℝ
  | [], _, v => v
  | c2 :: rest, nInter, v =>
    let nij := (c1 ∩ c2).card
    let nInter := nInter + nij
    let v := if 0 < nij then v - nij * Real.logb 2 ((nij : ℝ) ^ 2 / (c1.card * c2.card)) else v
    if c1.card ≤ nInter then v else nviRow c1 rest nInter v

/-- The outer loop (network_clustering.py:2322-2339, _cython_fast_funcs.pyx:189-206). -/
noncomputable def nviLoop (cs2 : List (Finset Nat)) : List (Finset Nat) → ℝ → ℝ
  | [], v => v
  | c1 :: rest, v => nviLoop cs2 rest (nviRow c1 cs2 0 v)

/-- `min(c)` of a nonempty set. -/
def minOf (c : Finset Nat) : Nat := if h : c.Nonempty then c.min' h else 0

/-- `sorted(clusters, key=lambda c: min(c))`. -/
def sortClusters (cs : List (Finset Nat)) : List (Finset Nat) := cs.mergeSort fun a b => decide (minOf a ≤ minOf b)

/-- `norm_var_information` from the list of sets on (network_clustering.py:2291-2341); `N` is
the optional number of nodes. -/
noncomputable def nviLists (cs1 cs2 : List (Finset Nat)) (N : Option Nat) : Except Err ℝ :=
  if cs1.length = 0 ∨ cs2.length = 0 then .error .indexError
  else
    let n := N.getD (cs1.map Finset.card).sum
    if cs1.length = cs2.length ∧ cs2.length = n then .ok 0
    else if ∅ ∈ cs1 ∨ ∅ ∈ cs2 then .error .valueError
    else
      let s1 := sortClusters cs1
      let s2 := sortClusters cs2
      if s1 = s2 then .ok 0
      else .ok (nviLoop s2 s1 0 / (n * Real.logb 2 n))

/-- `norm_var_information` (network_clustering.py:2259-2341), with `use_clust_list=False`. -/
noncomputable def nvi (a1 a2 : Arg) (N : Option Nat) : Except Err ℝ :=
  match a1.toList with
  | .error e => .error e
  | .ok cs1 =>
    match a2.toList with
    | .error e => .error e
    | .ok cs2 => nviLists cs1 cs2 N

/-- `-= p*log2(p)` for every nonzero `p` of the array (network_clustering.py:2246-2249,
_cython_fast_funcs.pyx:146-155). -/
noncomputable def shannon (p : List ℝ) : ℝ := p.foldl (fun h x => if x ≠ 0 then h - x * Real.logb 2 x else h) 0

/-- `norm_mutual_information` (network_clustering.py:2186-2256, _cython_fast_funcs.pyx:116-158).
With two entropies equal to zero the compiled version raises `ZeroDivisionError` and the
fallback gives `nan`; both are the same error here. -/
noncomputable def nmi (a1 a2 : Arg) : Except Err ℝ :=
  match a1.toList with
  | .error e => .error e
  | .ok cs1 =>
    match a2.toList with
    | .error e => .error e
    | .ok cs2 =>
      if cs1.length = 0 ∨ cs2.length = 0 then .error .indexError
      else
        let n : ℝ := (cs1.map Finset.card).sum
        let h1 := shannon (cs1.map fun c => c.card / n)
        let h2 := shannon (cs2.map fun c => c.card / n)
        let h12 := shannon (cs1.flatMap fun c => cs2.map fun d => ((c ∩ d).card : ℝ) / n)
        if max h1 h2 = 0 then .error .zeroDivision
        else .ok ((h1 + h2 - h12) / max h1 h2)

/-- The pairs `combinations(l, 2)` of the standard library. -/
def pairs {α : Type} : List α → List (α × α)
  | [] => []
  | a :: l => l.map (a, ·) ++ pairs l

/-- The values of `compute_parallel_nvi` (parallel_clustering.py:201-245) and the values averaged by
`avg_norm_var_information` (network_clustering.py:2356-2374): `idx` is the set of numbers drawn
by `np.random.choice`.  `Pool.map` keeps the order of the pairs. -/
noncomputable def nviSamples (idx : Finset Nat) (lists : List (List (Finset Nat))) (N : Nat) : Except Err (List ℝ) :=
  (((pairs lists).zipIdx.filter fun p => decide (p.2 ∈ idx)).map (·.1)).mapM fun p => nviLists p.1 p.2 (some N)

/-- Number of samples drawn (network_clustering.py:2352-2361, parallel_clustering.py:204-208). -/
def numSamples (numRepeat : Nat) (asked : Option Nat) : Nat :=
  match asked with
  | none => numRepeat * (numRepeat - 1) / 2
  | some k => min k (numRepeat * (numRepeat - 1) / 2)

/-- `avg_norm_var_information` (network_clustering.py:2344-2374). The mean of no value is `nan`,
an error here. -/
noncomputable def avgNvi (idx : Finset Nat) (lists : List (List (Finset Nat))) : Except Err ℝ :=
  match lists with
  | [] => .error .indexError
  | l :: _ =>
    match nviSamples idx lists (l.map Finset.card).sum with
    | .error e => .error e
    | .ok vals => if vals.length = 0 then .error .zeroDivision else .ok (vals.sum / vals.length)

/-- The loop of `sorted_vectors_intersection_length` and `indices_intersection_length`
(_cython_fast_funcs.pyx:461-472, 486-498): the lists are what is left of the vectors from the
positions `i` and `j` on. -/
def mergeLength : List Int → List Int → Nat → Nat
  | a :: as, b :: bs, len =>
    if a = b then mergeLength as bs (len + 1)
    else if a < b then mergeLength as (b :: bs) len
    else mergeLength (a :: as) bs len
  | _, _, len => len
  termination_by l1 l2 => l1.length + l2.length

/-- `std::sort` of integers. -/
def sortInts (l : List Int) : List Int := l.mergeSort fun a b => decide (a ≤ b)

/-- `indices_intersection_length` (_cython_fast_funcs.pyx:442-472). -/
def indicesIntersection (l1 l2 : List Int) : Nat := mergeLength (sortInts l1) (sortInts l2) 0

/-- `cset_intersection_length` (_cython_fast_funcs.pyx:501-527): iterate over the smaller set. -/
def csetIntersection (s1 s2 : Finset Int) : Nat :=
  if s1.card ≤ s2.card then (s1.filter (· ∈ s2)).card else (s2.filter (· ∈ s1)).card

/-- One term of the double sum of the other versions (_cython_fast_funcs.pyx:306-307,
395-398). -/
noncomputable def nviTerm (ni nj nij : Nat) : ℝ :=
  if 0 < nij then nij * Real.logb 2 ((nij : ℝ) ^ 2 / (ni * nj)) else 0

/-- `cython_nvi_vectors` (_cython_fast_funcs.pyx:259-313): clusters as arrays of integers. -/
noncomputable def nviVectors (cs1 cs2 : List (List Int)) (n : Nat) : ℝ :=
  cs1.foldl (fun v c1 => cs2.foldl (fun v c2 =>
    v - nviTerm c1.length c2.length (mergeLength (sortInts c1) (sortInts c2) 0)) v) 0 / (n * Real.logb 2 n)

/-- `cython_nvi_mat` (_cython_fast_funcs.pyx:319-400): clusters as sets; `it` is the order of
iteration.  Empty clusters, for which the address of a missing element is taken, are outside
of the model. -/
noncomputable def nviMat (it : Finset Nat → List Int) (cs1 cs2 : List (Finset Nat)) (n : Nat) : ℝ :=
  cs1.foldl (fun v c1 => cs2.foldl (fun v c2 =>
    v - nviTerm c1.card c2.card (indicesIntersection (it c1) (it c2))) v) 0 / (n * Real.logb 2 n)

/-- `cython_nvi_parallel` (_cython_fast_funcs.pyx:211-255): the array of partial sums is
allocated without being initialised, `mem` is what it contains.  The threads are taken in
order; the updates of one entry from several threads are not synchronised in the code. -/
noncomputable def nviParallel (mem : Nat → ℝ) (cs1 cs2 : List (Finset Nat)) (n : Nat) : ℝ :=
  (cs1.zipIdx.map fun p => cs2.foldl (fun v c2 => v - nviTerm p.1.card c2.card (p.1 ∩ c2).card) (mem p.2)).sum /
    (n * Real.logb 2 n)

/-- Conversion of `jaccard_distance` to a dictionary (network_clustering.py:2157-2170): the
items in order of insertion; an existing key keeps its place and gets the new value. -/
def setItem (d : List (Nat × Int)) (v : Nat) (i : Int) : List (Nat × Int) :=
  if d.any fun p => p.1 == v then d.map fun p => if p.1 = v then (v, i) else p else d ++ [(v, i)]

/-- The loops filling the dictionary; `it` is the order of iteration of a set. -/
def listItems (it : Finset Nat → List Nat) (cs : List (Finset Nat)) : List (Nat × Int) :=
  cs.zipIdx.foldl (fun d p => (it p.1).foldl (fun d v => setItem d v p.2) d) []

/-- One pair of nodes in the loop of `jaccard_distance` (network_clustering.py:2172-2184): the
counts of pairs together in both and in exactly one of the clusterings. -/
def jaccardStep (d1 d2 : List (Nat × Int)) (s : Nat × Nat) (p : Nat × Nat) : Except Err (Nat × Nat) :=
  match d1.lookup p.1, d1.lookup p.2, d2.lookup p.1, d2.lookup p.2 with
  | some a, some b, some c, some d =>
    let same1 := decide (a = b)
    let same2 := decide (c = d)
    let s := if same1 && same2 then (s.1 + 1, s.2) else s
    let s := if !same1 && same2 then (s.1, s.2 + 1) else s
    .ok (if same1 && !same2 then (s.1, s.2 + 1) else s)
  | _, _, _, _ => .error .keyError

/-- `jaccard_distance` (network_clustering.py:2152-2184): the counts are computed and nothing
is returned.  `none` is Python's `None`. -/
def jaccard (d1 d2 : List (Nat × Int)) : Except Err (Option ℚ) :=
  match (pairs (d1.map (·.1))).foldlM (m := Except Err) (jaccardStep d1 d2) (0, 0) with
  | .error e => .error e
  | .ok _ => .ok none

end Verif.Info
