import Verif.Bipart.Model

/-!
# Model of the node-moving phase and the aggregation of `BaseClustering`

The base class leaves open the stability of a clustered covariance (`compute_stability`), the
candidate clusters (`_potential_new_clusters`) and the access to the clusters of a node; a subclass
gives them.  They are parameters here, so the model speaks of every subclass that keeps the two
partitions of the base class.
-/

set_option linter.dupNamespace false

namespace Verif.Bipart

open Verif.Partition Verif.Louvain

variable {K : Type} [Field K] [LinearOrder K] [IsStrictOrderedRing K]

/-- What a subclass gives: `compute_stability(R)` of an array with `ns` rows and `nt` columns
(network_clustering.py:526-540), and the pairs of source and target clusters of
`_potential_new_clusters` (678-682) in the order Python lists them. -/
structure Rules (K : Type) where
  stab : Nat → Nat → (Nat → Nat → K) → K
  cand : Part → Part → Nat → List (Nat × Nat)

/-- Variables of `_louvain_move_nodes` that live across nodes (network_clustering.py:713-719, 776-778). -/
structure BSt (K : Type) where
  src : Part
  tgt : Part
  R : Nat → Nat → K
  stability : K

/-- Loop over the candidates (network_clustering.py:757-774): `delta_r_best`, `c_f_best`,
`Rnew_best`. -/
def bscan (rules : Rules K) (S : Nat → Nat → K) (st : BSt K) (node : Nat) (ci : Nat × Nat)
    (rOut : Nat → Nat → K) :
    List (Nat × Nat) → K → Nat × Nat → (Nat → Nat → K) → Except Err (K × (Nat × Nat) × (Nat → Nat → K))
  | [], best, c, Rb => .ok (best, c, Rb)
  | cf :: l, best, c, Rb =>
    if cf ≠ ci then
      match moveTo S st.src st.tgt node ci.1 ci.2 cf.1 cf.2 rOut with
      | .error e => .error e
      | .ok Rnew =>
        let delta := rules.stab st.src.clusters.length st.tgt.clusters.length Rnew - st.stability
        if best ≤ delta then bscan rules S st node ci rOut l delta cf Rnew
        else bscan rules S st node ci rOut l best c Rb
    else bscan rules S st node ci rOut l best c Rb

/-- Body of the loop over nodes (network_clustering.py:737-789): gain and new variables.  The clusters
of a node are those of the two dictionaries, a move is a move in both partitions. -/
def bvisit (rules : Rules K) (S : Nat → Nat → K) (st : BSt K) (node : Nat) : Except Err (K × BSt K) :=
  match st.src.dict node, st.tgt.dict node with
  | some cs, some ct =>
    let ci := (cs.toNat, ct.toNat)
    match moveOut S st.src st.tgt node ci.1 ci.2 (some st.R) with
    | .error e => .error e
    | .ok rOut =>
      match bscan rules S st node ci rOut (rules.cand st.src st.tgt node) 0 ci st.R with
      | .error e => .error e
      | .ok (best, c, Rb) =>
        if c ≠ ci then
          match moveNode st.src node c.1, moveNode st.tgt node c.2 with
          | (none, src'), (none, tgt') => .ok (best, ⟨src', tgt', Rb, st.stability + best⟩)
          | (some e, _), _ => .error e
          | _, (some e, _) => .error e
        else .ok (0, st)
  | _, _ => .error .keyError

/-- One pass over the nodes in the order given (network_clustering.py:737-789). -/
def bsweep (rules : Rules K) (S : Nat → Nat → K) : List Nat → K → BSt K → Except Err (K × BSt K)
  | [], d, st => .ok (d, st)
  | v :: l, d, st =>
    match bvisit rules S st v with
    | .error e => .error e
    | .ok (g, st') => bsweep rules S l (d + g) st'

/-- The `while` loop of `_louvain_move_nodes` (network_clustering.py:721-812); `order` are the shuffled
orders of the nodes, `steps` bounds the iterations of the model. -/
def bloop (rules : Rules K) (S : Nat → Nat → K) (order : Nat → List Nat) (thr : K) (nSub : Nat) :
    (steps : Nat) → (nLoop : Nat) → (dLoop dTot : K) → BSt K → Except Err (K × Nat × Part × Part)
  | 0, _, _, _, _ => .error .outOfSteps
  | steps + 1, nLoop, dLoop, dTot, st =>
    if thr < dLoop ∧ nLoop < nSub then
      match bsweep rules S (order nLoop) 0 st with
      | .error e => .error e
      | .ok (d, st') => bloop rules S order thr nSub steps (nLoop + 1) d (dTot + d) st'
    else .ok (dTot, nLoop, removeEmpty st.src, removeEmpty st.tgt)

/-- `_louvain_move_nodes` of the base class (network_clustering.py:705-812): gain, `n_loop`, and the two
partitions. -/
def bmoveNodes (rules : Rules K) (S : Nat → Nat → K) (order : Nat → List Nat) (thr : K) (nSub steps : Nat)
    (src tgt : Part) : Except Err (K × Nat × Part × Part) :=
  let R := clustered S src tgt
  bloop rules S order thr nSub steps 1 1 0
    ⟨src, tgt, R, rules.stab src.clusters.length tgt.clusters.length R⟩

/-! ## Aggregation -/

/-- Arrays of `_aggregate_clusters` (network_clustering.py:815-865): `T` with its rows normalised, the two
densities normalised, and `S`; `cs` source and `ct` target clusters. -/
structure Aggr (K : Type) where
  cs : Nat
  ct : Nat
  T : Nat → Nat → K
  p1 : Nat → K
  p2 : Nat → K
  S : Nat → Nat → K

/-- `_aggregate_clusters` of the base class (network_clustering.py:815-865).  Division by zero is 0 in
the model and `nan` in Python. -/
def bAggregate (T S : Nat → Nat → K) (p1 p2 : Nat → K) (src tgt : Part) : Aggr K :=
  let cs := src.clusters.length
  let ct := tgt.clusters.length
  let C (s : Nat) := src.clusters.getD s ∅
  let D (t : Nat) := tgt.clusters.getD t ∅
  let T1 (s t : Nat) : K := blockSum T (C s) (D t)
  let q1 (s : Nat) : K := ∑ i ∈ C s, p1 i
  let q2 (t : Nat) : K := ∑ j ∈ D t, p2 j
  { cs := cs, ct := ct
    T := fun s t => T1 s t / ∑ u ∈ Finset.range ct, T1 s u
    p1 := fun s => q1 s / ∑ u ∈ Finset.range cs, q1 u
    p2 := fun t => q2 t / ∑ u ∈ Finset.range ct, q2 u
    S := fun s t => blockSum S (C s) (D t) }

/-- The part of the constructor `BaseClustering(T=…, p1=…, p2=…, S=…)` (network_clustering.py:337-432)
that depends on the shapes of `T` and `S`, here both `cs × ct`: `isclose` of `cs` row sums with `ct` ones
broadcasts only equal lengths or a length one; the rows sum to one or zero; the column of each of the `cs`
nodes is read. -/
def bConstruct (a : Aggr K) : Except Err Nat :=
  if a.cs ≠ a.ct ∧ a.cs ≠ 1 ∧ a.ct ≠ 1 then .error .valueError
  else if ¬ ∀ s < a.cs, isclose (∑ t ∈ Finset.range a.ct, a.T s t) 1 ∨
      isclose (∑ t ∈ Finset.range a.ct, a.T s t) 0 then .error .assertionError
  else if a.ct < a.cs then .error .indexError
  else .ok a.cs

end Verif.Bipart
