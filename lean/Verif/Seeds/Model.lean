import Verif.SparseLouvain.Model
import Mathlib.Data.Nat.Digits.Defs

/-!
# Model of the random numbers

Where the random numbers of the Louvain search come from and where they go: the arguments
`rnd_state` and `rnd_seed` of the constructors (`src/flowstab/network_clustering.py:294,
411-415, 1065, 1531, 1602-1606`), the argument `rnd_seed` of `find_louvain_clustering`
(`network_clustering.py:888-992, 1452-1477`), the two arguments of the same method of
`FlowIntegralClustering` (`network_clustering.py:2070-2148`), `run_multi_louvain`
(`network_clustering.py:2503-2549`) and `n_random_seeds` (`network_clustering.py:2496-2500`,
`parallel_clustering.py:104-107`, `scripts/run_clusterings.py:623-626`).

The loops are those of `Verif.Louvain.Model` and `Verif.SparseLouvain.Model`, written again
with the generator handed from shuffle to shuffle; the earlier models take the shuffles as
given.  A generator object is shared by everybody who holds it, so objects hold a reference.
The order in which Python lists a set of integers does not depend on random numbers; it is a
parameter `it`, indexed by the place in the run.  Seeds are integers or absent; arrays of
integers, which NumPy also accepts, are not modelled.
-/

namespace Verif.Seeds

open Verif.Partition
open Verif.Louvain (Params updatePart)

/-- What is used of `numpy.random.RandomState`: the state after seeding, whether by
`RandomState(seed)` or by `.seed(seed)`, and `.shuffle` of `arange(n)`. -/
structure Rng (G : Type) where
  seed : Nat → G
  shuffle : G → Nat → List Nat × G
  perm : ∀ g n, (shuffle g n).1.Perm (List.range n)

/-- The order in which sets of clusters are listed, by meta loop, loop and node. -/
structure Listing where
  it : Nat → Nat → Nat → Finset Int → List Int
  mem : ∀ m k v s x, x ∈ it m k v s ↔ x ∈ s

/-- What differs between `Clustering` and `SparseClustering` in the method they inherit from
`BaseClustering`: `C` is the class, `E` its exceptions. -/
structure Ops (C K E : Type) where
  size : C → Nat
  part : C → Part
  setPart : C → Part → C
  ofErr : Err → E
  /-- one pass over the nodes in the given order (network_clustering.py:1252-1305) -/
  sweep : C → (Nat → Finset Int → List Int) → List Nat → Part → Except E (K × Part)
  /-- `_check_if_S_is_zero` -/
  isZero : C → Except E Bool
  /-- `self.__class__(..., cluster_list=...)` (network_clustering.py:921-924) -/
  remake : C → List (Finset Nat) → Except E C
  /-- `_aggregate_clusters` and the new clustering (network_clustering.py:966-974) -/
  aggregate : C → Part → Except E C

variable {K : Type} [Field K] [LinearOrder K] [IsStrictOrderedRing K] {C E G : Type}

/-- The methods of `Clustering` (those of `Verif.Louvain.Model`). -/
def denseOps : Ops (Verif.Louvain.Clu K) K Err where
  size c := c.n
  part c := c.part
  setPart c p := { c with part := p }
  ofErr e := e
  sweep c it l p := Verif.Louvain.sweep c.S c.T c.n it l 0 p
  isZero c := if c.n = 0 then .error .valueError else .ok (decide (Verif.Louvain.sIsZero c.n c.S))
  remake c l := Verif.Louvain.mkClu c.n c.T c.S (.clusterList l)
  aggregate c p := Verif.Louvain.aggregate c.T c.S p

/-- The methods of `SparseClustering` (those of `Verif.SparseLouvain.Model`). -/
def sparseOps : Ops (Verif.SparseLouvain.SClu K) K Verif.SparseLouvain.SErr where
  size c := c.A.PT.nrows
  part c := c.part
  setPart c p := { c with part := p }
  ofErr e := .part e
  sweep c it l p := Verif.SparseLouvain.sSweep c.A it l 0 p
  isZero c := .ok c.A.isAllZeros
  remake c l := Verif.SparseLouvain.mkS c.A (.clusterList l)
  aggregate c p := Verif.SparseLouvain.sAggregate c.A p

/-- `_louvain_move_nodes` (network_clustering.py:1221-1331) on the clustering `c`, with the
generator it is given and the generator it leaves, also when it fails. -/
def moveLoop (o : Ops C K E) (rng : Rng G) (li : Listing) (m : Nat) (thr : K) (nSub : Nat) (c : C) :
    (steps : Nat) → (nLoop : Nat) → (dLoop dTot : K) → Part → G → Except E (K × Nat × Part) × G
  | 0, _, _, _, _, g => (.error (o.ofErr .outOfSteps), g)
  | steps + 1, nLoop, dLoop, dTot, p, g =>
    if thr < dLoop ∧ nLoop < nSub then
      let r := rng.shuffle g (o.size c)
      match o.sweep c (li.it m nLoop) r.1 p with
      | .error e => (.error e, r.2)
      | .ok (d, p') => moveLoop o rng li m thr nSub c steps (nLoop + 1) d (dTot + d) p' r.2
    else (.ok (dTot, nLoop, removeEmpty p), g)

/-- The `while` loop of `find_louvain_clustering` (network_clustering.py:925-990); the meta
clusterings share the generator (network_clustering.py:923, 974). -/
def metaLoop (o : Ops C K E) (rng : Rng G) (li : Listing) (par : Params K) (c : C) :
    (steps : Nat) → (nMetaLoop : Nat) → (delta : K) → (stop : Bool) → (self : Part) → (mc : C) → G →
    Except E (Nat × Part) × G
  | 0, _, _, _, _, _, g => (.error (o.ofErr .outOfSteps), g)
  | steps + 1, nMetaLoop, delta, stop, self, mc, g =>
    if delta ≤ par.thr ∨ stop = true ∨ par.nMeta < nMetaLoop then (.ok (nMetaLoop, self), g)
    else
      let k := nMetaLoop + 1
      match moveLoop o rng li k par.thr par.nSub mc (par.nSub + 1) 1 1 0 (o.part mc) g with
      | (.error e, g') => (.error e, g')
      | (.ok (d, _, mp), g') =>
        match updatePart self mp with
        | .error e => (.error (o.ofErr e), g')
        | .ok self' =>
          if (∀ c ∈ self'.clusters, c.card = 1) ∨ par.nMeta < k ∨ d ≤ par.thr then
            metaLoop o rng li par c steps k d true self' (o.setPart mc (removeEmpty mp)) g'
          else
            match o.aggregate c self' with
            | .error e => (.error e, g')
            | .ok mc' => metaLoop o rng li par c steps k d false self' mc' g'

/-- `find_louvain_clustering` after the seeding (network_clustering.py:907-992). -/
def search (o : Ops C K E) (rng : Rng G) (li : Listing) (par : Params K) (c : C) (g : G) :
    Except E (Nat × Part) × G :=
  match o.isZero c with
  | .error e => (.error e, g)
  | .ok true =>
    match mk' (o.size c) (.clusterList [Finset.range (o.size c)]) false with
    | .error e => (.error (o.ofErr e), g)
    | .ok p => (.ok (0, p), g)
  | .ok false =>
    match o.remake c (o.part c).clusters with
    | .error e => (.error e, g)
    | .ok mc => metaLoop o rng li par c (par.nMeta + 3) 0 1 false (o.part c) mc g

/-- The generators of a program, by reference; those from `next` on do not exist yet. -/
structure Heap (G : Type) where
  gens : Nat → G
  next : Nat

/-- `RandomState.seed(s)` and `RandomState(s)` accept the integers from 0 to `2**32 - 1`. -/
def seedOk (s : Int) : Prop := 0 ≤ s ∧ s < 4294967296

instance (s : Int) : Decidable (seedOk s) := by unfold seedOk; infer_instance

/-- Outcomes of a call: exceptions of the class, or the `ValueError` of a bad seed. -/
inductive Exc (E : Type) where
  | badSeed
  | cls (e : E)
deriving DecidableEq

/-- A clustering and the reference to its generator. -/
structure Obj (C : Type) where
  clu : C
  ref : Nat

/-- `np.random.RandomState(rnd_seed)`: a new generator; `fresh` is the state it gets from the
operating system when there is no seed. -/
def newState (rng : Rng G) (h : Heap G) (fresh : G) (s : Option Int) :
    Except (Exc E) (Nat × Heap G) :=
  match s with
  | none => .ok (h.next, ⟨Function.update h.gens h.next fresh, h.next + 1⟩)
  | some s =>
    if seedOk s then
      .ok (h.next, ⟨Function.update h.gens h.next (rng.seed s.toNat), h.next + 1⟩)
    else .error .badSeed

/-- The end of the constructors (network_clustering.py:411-415, 1602-1606), `c` being the
object built so far: a given generator is used as it is and the seed is not looked at. -/
def newClu (rng : Rng G) (h : Heap G) (fresh : G) (c : Except E C) (rndState : Option Nat)
    (rndSeed : Option Int) : Except (Exc E) (Obj C × Heap G) :=
  match c with
  | .error e => .error (.cls e)
  | .ok c =>
    match rndState with
    | some r => .ok (⟨c, r⟩, h)
    | none =>
      match newState rng h fresh rndSeed with
      | .error e => .error e
      | .ok (r, h') => .ok (⟨c, r⟩, h')

/-- `find_louvain_clustering` (network_clustering.py:888-992): the result, the object and the
generators after the call.  When it fails the partition of the object may have been replaced
(C84); the model keeps it. -/
def find (o : Ops C K E) (rng : Rng G) (li : Listing) (par : Params K) (rndSeed : Option Int)
    (x : Obj C) (h : Heap G) : Except (Exc E) Nat × Obj C × Heap G :=
  let go (g : G) : Except (Exc E) Nat × Obj C × Heap G :=
    match search o rng li par x.clu g with
    | (.error e, g') => (.error (.cls e), x, { h with gens := Function.update h.gens x.ref g' })
    | (.ok (n, p), g') =>
      (.ok n, { x with clu := o.setPart x.clu p }, { h with gens := Function.update h.gens x.ref g' })
  match rndSeed with
  | none => go (h.gens x.ref)
  | some s => if seedOk s then go (rng.seed s.toNat) else (.error .badSeed, x, h)

/-- `FlowIntegralClustering.find_louvain_clustering` for an interval not clustered before
(network_clustering.py:2123-2148): both arguments go to the constructor, and the seed again to
the search.  `c` is what the constructor builds. -/
def flowFind (o : Ops C K E) (rng : Rng G) (li : Listing) (par : Params K) (c : Except E C)
    (rndState : Option Nat) (rndSeed : Option Int) (fresh : G) (h : Heap G) :
    Except (Exc E) Nat × Option (Obj C) × Heap G :=
  match newClu rng h fresh c rndState rndSeed with
  | .error e => (.error e, none, h)
  | .ok (x, h') =>
    match find o rng li par rndSeed x h' with
    | (r, x', h'') => (r, some x', h'')

/-- `int.from_bytes(b, byteorder="big")`. -/
def fromBytes (b : List (Fin 256)) : Nat := b.foldl (fun a x => a * 256 + x.val) 0

/-- `n_random_seeds(n)` (network_clustering.py:2496-2500, parallel_clustering.py:104-107,
scripts/run_clusterings.py:623-626); `ur i` is the `i`-th answer of `os.urandom(4)`. -/
def nRandomSeeds (ur : Nat → Fin 4 → Fin 256) (n : Nat) : List Nat :=
  (List.range n).map fun i => fromBytes (List.ofFn (ur i))

/-- The loop of `run_multi_louvain` (network_clustering.py:2530-2549): number of loops, clusters
and seed of each repetition.  `kwSeed` is the value of `rnd_seed` among the keyword arguments,
which are handed to the search.  `c` is what the constructor builds from the arrays. -/
def runMulti (o : Ops C K E) (rng : Rng G) (li : Listing) (par : Params K) (c : Except E C)
    (kwSeed : Option Int) (fresh : G) :
    List Nat → Heap G → Except (Exc E) (List (Nat × List (Finset Nat) × Nat)) × Heap G
  | [], h => (.ok [], h)
  | s :: l, h =>
    match newClu rng h fresh c none (some (s : Int)) with
    | .error e => (.error e, h)
    | .ok (x, h') =>
      match find o rng li par kwSeed x h' with
      | (.error e, _, h'') => (.error e, h'')
      | (.ok n, x', h'') =>
        match runMulti o rng li par c kwSeed fresh l h'' with
        | (.error e, h3) => (.error e, h3)
        | (.ok rs, h3) => (.ok ((n, (o.part x'.clu).clusters, s) :: rs), h3)

/-- A program that uses clusterings and generators. -/
structure Session (C G : Type) where
  objs : List (Obj C)
  heap : Heap G

/-- What a program may do with them. -/
inductive Cmd (C K E G : Type) where
  /-- `RandomState(seed)` -/
  | state (fresh : G) (s : Option Int)
  /-- `r.seed(s)` -/
  | reseed (r : Nat) (s : Int)
  /-- other random numbers drawn from the generator `r` -/
  | draw (r : Nat) (f : G → G)
  /-- a constructor -/
  | make (fresh : G) (c : Except E C) (rndState : Option Nat) (rndSeed : Option Int)
  /-- `find_louvain_clustering` of the `i`-th object -/
  | find (i : Nat) (li : Listing) (par : Params K) (rndSeed : Option Int)

/-- One step of a program; exceptions are caught. -/
def Session.step (o : Ops C K E) (rng : Rng G) (s : Session C G) : Cmd C K E G → Session C G
  | .state fresh sd =>
    match newState (E := E) rng s.heap fresh sd with
    | .error _ => s
    | .ok (_, h) => { s with heap := h }
  | .reseed r sd =>
    if seedOk sd then
      { s with heap := { s.heap with gens := Function.update s.heap.gens r (rng.seed sd.toNat) } }
    else s
  | .draw r f =>
    { s with heap := { s.heap with gens := Function.update s.heap.gens r (f (s.heap.gens r)) } }
  | .make fresh c st sd =>
    match newClu rng s.heap fresh c st sd with
    | .error _ => s
    | .ok (x, h) => { objs := s.objs ++ [x], heap := h }
  | .find i li par sd =>
    match s.objs[i]? with
    | none => s
    | some x =>
      match find o rng li par sd x s.heap with
      | (_, x', h) => { objs := s.objs.set i x', heap := h }

/-- A program. -/
def Session.run (o : Ops C K E) (rng : Rng G) (s : Session C G) (l : List (Cmd C K E G)) :
    Session C G :=
  l.foldl (Session.step o rng) s

end Verif.Seeds
