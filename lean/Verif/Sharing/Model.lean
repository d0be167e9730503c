import Verif.Partition.Model

/-!
# Model of partitions that share sets

Python sets are objects that are changed in place, and `Partition.__init__` keeps the sets of the
list it is given (`src/flowstab/network_clustering.py:104-109`).  Here sets have addresses in a heap,
partitions and the lists of the caller hold addresses, and several of them can hold the same ones.
`Verif.Partition.Model` describes one partition that shares nothing.
-/

namespace Verif.Sharing

open Verif.Partition

/-- The sets in memory; an address is a position. -/
abbrev Heap := List (Finset Nat)

/-- The set at an address. -/
def Heap.at (h : Heap) (a : Nat) : Finset Nat := h.getD a ∅

/-- New sets: the heap with them, and their addresses. -/
def Heap.alloc (h : Heap) (ss : List (Finset Nat)) : Heap × List Nat := (h ++ ss, List.range' h.length ss.length)

/-- A `Partition` object (network_clustering.py:97-122): its list holds references to sets. -/
structure PObj where
  num : Nat
  refs : List Nat
  dict : Nat → Option Int

/-- What a reader of the object sees. -/
def PObj.view (h : Heap) (o : PObj) : Part := ⟨o.num, o.refs.map h.at, o.dict⟩

/-- `remove_empty_clusters` (network_clustering.py:160-173): a new list of the same set objects, and
a new dictionary. -/
def PObj.clean (h : Heap) (o : PObj) : PObj :=
  let refs := o.refs.filter fun a => decide (0 < (h.at a).card)
  { o with refs := refs, dict := dictOf (refs.map h.at) }

/-- Argument of the constructor: nothing, a list of references, or the items of a dictionary. -/
inductive Src where
  | none
  | refs (l : List Nat)
  | dict (items : List (Nat × Int))

/-- `Partition.__init__` (network_clustering.py:97-125) without the integrity check.  New sets are
filled before they get their addresses. -/
def create (h : Heap) (n : Nat) : Src → Except Err (Heap × PObj)
  | .none =>
    let (h', refs) := h.alloc (singletons n)
    .ok (h', PObj.clean h' ⟨n, refs, fun _ => .none⟩)
  | .refs l => .ok (h, PObj.clean h ⟨n, l, fun _ => .none⟩)
  | .dict items =>
    match maxValue items with
    | .none => .error .valueError
    | some m =>
      match addItems items (List.replicate (m + 1).toNat ∅) with
      | .error e => .error e
      | .ok cl =>
        let (h', refs) := h.alloc cl
        .ok (h', PObj.clean h' ⟨n, refs, fun _ => .none⟩)

/-- `move_node` (network_clustering.py:138-157): the sets are changed in the heap. -/
def move (h : Heap) (o : PObj) (node : Nat) (cf : Int) : Option Err × Heap × PObj :=
  match o.dict node with
  | none => (some .keyError, h, o)
  | some ci =>
    if ci ≠ cf then
      let o1 := { o with dict := fun v => if v = node then some cf else o.dict v }
      match pyIndex o1.refs.length ci with
      | none => (some .indexError, h, o1)
      | some k =>
        if node ∈ h.at (o1.refs.getD k 0) then
          let h1 := h.modify (o1.refs.getD k 0) (·.erase node)
          match pyIndex o1.refs.length cf with
          | none => (some .indexError, h1, o1)
          | some k' => (none, h1.modify (o1.refs.getD k' 0) (insert node), o1)
        else (some .keyError, h, o1)
    else (none, h, o)

/-- Several operations on one object (moves and removals of empty clusters); an exception does not
prevent the next one. -/
def acts (h : Heap) (o : PObj) : List Partition.Op → Heap × PObj
  | [] => (h, o)
  | .move v c :: l => let r := move h o v c; acts r.2.1 r.2.2 l
  | .removeEmpty :: l => acts h (o.clean h) l

/-- The memory: sets, lists of the caller, and partitions. -/
structure World where
  heap : Heap
  lists : List (List Nat)
  objs : List PObj

/-- Before anything happens. -/
def World.empty : World := ⟨[], [], []⟩

/-- The loop of `find_louvain_clustering` (network_clustering.py:925-990, 867-886, 1439-1442) seen
from the heap: nodes are moved in the meta clustering `mc` and its empty clusters removed, the partition
of the object is replaced by a new one made from a dictionary, and a new meta clustering is made.  Which
moves are made and what the dictionaries are does not matter here: any operations on the meta
clustering and any dictionary, one pair for each meta loop.  The result is the last partition.  (A
meta clustering that is made after the last loop is never used; the partitions of the loops have no
empty clusters, so removing these again does nothing.) -/
def findLoop (h : Heap) (self mc : PObj) :
    List (List Partition.Op × List (Nat × Int)) → Except Err (Heap × PObj)
  | [] => .ok (h, self)
  | (ops, items) :: loops =>
    let r := acts h mc ops
    match create r.1 self.num (.dict items) with
    | .error e => .error e
    | .ok (h2, self') =>
      match create h2 self'.refs.length .none with
      | .error e => .error e
      | .ok (h3, mc') => findLoop h3 self' mc' loops

/-- What happens in the program. -/
inductive Op where
  /-- the caller makes a list of new sets -/
  | mkList (l : List (Finset Nat))
  /-- the caller puts a node in a set of a list, or removes it -/
  | mutate (l pos node : Nat) (ins : Bool)
  | newDefault (n : Nat)
  /-- `Partition(n, cluster_list=l)`, also in `Clustering(cluster_list=l)` -/
  | newFrom (n l : Nat)
  | newDict (n : Nat) (items : List (Nat × Int))
  | move (i node : Nat) (cf : Int)
  | clean (i : Nat)
  /-- `find_louvain_clustering` of a clustering with partition `i`, with the moves and dictionaries
  of its loops; the resulting partition is a new object -/
  | find (i : Nat) (loops : List (List Partition.Op × List (Nat × Int)))
  /-- the same for a negligible covariance (network_clustering.py:911-917) -/
  | findZero (i : Nat)

/-- A new object. -/
def World.add (w : World) (r : Except Err (Heap × PObj)) : World :=
  match r with
  | .error _ => w
  | .ok (h, o) => { w with heap := h, objs := w.objs ++ [o] }

/-- Effect of an operation; exceptions reach the caller, who goes on. -/
def World.step (w : World) : Op → World
  | .mkList l => let (h, refs) := w.heap.alloc l; { w with heap := h, lists := w.lists ++ [refs] }
  | .mutate l pos node ins =>
    match w.lists[l]? with
    | none => w
    | some refs =>
      match refs[pos]? with
      | none => w
      | some a => { w with heap := w.heap.modify a fun s => if ins then insert node s else s.erase node }
  | .newDefault n => w.add (create w.heap n .none)
  | .newFrom n l =>
    match w.lists[l]? with
    | none => w
    | some refs => w.add (create w.heap n (.refs refs))
  | .newDict n items => w.add (create w.heap n (.dict items))
  | .move i node cf =>
    match w.objs[i]? with
    | none => w
    | some o =>
      let r := Sharing.move w.heap o node cf
      { w with heap := r.2.1, objs := w.objs.set i r.2.2 }
  | .clean i =>
    match w.objs[i]? with
    | none => w
    | some o => { w with objs := w.objs.set i (o.clean w.heap) }
  | .find i loops =>
    match w.objs[i]? with
    | none => w
    | some o =>
      if loops = [] then w
      else
        -- network_clustering.py:919-924: a deep copy of the clusters for the meta clustering (a set
        -- that is twice in the list is copied once by Python and twice here)
        let c := w.heap.alloc (o.refs.map w.heap.at)
        match create c.1 o.num (.refs c.2) with
        | .error _ => w
        | .ok (h, mc) =>
          -- network_clustering.py:872-875: the old partition is cleaned in the first loop
          World.add { w with heap := h, objs := w.objs.set i (o.clean h) } (findLoop h o mc loops)
  | .findZero i =>
    match w.objs[i]? with
    | none => w
    | some o =>
      let c := w.heap.alloc [Finset.range o.num]
      { w with heap := c.1 }.add (create c.1 o.num (.refs c.2))

/-- Effect of a list of operations. -/
def World.run (w : World) (ops : List Op) : World := ops.foldl World.step w

end Verif.Sharing
