import Verif.Sharing.Model

/-!
# Specification of independence

Independently of the heap: a partition should change only when something is done to it, and then as
the description of a single partition in `Verif.Partition.Model` says.
-/

namespace Verif.Sharing

/-- What an operation of the program does to the partition with number `j`, by the documentation:
moves and removals of empty clusters of `j` itself; `find_louvain_clustering` removes the empty
clusters of the partition it starts from. -/
def own (j : Nat) : Op → List Partition.Op
  | .move i v c => if i = j then [.move v c] else []
  | .clean i => if i = j then [.removeEmpty] else []
  | .find i loops => if i = j ∧ loops ≠ [] then [.removeEmpty] else []
  | _ => []

/-- The operation uses the list `l` of the caller: it builds a partition from it or changes one of
its sets. -/
def usesList (l : Nat) : Op → Prop
  | .newFrom _ l' => l' = l
  | .mutate l' _ _ _ => l' = l
  | _ => False

/-- The operation moves a node, or is a change of a set by the caller. -/
def moves : Op → Prop
  | .move .. => True
  | .mutate .. => True
  | _ => False

/-- What the caller sees in list `l`. -/
def World.listView (w : World) (l : Nat) : Option (List (Finset Nat)) :=
  (w.lists[l]?).map (·.map w.heap.at)

/-- What is seen of partition `j`. -/
def World.view (w : World) (j : Nat) : Option Partition.Part := (w.objs[j]?).map (·.view w.heap)

end Verif.Sharing
