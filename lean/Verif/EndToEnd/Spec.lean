import Verif.TempNet.Spec
import Verif.Trans.Expm
import Verif.Flow.Spec

/-!
# The whole pipeline: vocabulary of the statements

Independent of the models: contacts between labels, the random walk on them, and the covariance
of the flow.  Of the other specifications `walkLaplacian`, the matrix exponential `expm`,
`flowSteps` and `meanCov` are used.
-/

set_option linter.dupNamespace false

namespace Verif.EndToEnd

open Verif.TempNet Verif.Trans Verif.Flow

variable {L : Type} [LinearOrder L]

/-- Contacts that last, between different labels, where the contacts of a pair do not overlap. -/
structure GoodContacts (evs : List (Event L ℝ)) : Prop where
  nonempty : evs ≠ []
  lasting : ∀ e ∈ evs, e.start < e.stop
  different : ∀ e ∈ evs, e.src ≠ e.tgt
  separate : evs.Pairwise fun e f =>
    ((e.src = f.src ∧ e.tgt = f.tgt) ∨ (e.src = f.tgt ∧ e.tgt = f.src)) → e.stop ≤ f.start ∨ f.stop ≤ e.start

/-- `nodes` lists the labels of the contacts in increasing order. -/
def NodesOf (evs : List (Event L ℝ)) (nodes : List L) : Prop :=
  nodes.Pairwise (· < ·) ∧ ∀ l, l ∈ nodes ↔ ∃ e ∈ evs, l = e.src ∨ l = e.tgt

/-- `times` lists the starting and ending times of the contacts in increasing order. -/
def TimesOf (evs : List (Event L ℝ)) (times : List ℝ) : Prop :=
  times.Pairwise (· < ·) ∧ ∀ t, t ∈ times ↔ ∃ e ∈ evs, t = e.start ∨ t = e.stop

/-- The `i`-th and the `j`-th label are in contact at time `u`. -/
def InContact (evs : List (Event L ℝ)) (nodes : List L) (u : ℝ) (i j : Nat) : Prop :=
  ∃ e ∈ evs, e.start ≤ u ∧ u < e.stop ∧
    ((nodes[i]? = some e.src ∧ nodes[j]? = some e.tgt) ∨ (nodes[j]? = some e.src ∧ nodes[i]? = some e.tgt))

/-- Transition of the random walk with waiting time `scale` from the `k`-th to the next time:
walkers leave their node at rate `1 / scale` and go to a node in contact with it. -/
noncomputable def walkStep (evs : List (Event L ℝ)) (nodes : List L) (times : List ℝ) (scale : ℝ) (k : Nat) : Mat ℝ :=
  expm nodes.length fun a b =>
    -((times.getD (k + 1) 0 - times.getD k 0) * (1 / scale)) *
      walkLaplacian nodes.length (InContact evs nodes (times.getD k 0)) a b

/-- Mean over time of the covariances of the walk that starts at all nodes with equal
probability, at the first time, or backward at the last one. -/
noncomputable def flowCov (evs : List (Event L ℝ)) (nodes : List L) (times : List ℝ) (scale : ℝ) (reverse : Bool) : Mat ℝ :=
  let Ms := (List.range (times.length - 1)).map (walkStep evs nodes times scale)
  meanCov nodes.length (fun _ => 1 / (nodes.length : ℝ)) (flowSteps nodes.length reverse Ms times Ms.length)

/-- Transition of the walk over the whole time, backward from the last to the first. -/
noncomputable def walkOver (evs : List (Event L ℝ)) (nodes : List L) (times : List ℝ) (scale : ℝ) (reverse : Bool) : Mat ℝ :=
  let Ms := (List.range (times.length - 1)).map (walkStep evs nodes times scale)
  prod nodes.length (if reverse then Ms.reverse else Ms)

/-- Sum of `S` over the ordered pairs of nodes that are in the same cluster. -/
noncomputable def within (n : Nat) (S : Mat ℝ) (cl : List (Finset Nat)) : ℝ :=
  open Classical in
  ∑ i ∈ Finset.range n, ∑ j ∈ Finset.range n, if ∃ c ∈ cl, i ∈ c ∧ j ∈ c then S i j else 0

/-- `cl` sorts the labels into communities for the flow covariance `S`: every label is in exactly
one cluster, and the covariance within the clusters is not smaller than that of single nodes,
except if all covariances are negligible. -/
structure Communities (nodes : List L) (S : Mat ℝ) (cl : List (Finset Nat)) : Prop where
  covered : ∀ i < nodes.length, ∃! c, c < cl.length ∧ i ∈ cl.getD c ∅
  only : ∀ c ∈ cl, ∀ i ∈ c, i < nodes.length
  better : (∃ i < nodes.length, ∃ j < nodes.length, (1 / 10 ^ 6) / (nodes.length : ℝ) ^ 2 ≤ |S i j|) →
    ∑ i ∈ Finset.range nodes.length, S i i ≤ within nodes.length S cl
  close : ∑ i ∈ Finset.range nodes.length, S i i - 2 / 10 ^ 6 ≤ within nodes.length S cl

end Verif.EndToEnd
