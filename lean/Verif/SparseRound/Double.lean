import Verif.SparseRound.Props

/-!
# C113 in double precision, and reads outside the arrays
-/

set_option linter.unusedSectionVars false

namespace Verif.SparseRound

open Verif.Partition Verif.Csr Verif.Autocov
open Verif.Louvain (Params listSet)
open Verif.Rounding (Arith FSched exF exPar double fl fl_spec)
open Verif.SparseLouvain (SErr SClu mkS sFindLouvain)

/-- Arithmetic in double precision; sums are computed from left to right. -/
def doubleS : SArith ℚ where
  toArith := double
  mul := fun a b => fl (a * b)
  ofInt := fun i => fl i
  allclose := fun a b => Verif.Autocov.allclose a b
  dup := fun l => l.foldl (fun s x => fl (s + x)) 0

theorem fl_pos {x : ℚ} (h : 0 < x) : 0 < fl x := by
  have h1 := fl_spec x
  rw [abs_of_pos h] at h1
  have h2 := (abs_le.1 h1).1
  have h3 : (1 / 2 ^ 53 : ℚ) * x < 1 * x := mul_lt_mul_of_pos_right (by norm_num) h
  linarith

/-- Double precision adds positive numbers to positive numbers. -/
theorem posAdd_double : PosAdd doubleS where
  zero_add := by
    intro b h
    simp only [doubleS, double, decide_eq_true_eq] at h ⊢
    rw [zero_add]
    exact fl_pos h
  add := by
    intro a b h1 h2
    simp only [doubleS, double, decide_eq_true_eq] at h1 h2 ⊢
    exact fl_pos (add_pos h1 h2)

/-- A stored matrix of five nodes: nodes 0 to 2 exchange, nodes 3 and 4 keep what they have; the
last node has no weight at the start of the interval (`x = 0`) or some. -/
def exPT (x : ℚ) : Csr ℚ :=
  ofRows 5 [[(0, 1 / 16), (1, 3 / 32), (2, 3 / 32)], [(0, 3 / 32), (1, 1 / 16), (2, 3 / 32)],
    [(0, 3 / 32), (1, 3 / 32), (2, 1 / 16)], [(3, 1 / 4)], [(4, x)]]

/-- Weight of the nodes. -/
def exP (x : ℚ) (i : Nat) : ℚ := if i < 4 then 1 / 4 else x

/-- The clustering object with the default partition. -/
def exObj (x : ℚ) : SClu ℚ :=
  ⟨mkAutocov (exPT x) (.vectors (exP x) (exP x)) false,
    removeEmpty ⟨5, singletons 5, dictOf (singletons 5)⟩⟩

theorem exObj_constructed (x : ℚ) : Constructed (exObj x) := by
  refine ⟨⟨exPT x, _, _, ?_, rfl, rfl⟩, rfl⟩
  apply wf_ofRows
  intro r hr e he
  simp only [List.mem_cons, List.not_mem_nil, or_false] at hr
  rcases hr with rfl | rfl | rfl | rfl | rfl <;>
    simp only [List.mem_cons, List.not_mem_nil, or_false] at he
  · rcases he with rfl | rfl | rfl <;> simp
  · rcases he with rfl | rfl | rfl <;> simp
  · rcases he with rfl | rfl | rfl <;> simp
  · rw [he]
    simp
  · rw [he]
    simp

/-- The outcome is the read outside the arrays. -/
def isRead {α : Type} : Except SErr α → Bool
  | .error .read => true
  | _ => false

theorem isRead_iff {α : Type} {r : Except SErr α} (h : isRead r = true) : r = .error .read := by
  unfold isRead at h
  split at h
  · rfl
  · simp at h

/-- **C113.** The last row need not be empty at the start: a node that keeps what it has and
starts with weight zero stores one number, zero.  The first aggregation drops it, and the call
reads outside the arrays, in double precision as well as in exact arithmetic. -/
theorem C113_zero_weight_violated : ∃ c : SClu ℚ, Constructed c ∧
    (∀ i < c.A.PT.nrows, c.A.PT.row i ≠ [] ∧ ∀ e ∈ c.A.PT.row i, 0 ≤ e.2) ∧
    findLouvain doubleS exF (exPar 1000) c = .error .read ∧
    findLouvain (exactS ℚ) exF (exPar 1000) c = .error .read := by
  refine ⟨exObj 0, exObj_constructed 0, by decide +kernel,
    isRead_iff (by decide +kernel), isRead_iff (by decide +kernel)⟩

/-- Non-vacuity for C113: with a positive weight the conditions of the theorem hold and the call
finds three clusters. -/
example : StoredPositive doubleS (exObj (1 / 1024)).A ∧ 0 < (exObj (1 / 1024)).A.PT.nrows ∧
    (match findLouvain doubleS exF (exPar 1000) (exObj (1 / 1024)) with
      | .ok (k, p) => decide (1 ≤ k ∧ p.clusters.length = 3)
      | .error _ => false) = true := by
  refine ⟨?_, by decide +kernel, by decide +kernel⟩
  unfold StoredPositive
  decide +kernel

/-- Two nodes that exchange and a last node about which nothing is stored. -/
def exEmpty : SClu ℚ :=
  ⟨mkAutocov (ofRows 3 [[(0, 1 / 8), (1, 3 / 8)], [(0, 3 / 8), (1, 1 / 8)], []])
    (.vectors (exP 0) (exP 0)) false, removeEmpty ⟨3, singletons 3, dictOf (singletons 3)⟩⟩

/-- Non-vacuity for C113: the conditions of the violation hold of `exEmpty`. -/
example : Constructed exEmpty ∧ 0 < exEmpty.A.PT.nrows ∧
    doubleS.lt (exPar 1000).thr doubleS.one = true ∧ doubleS.le doubleS.one (exPar 1000).thr = false ∧
    2 ≤ (exPar 1000).nSub ∧ fIsAllZeros doubleS exEmpty.A = false ∧ ¬ LastStored exEmpty.A := by
  refine ⟨⟨⟨_, _, _, ?_, rfl, rfl⟩, rfl⟩, by decide +kernel, by decide +kernel, by decide +kernel,
    by decide +kernel, by decide +kernel, ?_⟩
  · apply wf_ofRows
    intro r hr e he
    simp only [List.mem_cons, List.not_mem_nil, or_false] at hr
    rcases hr with rfl | rfl | rfl
    · simp only [List.mem_cons, List.not_mem_nil, or_false] at he
      rcases he with rfl | rfl <;> simp
    · simp only [List.mem_cons, List.not_mem_nil, or_false] at he
      rcases he with rfl | rfl <;> simp
    · simp at he
  · unfold LastStored
    decide +kernel

/-- Non-vacuity for C113: the matrix of the counterexample has more stored entries than pairs of
clusters, and the last row of its aggregation is empty. -/
example : [({0, 1, 2} : Finset Nat), {3}, {4}].length ^ 2 < (exObj 0).A.PT.data.length ∧
    fSubmat doubleS (exObj 0).A.PT [4] [4] = 0 := by
  decide +kernel

end Verif.SparseRound
