import Verif.SparseRound.Exact
import Verif.Rounding.Props

/-!
# C113: the sparse Louvain clustering in machine arithmetic
-/

set_option linter.unusedSectionVars false

namespace Verif.SparseRound

open Verif.Partition Verif.Csr Verif.Autocov
open Verif.Louvain (Params listSet mk'_none mk'_clusterList)
open Verif.Rounding (Arith FSched exF)
open Verif.SparseLouvain (SErr SClu mkS sFindLouvain)

variable {F : Type}

theorem constructed_shape {c : SClu F} (h : Constructed c) : Shape c.A ∧ Consistent c.part ∧
    c.part.numNodes = c.A.PT.nrows ∧ c.part.clusters = singletons c.A.PT.nrows := by
  obtain ⟨⟨PT, w, sym, h1, h2, h3⟩, h4⟩ := h
  obtain ⟨q, hq, a, b, d⟩ := mkS_none c.A
  rw [hq] at h4
  injection h4 with h4
  rw [← h4]
  refine ⟨?_, a, b, d⟩
  show Shape c.A
  rw [h3]
  exact (shape_mk h1 h2 w sym).1

theorem range_partition (n : Nat) : IsPartition n [Finset.range n] := by
  intro v
  constructor
  · intro hv
    refine ⟨0, ⟨_, rfl, Finset.mem_range.2 hv⟩, ?_⟩
    rintro i ⟨cl, hcl, _⟩
    cases i with
    | zero => rfl
    | succ i => simp at hcl
  · rintro hv i ⟨cl, hcl, hm⟩
    cases i with
    | zero =>
      simp at hcl
      subst hcl
      have := Finset.mem_range.1 hm
      omega
    | succ i => simp at hcl

/-- The general form of the statements below. -/
theorem find_any (ar : SArith F) (sc : FSched) (par : Params F) {c : SClu F} (hc : Constructed c)
    (hn : 0 < c.A.PT.nrows) (R : Prop) (hR : R → LastStored c.A)
    (hagg : R → ∀ p, Consistent p → p.numNodes = c.A.PT.nrows → (∀ cl ∈ p.clusters, cl.Nonempty) →
      ∀ k, LastStored (fAggregate ar c.A (p.clusters.map (sc.block k)))) :
    (findLouvain ar sc par c = .error .read ∧ ¬ R) ∨
    ∃ k p, findLouvain ar sc par c = .ok (k, p) ∧ Consistent p ∧ p.numNodes = c.A.PT.nrows ∧
      (∀ cl ∈ p.clusters, cl.Nonempty) ∧ k ≤ par.nMeta + 1 := by
  obtain ⟨hA, h1, h2, h3⟩ := constructed_shape hc
  have hne : ∀ cl ∈ c.part.clusters, cl.Nonempty := by
    rw [h3]
    exact Verif.Louvain.singletons_nonempty _
  have hlen : c.part.clusters.length = c.A.PT.nrows := by
    rw [h3]
    simp [singletons]
  unfold findLouvain
  split
  · rw [mk'_clusterList]
    exact Or.inr ⟨0, _, rfl, consistent_removeEmpty (range_partition _), rfl,
      (removeEmpty_effect _).2, by omega⟩
  · unfold mkS
    rw [mk'_clusterList]
    simp only
    have hcons : Consistent (removeEmpty
        { numNodes := c.A.PT.nrows, clusters := c.part.clusters, dict := dictOf c.part.clusters }) :=
      consistent_removeEmpty (by rw [← h2]; exact h1.1)
    rcases metaLoop_any ar sc par hA R hR hagg (par.nMeta + 3) 0 ar.one false c.part
      (SClu.mk c.A (removeEmpty (Part.mk c.A.PT.nrows c.part.clusters (dictOf c.part.clusters))))
      h1 h2 (by omega) hne (Or.inr ⟨hA, hcons, rfl, le_of_eq hlen, hR⟩) (by omega) (by omega)
      with e | ⟨k, p, a, b, d, e, f⟩
    · exact Or.inl e
    · exact Or.inr ⟨k, p, a, b, d.trans h2, e, f⟩

/-- **C113.** In any arithmetic, for all stored matrices (NaN included), schedules, thresholds
and limits: the call ends within its limits, with a valid partition without empty clusters, or
it reads outside the stored arrays. -/
theorem C113_any_arithmetic_partial (ar : SArith F) (sc : FSched) (par : Params F) (c : SClu F)
    (hc : Constructed c) (hn : 0 < c.A.PT.nrows) :
    findLouvain ar sc par c = .error .read ∨
    ∃ k p, findLouvain ar sc par c = .ok (k, p) ∧ Consistent p ∧ p.numNodes = c.A.PT.nrows ∧
      (∀ cl ∈ p.clusters, cl.Nonempty) ∧ k ≤ par.nMeta + 1 := by
  rcases find_any ar sc par hc hn False False.elim False.elim with ⟨e, _⟩ | h
  · exact Or.inl e
  · exact Or.inr h

/-- **C113.** It never reads outside the arrays when every row stores a number, all stored
numbers are positive and adding positive numbers gives positive numbers. -/
theorem C113_safe_partial (ar : SArith F) (hp : PosAdd ar) (sc : FSched) (par : Params F) (c : SClu F)
    (hc : Constructed c) (hn : 0 < c.A.PT.nrows) (hs : StoredPositive ar c.A) :
    ∃ k p, findLouvain ar sc par c = .ok (k, p) ∧ Consistent p ∧ p.numNodes = c.A.PT.nrows ∧
      (∀ cl ∈ p.clusters, cl.Nonempty) ∧ k ≤ par.nMeta + 1 := by
  obtain ⟨hA, _⟩ := constructed_shape hc
  rcases find_any ar sc par hc hn True (fun _ => (hs _ (by omega)).1) (by
    intro _ p h1 h2 h3 k
    have hg : IsGrouping c.A.PT.nrows (p.clusters.map (sc.block k)) := by
      rw [← h2]
      exact isGrouping_lists h1.1 _ (sc.block_nodup k) (sc.mem_block k)
    apply aggregate_stored ar hp hA hs hg
    · intro g hg
      rw [List.mem_map] at hg
      obtain ⟨cl, hcl, rfl⟩ := hg
      obtain ⟨x, hx⟩ := h3 cl hcl
      exact List.ne_nil_of_mem ((sc.mem_block k cl x).2 hx)
    · by_contra h0
      have : p.clusters.map (sc.block k) = [] := List.eq_nil_of_length_eq_zero (by omega)
      rw [this] at hg
      have := hg.length_eq
      simp at this
      omega) with ⟨_, e⟩ | h
  · exact absurd trivial e
  · exact h

/-- **C113.** A node-moving phase reads outside the arrays exactly when the last row of its
object stores nothing. -/
theorem C113_phase_iff (ar : SArith F) (sc : FSched) (m : Nat) (thr : F) (nSub : Nat) (c : SClu F)
    (hc : Constructed c) (hn : 0 < c.A.PT.nrows) (hthr : ar.lt thr ar.one = true) (hsub : 2 ≤ nSub) :
    moveNodes ar sc m thr nSub c (nSub + 1) = .error .read ↔ ¬ LastStored c.A := by
  obtain ⟨hA, h1, h2, _⟩ := constructed_shape hc
  constructor
  · intro h
    rcases moveLoop_any (K := ℚ) ar sc m thr nSub hA (fun _ => 0) 0 le_rfl
      (fun _ _ _ _ _ _ _ _ _ => by simp) (fun _ => rfl) (nSub + 1) 1 ar.one ar.zero h1 h2 (by omega)
      with ⟨_, e⟩ | ⟨d, k, p, e, _⟩
    · exact e
    · unfold moveNodes at h
      rw [e] at h
      simp at h
  · intro h
    exact moveLoop_read ar sc m thr nSub hA hn h nSub 1 ar.one ar.zero h1 h2 ⟨hthr, by omega⟩

/-- **C113.** Whatever the arithmetic: when the last row stores nothing, the call reads outside
the arrays, unless all stored numbers pass for zero covariances. -/
theorem C113_empty_last_violated (ar : SArith F) (sc : FSched) (par : Params F) (c : SClu F)
    (hc : Constructed c) (hn : 0 < c.A.PT.nrows) (hthr : ar.lt par.thr ar.one = true)
    (hle : ar.le ar.one par.thr = false) (hsub : 2 ≤ par.nSub) (hz : fIsAllZeros ar c.A = false)
    (hl : ¬ LastStored c.A) : findLouvain ar sc par c = .error .read := by
  obtain ⟨hA, h1, h2, h3⟩ := constructed_shape hc
  have hcons : Consistent (removeEmpty
      { numNodes := c.A.PT.nrows, clusters := c.part.clusters, dict := dictOf c.part.clusters }) :=
    consistent_removeEmpty (by rw [← h2]; exact h1.1)
  have hm : moveNodes ar sc 1 par.thr par.nSub (SClu.mk c.A (removeEmpty
      (Part.mk c.A.PT.nrows c.part.clusters (dictOf c.part.clusters)))) (par.nSub + 1) = .error .read :=
    moveLoop_read ar sc 1 par.thr par.nSub hA hn hl par.nSub 1 ar.one ar.zero hcons rfl
      ⟨hthr, by omega⟩
  unfold findLouvain
  rw [hz]
  simp only [Bool.false_eq_true, if_false]
  unfold mkS
  rw [mk'_clusterList]
  simp only [metaLoop]
  rw [if_neg (by simp [hle]), hm]

/-- **C113.** Aggregation can empty the last row: when the number of stored entries exceeds the
square of the number of clusters, the last row of the aggregated matrix stores something only
if one of the sums over the last cluster is positive. -/
theorem C113_dropped_row_iff (ar : SArith F) (A : Autocov F) (cl : List (Finset Nat))
    (lst : Finset Nat → List Nat) (hpos : 0 < cl.length) (hbig : cl.length ^ 2 < A.PT.data.length) :
    LastStored (fAggregate ar A (cl.map lst)) ↔ ∃ b < cl.length, ar.lt ar.zero (fSubmat ar A.PT
      ((cl.map lst).getD (cl.length - 1) []) ((cl.map lst).getD b [])) = true := by
  unfold LastStored
  rw [(shape_fAggregate ar A (cl.map lst)).2, List.length_map]
  obtain ⟨hw, hr, _⟩ := wf_fAggregatePT ar A.PT (cl.map lst)
  rw [List.length_map] at hr
  unfold fAggregate
  rw [row_mk_nonempty hw _ _ (by omega)]
  unfold fAggregatePT
  rw [List.length_map, if_pos hbig]
  unfold fAggregate1
  rw [row_ofRows_map _ _ _ _ (by rw [List.length_map]; omega), List.length_map]
  constructor
  · intro h
    obtain ⟨e, he⟩ := List.exists_mem_of_ne_nil _ h
    rw [List.mem_filterMap] at he
    obtain ⟨b, hb, he⟩ := he
    refine ⟨b, List.mem_range.1 hb, ?_⟩
    by_contra hno
    rw [if_neg hno] at he
    cases he
  · rintro ⟨b, hb, hlt⟩
    apply List.ne_nil_of_mem (a := (b, _))
    rw [List.mem_filterMap]
    exact ⟨b, List.mem_range.2 hb, by rw [if_pos hlt]⟩

variable {K : Type} [Field K] [LinearOrder K] [IsStrictOrderedRing K]

/-- **C113.** With exact arithmetic the run is the one of the exact model, whatever the orders in
which sets are listed: the statements of C69 are about the same program. -/
theorem C113_exact (sc : FSched) (par : Params K) (c : SClu K) :
    findLouvain (exactS K) sc par c = sFindLouvain sc.toSched par c := by
  unfold findLouvain sFindLouvain
  have hz : fIsAllZeros (exactS K) c.A = c.A.isAllZeros := by
    unfold fIsAllZeros Autocov.isAllZeros Weights.p0
    cases c.A.w with
    | scalars a b => rfl
    | vectors p1 p2 => rfl
  rw [hz]
  split
  · rfl
  · cases mkS c.A (.clusterList c.part.clusters) with
    | error e => rfl
    | ok mc => exact metaLoop_exact sc par c.A (par.nMeta + 3) 0 1 false c.part mc

/-- Exact arithmetic adds positive numbers to positive numbers. -/
theorem posAdd_exact : PosAdd (exactS K) where
  zero_add := by
    intro b h
    simpa [exactS] using h
  add := by
    intro a b h1 h2
    simp only [exactS, decide_eq_true_eq] at h1 h2 ⊢
    exact add_pos h1 h2

end Verif.SparseRound
