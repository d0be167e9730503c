import Verif.Scripts.CompSpec
import Verif.SparseLouvain.Isolated

/-!
# One piece: the covariance of a component with a meta node for the rest
-/

set_option linter.unusedSectionVars false

namespace Verif.Comps

open Verif.Partition Verif.Autocov Verif.SparseLouvain Verif.Csr
open Verif.Louvain (Sched Params listSet mem_listSet listSet_nodup)

variable {K : Type} [Field K] [LinearOrder K] [IsStrictOrderedRing K]

theorem list_sum_nonpos (l : List K) (h : ∀ x ∈ l, x ≤ 0) : l.sum ≤ 0 := by
  induction l with
  | nil => simp
  | cons a l ih =>
    rw [List.sum_cons]
    exact add_nonpos (h a (by simp)) (ih fun x hx => h x (by simp [hx]))

theorem mem_compNodes {n : Nat} {label : Nat → Nat} {c v : Nat} :
    v ∈ compNodes n label c ↔ v < n ∧ label v = c := by
  unfold compNodes
  rw [List.mem_filter, List.mem_range]
  simp

theorem mem_restNodes {n : Nat} {label : Nat → Nat} {c v : Nat} :
    v ∈ restNodes n label c ↔ v < n ∧ label v ≠ c := by
  unfold restNodes
  rw [List.mem_filter, List.mem_range]
  simp

theorem nodup_compNodes (n : Nat) (label : Nat → Nat) (c : Nat) : (compNodes n label c).Nodup :=
  List.nodup_range.filter _

theorem isGrouping_idxList (n : Nat) (label : Nat → Nat) (c : Nat) :
    IsGrouping n (idxList n label c) := by
  unfold IsGrouping idxList
  rw [List.flatten_cons]
  have : ((compNodes n label c).map fun i => [i]).flatten = compNodes n label c := by
    induction compNodes n label c with
    | nil => rfl
    | cons a l ih => simpa using ih
  rw [this]
  unfold restNodes compNodes
  exact List.perm_append_comm.trans (List.filter_append_perm _ _)

theorem length_idxList (n : Nat) (label : Nat → Nat) (c : Nat) :
    (idxList n label c).length = (compNodes n label c).length + 1 := by
  simp [idxList]

theorem idxList_zero (n : Nat) (label : Nat → Nat) (c : Nat) :
    (idxList n label c).getD 0 [] = restNodes n label c := rfl

theorem idxList_succ (n : Nat) (label : Nat → Nat) (c k : Nat)
    (hk : k < (compNodes n label c).length) :
    (idxList n label c).getD (k + 1) [] = [(compNodes n label c)[k]] := by
  simp [idxList, List.getD_eq_getElem?_getD, hk]

/-- The stored values of a piece are sums of stored values. -/
theorem val_idxList {A : Autocov K} (f : Fit0 A) (label : Nat → Nat) (c : Nat)
    (a b : Nat) (ha : a < (idxList A.PT.nrows label c).length)
    (hb : b < (idxList A.PT.nrows label c).length) :
    (A.aggregate (idxList A.PT.nrows label c)).PT.val a b =
      pairSum A.PT.val ((idxList A.PT.nrows label c).getD a [])
        ((idxList A.PT.nrows label c).getD b []) := by
  have hg := isGrouping_idxList A.PT.nrows label c
  obtain ⟨w1, w2, _, _⟩ := shape_aggregatePT A.PT (idxList A.PT.nrows label c)
  show (sortIndices (aggregatePT A.PT _)).val a b = _
  rw [val_sortIndices w1 _ _ (by rw [w2]; exact ha),
    val_aggregatePT f.good.wf rfl f.good.square hg (by
      intro a ha b _
      apply pairSum_nonneg
      intro i hi j _
      exact val_nonneg f.tight i j (group_lt hg a i ha hi)) a b ha hb]

/-- The pieces are fit for the search. -/
theorem fit0_piece {A : Autocov K} (f : Fit0 A) (label : Nat → Nat) (c : Nat) :
    Fit0 (A.aggregate (idxList A.PT.nrows label c)) ∧
      (A.aggregate (idxList A.PT.nrows label c)).PT.nrows
        = (compNodes A.PT.nrows label c).length + 1 ∧
      ∀ a < (idxList A.PT.nrows label c).length, ∀ b < (idxList A.PT.nrows label c).length,
        (A.aggregate (idxList A.PT.nrows label c)).toarray a b =
          pairSum A.toarray ((idxList A.PT.nrows label c).getD a [])
            ((idxList A.PT.nrows label c).getD b []) := by
  have hg := isGrouping_idxList A.PT.nrows label c
  have hvpos : ∀ a < (idxList A.PT.nrows label c).length,
      ∀ b < (idxList A.PT.nrows label c).length,
      0 ≤ pairSum A.PT.val ((idxList A.PT.nrows label c).getD a [])
        ((idxList A.PT.nrows label c).getD b []) := by
    intro a ha b _
    apply pairSum_nonneg
    intro i hi j _
    exact val_nonneg f.tight i j (group_lt hg a i ha hi)
  obtain ⟨g1, g2, g3⟩ := good_aggregate A f.good f.sym hg hvpos
  obtain ⟨w1, w2, w3, w4⟩ := shape_aggregatePT A.PT (idxList A.PT.nrows label c)
  have hlen := length_idxList A.PT.nrows label c
  have hagg : ∀ p : Nat → K, ∑ i ∈ Finset.range A.PT.nrows, p i = 1 →
      ∑ a ∈ Finset.range (idxList A.PT.nrows label c).length,
        aggregateP p (idxList A.PT.nrows label c) a = 1 := by
    intro p hp
    have h1 : ∀ a ∈ Finset.range (idxList A.PT.nrows label c).length,
        aggregateP p (idxList A.PT.nrows label c) a =
          (((idxList A.PT.nrows label c).getD a []).map p).sum := fun a _ =>
      aggregateP_eq hg p hp a
    rw [Finset.sum_congr rfl h1]
    have h2 := sum_groups hg p
    rw [hp] at h2
    rw [← h2]
    exact (Verif.Louvain.sum_map_getD (idxList A.PT.nrows label c) (fun g => (g.map p).sum) []).symm
  have hnorm : Normalised (A.aggregate (idxList A.PT.nrows label c)).PT.nrows
      (A.aggregate (idxList A.PT.nrows label c)).w := by
    rw [g3]
    have hnn := f.norm
    unfold Autocov.aggregate mkAutocov
    have hn1 : (A.PT.nrows : K) ≠ 0 := by exact_mod_cast f.pos.ne'
    cases hw : A.w with
    | scalars a b =>
      have hu : ∑ i ∈ Finset.range A.PT.nrows, (fun _ : Nat => 1 / (A.PT.nrows : K)) i = 1 := by
        rw [Finset.sum_const, Finset.card_range, nsmul_eq_mul, mul_one_div, div_self hn1]
      exact ⟨hagg _ hu, hagg _ hu⟩
    | vectors p1 p2 =>
      rw [hw] at hnn
      exact ⟨hagg _ hnn.1, hagg _ hnn.2⟩
  refine ⟨⟨g1, g2, hnorm, ?_, by rw [g3, hlen]; omega⟩, by rw [g3, hlen], ?_⟩
  · unfold Autocov.aggregate
    exact tight_mk _ _ _ w1 (by rw [w2, w3]) (rows_aggregatePT f.tight.rows _)
  · intro a ha b hb
    exact toarray_aggregate A f.good hg f.pos f.norm hvpos a b ha hb

/-- Covariance between two nodes of the component. -/
theorem toarray_piece {A : Autocov K} (f : Fit0 A) (label : Nat → Nat) (c k l : Nat)
    (hk : k < (compNodes A.PT.nrows label c).length)
    (hl : l < (compNodes A.PT.nrows label c).length) :
    (A.aggregate (idxList A.PT.nrows label c)).toarray (k + 1) (l + 1) =
      A.toarray (compNodes A.PT.nrows label c)[k] (compNodes A.PT.nrows label c)[l] := by
  rw [(fit0_piece f label c).2.2 (k + 1) (by rw [length_idxList]; omega) (l + 1)
    (by rw [length_idxList]; omega), idxList_succ _ _ _ _ hk, idxList_succ _ _ _ _ hl]
  simp [pairSum]

/-- An edge joins nodes of the same component. -/
theorem edge_label {A : Autocov K} {label : Nat → Nat} (hc : Comps A label) {i j : Nat}
    (hi : i < A.PT.nrows) (hj : j < A.PT.nrows) (h : label i ≠ label j) : ¬ 0 < A.PT.val i j :=
  fun hp => h ((hc.same i hi j hj).2 (Relation.EqvGen.rel _ _ ⟨hi, hj, hp⟩))

/-- A node with an empty row is alone in its component. -/
theorem alone_of_empty {A : Autocov K} (hA : Loaded A) {label : Nat → Nat} (hc : Comps A label)
    {i j : Nat} (hi : i < A.PT.nrows) (hj : j < A.PT.nrows) (hrow : A.PT.row i = [])
    (h : label i = label j) : i = j := by
  have hv : ∀ k, ¬ 0 < A.PT.val i k := fun k hp => row_ne_of_val hp hrow
  have hv' : ∀ k < A.PT.nrows, ¬ 0 < A.PT.val k i := by
    intro k hk
    rw [hA.fit.sym hA.flag k i hk hi]
    exact hv k
  have key : ∀ a b, Relation.EqvGen (Edge A) a b → (a = i ↔ b = i) := by
    intro a b hab
    induction hab with
    | rel a b h =>
      obtain ⟨ha, hb, hp⟩ := h
      constructor
      · rintro rfl
        exact absurd hp (hv b)
      · rintro rfl
        exact absurd hp (hv' a ha)
    | refl a => exact Iff.rfl
    | symm a b _ ih => exact ih.symm
    | trans a b c _ _ ih1 ih2 => exact ih1.trans ih2
  exact ((key i j ((hc.same i hi j hj).1 h)).1 rfl).symm

/-- In a piece the meta node exchanges nothing with the component. -/
theorem iso_piece {A : Autocov K} (hA : Loaded A) {label : Nat → Nat} (hc : Comps A label) (c : Nat)
    (h1 : 1 < (compNodes A.PT.nrows label c).length) :
    Iso (A.aggregate (idxList A.PT.nrows label c)) := by
  obtain ⟨f', hn, _⟩ := fit0_piece hA.fit label c
  have hlen := length_idxList A.PT.nrows label c
  refine ⟨by rw [hn]; omega, ?_, ?_⟩
  · intro a ha ha0
    rw [hn] at ha
    obtain ⟨k, rfl⟩ : ∃ k, a = k + 1 := ⟨a - 1, by omega⟩
    have hk : k < (compNodes A.PT.nrows label c).length := by omega
    have hkm := mem_compNodes.1 (List.getElem_mem hk)
    have hrow : A.PT.row (compNodes A.PT.nrows label c)[k] ≠ [] := by
      intro hrow
      have hall : ∀ l (hl : l < (compNodes A.PT.nrows label c).length), k = l := by
        intro l hl
        have hlm := mem_compNodes.1 (List.getElem_mem hl)
        have := alone_of_empty hA hc hkm.1 hlm.1 hrow (hkm.2.trans hlm.2.symm)
        exact (nodup_compNodes A.PT.nrows label c).getElem_inj_iff.1 this
      have e0 := hall 0 (by omega)
      have e1 := hall 1 h1
      omega
    obtain ⟨j, hj, hp⟩ := row_pos0 hA.fit _ hkm.1 hrow
    have hjl : label j = c := by
      by_contra hne
      exact edge_label hc hkm.1 hj (by rw [hkm.2]; exact fun h => hne h.symm) hp
    obtain ⟨l, hl, hlj⟩ := List.getElem_of_mem (mem_compNodes.2 ⟨hj, hjl⟩)
    apply row_ne_of_val (j := l + 1)
    rw [val_idxList hA.fit label c _ _ (by omega) (by omega), idxList_succ _ _ _ _ hk,
      idxList_succ _ _ _ _ hl, hlj]
    simpa [pairSum] using hp
  · intro b hb hb0
    rw [hn] at hb
    obtain ⟨k, rfl⟩ : ∃ k, b = k + 1 := ⟨b - 1, by omega⟩
    have hk : k < (compNodes A.PT.nrows label c).length := by omega
    have hkm := mem_compNodes.1 (List.getElem_mem hk)
    rw [val_idxList hA.fit label c _ _ (by omega) (by omega),
      val_idxList hA.fit label c _ _ (by omega) (by omega), idxList_succ _ _ _ _ hk, idxList_zero]
    have hz : ∀ i ∈ restNodes A.PT.nrows label c,
        A.PT.val i (compNodes A.PT.nrows label c)[k] ≤ 0 ∧
        A.PT.val (compNodes A.PT.nrows label c)[k] i ≤ 0 := by
      intro i hi
      rw [mem_restNodes] at hi
      exact ⟨not_lt.1 (edge_label hc hi.1 hkm.1 (by rw [hkm.2]; exact hi.2)),
        not_lt.1 (edge_label hc hkm.1 hi.1 (by rw [hkm.2]; exact fun h => hi.2 h.symm))⟩
    constructor
    · rw [not_lt]
      unfold pairSum
      apply list_sum_nonpos
      intro x hx
      rw [List.mem_map] at hx
      obtain ⟨i, hi, rfl⟩ := hx
      simpa using (hz i hi).1
    · rw [not_lt]
      unfold pairSum
      simp only [List.map_cons, List.map_nil, List.sum_cons, List.sum_nil, add_zero]
      apply list_sum_nonpos
      intro x hx
      rw [List.mem_map] at hx
      obtain ⟨i, hi, rfl⟩ := hx
      exact (hz i hi).2

end Verif.Comps
