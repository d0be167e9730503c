import Verif.SparseRound.Lemmas
import Verif.SparseLouvain.Props

/-!
# With exact arithmetic the run is the one of the exact model
-/

set_option linter.unusedSectionVars false

namespace Verif.SparseRound

open Verif.Partition Verif.Csr Verif.Autocov
open Verif.Louvain (Params getCluster potentialNewClusters updatePart listSet)
open Verif.Rounding (Arith FSched)
open Verif.SparseLouvain

variable {K : Type} [Field K] [LinearOrder K] [IsStrictOrderedRing K]

/-- What the search adds to the sum. -/
def addend : Option K → K
  | none => 0
  | some d => d

theorem fScanDiag_exact (k m : Nat) (l : List (Nat × K)) :
    (scanDiag k m l = .error .outOfBounds ∧ fScanDiag k m l = .error .read) ∨
    ∃ o, fScanDiag k m l = .ok o ∧ scanDiag k m l = .ok (addend o) := by
  induction l generalizing m with
  | nil => exact Or.inl ⟨rfl, rfl⟩
  | cons e l ih =>
    rw [fScanDiag, scanDiag]
    split
    · exact ih _
    · split
      · exact Or.inr ⟨_, rfl, rfl⟩
      · exact Or.inr ⟨_, rfl, rfl⟩

theorem addDiag_exact (s : K) (o : Option K) : addDiag (exactS K) s o = s + addend o := by
  cases o with
  | none => simp [addDiag, addend]
  | some d => rfl

theorem mem_idx {r : List (Nat × K)} {idx idx' : List Nat} (h : ∀ x, x ∈ idx ↔ x ∈ idx') (s : K) :
    addIn (exactS K) r idx s = r.foldl (fun s e => if e.1 ∈ idx' then s + e.2 else s) s := by
  unfold addIn
  simp only [h]
  rfl

theorem mem_idx_sub {r : List (Nat × K)} {idx idx' : List Nat} (h : ∀ x, x ∈ idx ↔ x ∈ idx') (s : K) :
    subIn (exactS K) r idx s = r.foldl (fun s e => if e.1 ∈ idx' then s - e.2 else s) s := by
  unfold subIn
  simp only [h]
  rfl

theorem fDeltaTo_exact (A : Autocov K) (k : Nat) {idx idx' : List Nat} (h : idx.Perm idx') :
    fDeltaTo (exactS K) A k idx = match A.deltaTo k idx' with
      | .error _ => .error .read
      | .ok d => .ok d := by
  have hmem : ∀ x, x ∈ idx ↔ x ∈ idx' := fun x => h.mem_iff
  unfold fDeltaTo Autocov.deltaTo deltaPTto readDiag fReadDiag
  rcases fScanDiag_exact k (A.PT.indptr.getD (k + 1) 0 - A.PT.indptr.getD k 0 - 1)
    ((A.PT.indices.zip A.PT.data).drop (A.PT.indptr.getD k 0)) with ⟨h1, h2⟩ | ⟨o, h1, h2⟩
  · rw [h1, h2]
  · rw [h1, h2]
    simp only
    rw [addDiag_exact, mem_idx hmem, mem_idx hmem]
    cases A.w with
    | scalars a b =>
      simp only [h.length_eq]
      congr 1
      simp [exactS]
    | vectors p1 p2 =>
      simp only
      congr 1
      simp only [exactS]
      rw [foldl_sub_p, foldl_sub_p, (h.map fun i => p1 k * p2 i).sum_eq, (h.map fun i => p1 i * p2 k).sum_eq]

theorem fDeltaOut_exact (A : Autocov K) (k : Nat) {idx idx' : List Nat} (h : idx.Perm idx') :
    fDeltaOut (exactS K) A k idx = match A.deltaOut k idx' with
      | .error _ => .error .read
      | .ok d => .ok d := by
  have hmem : ∀ x, x ∈ idx ↔ x ∈ idx' := fun x => h.mem_iff
  unfold fDeltaOut Autocov.deltaOut deltaPTout readDiag fReadDiag
  rcases fScanDiag_exact k (A.PT.indptr.getD (k + 1) 0 - A.PT.indptr.getD k 0 - 1)
    ((A.PT.indices.zip A.PT.data).drop (A.PT.indptr.getD k 0)) with ⟨h1, h2⟩ | ⟨o, h1, h2⟩
  · rw [h1, h2]
  · rw [h1, h2]
    simp only
    rw [addDiag_exact, mem_idx_sub hmem, mem_idx_sub hmem]
    cases A.w with
    | scalars a b =>
      simp only [h.length_eq]
      congr 1
      simp [exactS]
    | vectors p1 p2 =>
      simp only
      congr 1
      simp only [exactS]
      rw [foldl_add_p, foldl_add_p, (h.map fun i => p1 k * p2 i).sum_eq, (h.map fun i => p1 i * p2 k).sum_eq]

theorem perm_listSet (lst : Finset Nat → List Nat) (hnd : ∀ c, (lst c).Nodup)
    (hmem : ∀ c x, x ∈ lst c ↔ x ∈ c) (c : Finset Nat) : (lst c).Perm (listSet c) := by
  rw [List.perm_ext_iff_of_nodup (hnd c) (Verif.Louvain.listSet_nodup c)]
  intro x
  rw [hmem, Verif.Louvain.mem_listSet]

variable (lst : Finset Nat → List Nat)

theorem deltaTo_exact (hnd : ∀ c, (lst c).Nodup) (hmem : ∀ c x, x ∈ lst c ↔ x ∈ c) (A : Autocov K)
    (p : Part) (k : Nat) (cf : Int) : deltaTo (exactS K) A lst p k cf = sDeltaTo A p k cf := by
  unfold deltaTo sDeltaTo
  cases getCluster p cf with
  | error e => rfl
  | ok c =>
    simp only
    split
    · rfl
    · exact fDeltaTo_exact A k (perm_listSet lst hnd hmem c)

theorem deltaOut_exact (hnd : ∀ c, (lst c).Nodup) (hmem : ∀ c x, x ∈ lst c ↔ x ∈ c) (A : Autocov K)
    (p : Part) (k : Nat) (ci : Int) : deltaOut (exactS K) A lst p k ci = sDeltaOut A p k ci := by
  unfold deltaOut sDeltaOut
  cases getCluster p ci with
  | error e => rfl
  | ok c =>
    simp only
    split
    · rfl
    · exact fDeltaOut_exact A k (perm_listSet lst hnd hmem c)

theorem scan_exact (hnd : ∀ c, (lst c).Nodup) (hmem : ∀ c x, x ∈ lst c ↔ x ∈ c) (A : Autocov K)
    (p : Part) (node : Nat) (ci : Int) (rOut : K) (l : List Int) (best : K) (c : Int) :
    scan (exactS K) A lst p node ci rOut l best c = sScan A p node ci rOut l best c := by
  induction l generalizing best c with
  | nil => rfl
  | cons x l ih =>
    rw [scan, sScan]
    split
    · rw [deltaTo_exact lst hnd hmem]
      cases sDeltaTo A p node x with
      | error e => rfl
      | ok r =>
        simp only
        have e : ((exactS K).le best ((exactS K).add rOut r) = true) ↔ best ≤ rOut + r := by
          simp [exactS]
        by_cases hb : best ≤ rOut + r
        · rw [if_pos (e.2 hb), if_pos hb]
          exact ih _ _
        · rw [if_neg (fun h => hb (e.1 h)), if_neg hb]
          exact ih _ _
    · exact ih _ _

/-- The gain added for a visit. -/
def gainOf : Option K × Part → K × Part
  | (none, p) => (0, p)
  | (some g, p) => (g, p)

theorem visit_exact (hnd : ∀ c, (lst c).Nodup) (hmem : ∀ c x, x ∈ lst c ↔ x ∈ c) (A : Autocov K)
    (it : Finset Int → List Int) (p : Part) (node : Nat) :
    sVisit A it p node = (visit (exactS K) A it lst p node).map gainOf := by
  unfold visit sVisit
  cases p.dict node with
  | none => rfl
  | some ci =>
    simp only [deltaOut_exact lst hnd hmem]
    cases sDeltaOut A p node ci with
    | error e => rfl
    | ok r =>
      simp only
      cases potentialNewClusters p (sneighs A node) node with
      | error e => rfl
      | ok cs =>
        simp only [scan_exact lst hnd hmem]
        have h0 : (exactS K).zero = 0 := rfl
        rw [h0]
        cases sScan A p node ci r (it cs) 0 ci with
        | error e => rfl
        | ok bc =>
          obtain ⟨b, c⟩ := bc
          simp only
          split
          · cases hm : moveNode p node c with
            | mk o p' =>
              cases o with
              | none => rfl
              | some e => rfl
          · rfl

theorem sweep_exact (A : Autocov K) (it : Nat → Finset Int → List Int)
    (lst : Nat → Finset Nat → List Nat) (hnd : ∀ v c, (lst v c).Nodup)
    (hmem : ∀ v c x, x ∈ lst v c ↔ x ∈ c) (l : List Nat) (d : K) (p : Part) :
    sweep (exactS K) A it lst l d p = sSweep A it l d p := by
  induction l generalizing d p with
  | nil => rfl
  | cons v l ih =>
    rw [sweep, sSweep, visit_exact (lst v) (hnd v) (hmem v)]
    cases visit (exactS K) A (it v) (lst v) p v with
    | error e => rfl
    | ok r =>
      obtain ⟨o, p'⟩ := r
      cases o with
      | none =>
        simp only [Except.map, gainOf, add_zero]
        exact ih _ _
      | some g =>
        simp only [Except.map, gainOf]
        exact ih _ _

theorem moveLoop_exact (sc : FSched) (m : Nat) (thr : K) (nSub : Nat) (A : Autocov K)
    (steps nLoop : Nat) (dLoop dTot : K) (p : Part) :
    moveLoop (exactS K) sc m thr nSub A steps nLoop dLoop dTot p
      = sMoveLoop sc.toSched m thr nSub A steps nLoop dLoop dTot p := by
  induction steps generalizing nLoop dLoop dTot p with
  | zero => rfl
  | succ steps ih =>
    rw [moveLoop, sMoveLoop]
    have e : ((exactS K).lt thr dLoop = true ∧ nLoop < nSub) ↔ (thr < dLoop ∧ nLoop < nSub) := by
      simp [exactS]
    by_cases hc : thr < dLoop ∧ nLoop < nSub
    · rw [if_pos (e.2 hc), if_pos hc, sweep_exact A _ _ (fun v c => sc.nodes_nodup m nLoop v c)
        (fun v c x => sc.mem_nodes m nLoop v c x)]
      have h0 : (exactS K).zero = 0 := rfl
      rw [h0]
      cases sSweep A (sc.listing m nLoop) (sc.order m nLoop A.PT.nrows) 0 p with
      | error e => rfl
      | ok r =>
        obtain ⟨d, p'⟩ := r
        exact ih _ _ _ _
    · rw [if_neg (fun h => hc (e.1 h)), if_neg hc]

/-! ### Aggregation -/

theorem getD_map_lst (hmem : ∀ c x, x ∈ lst c ↔ x ∈ c) (cl : List (Finset Nat)) (a : Nat) :
    (cl.map lst).getD a [] = lst (cl.getD a ∅) := by
  have h0 : ([] : List Nat) = lst ∅ := by
    symm
    rw [List.eq_nil_iff_forall_not_mem]
    intro x hx
    simpa using (hmem ∅ x).1 hx
  rw [List.getD_eq_getElem?_getD, List.getD_eq_getElem?_getD, List.getElem?_map]
  cases cl[a]? with
  | none => exact h0
  | some c => rfl

theorem fSubmat_exact (M : Csr K) {rows rows' cols cols' : List Nat} (hr : rows.Perm rows')
    (hc : cols.Perm cols') : fSubmat (exactS K) M rows cols = submat M rows' cols' := by
  have h1 : fSubmat (exactS K) M rows cols = submat M rows cols' := by
    unfold fSubmat submat
    simp only [mem_idx (fun x => hc.mem_iff (a := x))]
    rfl
  rw [h1]
  unfold submat
  have key : ∀ (l : List Nat) (s : K), l.foldl (fun s row =>
      (M.row row).foldl (fun s e => if e.1 ∈ cols' then s + e.2 else s) s) s
      = s + (l.map fun row => (M.row row).foldl (fun s e => if e.1 ∈ cols' then s + e.2 else s) 0).sum := by
    intro l
    induction l with
    | nil => simp
    | cons i l ih =>
      intro s
      rw [List.foldl_cons, ih, List.map_cons, List.sum_cons, foldl_add_if]
      conv_rhs => rw [foldl_add_if]
      ring
  rw [key, key, (hr.map _).sum_eq]

theorem merged_exact (n : Nat) (r : List (Nat × K)) : merged (exactS K) n r = canonRow n false r := by
  unfold merged canonRow sumAt
  have h0 : (exactS K).dup = List.sum := rfl
  simp only [h0, Bool.false_and, Bool.not_false, Bool.and_true]

theorem fAggregate_exact (hnd : ∀ c, (lst c).Nodup) (hmem : ∀ c x, x ∈ lst c ↔ x ∈ c) (A : Autocov K)
    (cl : List (Finset Nat)) :
    fAggregate (exactS K) A (cl.map lst) = A.aggregate (cl.map listSet) := by
  have hp : ∀ a, ((cl.map lst).getD a []).Perm ((cl.map listSet).getD a []) := by
    intro a
    rw [getD_map_lst lst hmem, getD_map_listSet]
    exact perm_listSet lst hnd hmem _
  have hgo : groupOf (cl.map lst) = groupOf (cl.map listSet) := by
    funext i
    unfold groupOf
    simp only [List.length_map, (hp _).mem_iff]
  have hsum : ∀ p : Nat → K, fAggregateP (exactS K) p (cl.map lst) = aggregateP p (cl.map listSet) := by
    intro p
    funext a
    unfold fAggregateP aggregateP
    have e2 : ((cl.map lst).map fun g => (g.map p).sum) = ((cl.map listSet).map fun g => (g.map p).sum) := by
      rw [List.map_map, List.map_map]
      apply List.map_congr_left
      intro c _
      exact ((perm_listSet lst hnd hmem c).map p).sum_eq
    show ((((cl.map lst).getD a []).map p).sum / _) = _
    rw [((hp a).map p).sum_eq]
    congr 1
    show (((cl.map lst).map fun g => (g.map p).sum)).sum = _
    rw [e2]
  have hPT : fAggregatePT (exactS K) A.PT (cl.map lst) = aggregatePT A.PT (cl.map listSet) := by
    unfold fAggregatePT aggregatePT
    rw [List.length_map, List.length_map]
    split
    · unfold fAggregate1 aggregate1
      rw [List.length_map, List.length_map]
      congr 1
      apply List.map_congr_left
      intro a _
      congr 1
      funext b
      rw [fSubmat_exact A.PT (hp a) (hp b)]
      simp [exactS]
    · unfold fAggregate2 aggregate2
      rw [List.length_map, List.length_map, hgo]
      simp only [merged_exact]
  unfold fAggregate Autocov.aggregate
  rw [hPT]
  cases A.w with
  | scalars a b =>
    simp only [hsum]
    simp [exactS]
  | vectors p1 p2 =>
    simp only [hsum]

theorem aggregate_exact (hnd : ∀ c, (lst c).Nodup) (hmem : ∀ c x, x ∈ lst c ↔ x ∈ c) (A : Autocov K)
    (p : Part) : aggregate (exactS K) lst A p = sAggregate A p := by
  unfold aggregate sAggregate
  rw [fAggregate_exact lst hnd hmem]

theorem metaLoop_exact (sc : FSched) (par : Params K) (A : Autocov K) (steps k0 : Nat) (delta : K)
    (stop : Bool) (self : Part) (mc : SClu K) :
    metaLoop (exactS K) sc par A steps k0 delta stop self mc
      = sMetaLoop sc.toSched par A steps k0 delta stop self mc := by
  induction steps generalizing k0 delta stop self mc with
  | zero => rfl
  | succ steps ih =>
    rw [metaLoop, sMetaLoop]
    have e : ∀ d : K, ((exactS K).le d par.thr = true) ↔ d ≤ par.thr := by
      intro d
      simp [exactS]
    simp only [e]
    split
    · rfl
    · have hm : moveNodes (exactS K) sc (k0 + 1) par.thr par.nSub mc (par.nSub + 1)
          = sMoveNodes sc.toSched (k0 + 1) par.thr par.nSub mc (par.nSub + 1) := moveLoop_exact ..
      rw [hm]
      cases sMoveNodes sc.toSched (k0 + 1) par.thr par.nSub mc (par.nSub + 1) with
      | error e => rfl
      | ok r =>
        obtain ⟨d, k, mp⟩ := r
        simp only
        cases updatePart self mp with
        | error e => rfl
        | ok self' =>
          simp only
          split
          · exact ih _ _ _ _ _
          · rw [aggregate_exact _ (sc.block_nodup (k0 + 1)) (sc.mem_block (k0 + 1))]
            cases sAggregate A self' with
            | error e => rfl
            | ok mc' => exact ih _ _ _ _ _

end Verif.SparseRound
