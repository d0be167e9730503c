import Verif.Autocov.Spec
import Mathlib.Data.List.Nodup

/-!
# Lemmas on construction, aggregation and the covariance of a transition
-/

namespace Verif.Autocov

set_option linter.unusedSectionVars false
set_option linter.dupNamespace false

open Verif.Csr

variable {K : Type} [Field K] [LinearOrder K] [IsStrictOrderedRing K]

theorem good_mk (PT : Csr K) (w : Weights K) (sym : Bool) (h : PT.WF)
    (hsq : PT.ncols = PT.nrows) (hr : PT.NoRepeats)
    (hsym : sym = true → ∀ i j, i < PT.nrows → j < PT.nrows → PT.val i j = PT.val j i) :
    Good (mkAutocov PT w sym) where
  wf := wf_sortIndices h
  square := by
    show (sortIndices PT).ncols = (sortIndices PT).nrows
    rw [ncols_sortIndices, nrows_sortIndices, hsq]
  noRepeats := noRepeats_sortIndices h hr
  sorted := sortedRows_sortIndices PT
  columns := columnsOk_mk PT w sym h hsq hsym

theorem nrows_mk (PT : Csr K) (w : Weights K) (sym : Bool) :
    (mkAutocov PT w sym).PT.nrows = PT.nrows := nrows_sortIndices PT

/-- The list of columns produced by a `filterMap` over a range has no repetition. -/
theorem nodup_filterMap_range (n : Nat) (p : Nat → Bool) (v : Nat → K) :
    (((List.range n).filterMap fun i => if p i then some (i, v i) else none).map
      Prod.fst).Nodup := by
  have h : (((List.range n).filterMap fun i => if p i then some (i, v i) else none).map
      Prod.fst) = (List.range n).filter p := by
    induction n with
    | zero => rfl
    | succ n ih =>
      rw [List.range_succ, List.filterMap_append, List.map_append, ih, List.filter_append]
      congr 1
      by_cases h : p n = true
      · simp [h]
      · simp [h]
  rw [h]
  exact List.nodup_range.filter _

theorem noRepeats_ofRows_map (n m : Nat) (f : Nat → List (Nat × K))
    (h : ∀ i < m, ((f i).map Prod.fst).Nodup) :
    (ofRows n ((List.range m).map f)).NoRepeats := by
  intro i hi
  have hi' : i < m := by simpa using hi
  rw [row_ofRows_map _ _ _ _ hi']
  exact h i hi'

theorem nodup_canonRow (n : Nat) (b : Bool) (r : List (Nat × K)) :
    ((canonRow n b r).map Prod.fst).Nodup := by
  unfold canonRow
  exact nodup_filterMap_range n _ _

theorem noRepeats_mapVals {M : Csr K} (hr : M.NoRepeats) (f : Nat → Nat → K → K) :
    (mapVals M f).NoRepeats := by
  intro i hi
  rw [nrows_mapVals] at hi
  rw [row_mapVals _ _ _ hi, List.map_map]
  exact hr i hi

/-! ## Aggregation -/

theorem groupOf_spec {n : Nat} {groups : List (List Nat)} (hg : IsGrouping n groups) (a i : Nat)
    (ha : a < groups.length) (hi : i ∈ groups.getD a []) : groupOf groups i = a := by
  unfold groupOf
  have hnd : groups.flatten.Nodup := hg.nodup_iff.2 List.nodup_range
  have hdis : ∀ b, b < groups.length → i ∈ groups.getD b [] → b = a := by
    intro b hb hib
    by_contra hne
    rw [List.nodup_flatten] at hnd
    have hp := hnd.2
    have key : ∀ x y, x < y → y < groups.length → i ∈ groups.getD x [] → i ∈ groups.getD y [] → False := by
      intro x y hxy hy h1 h2
      have := List.pairwise_iff_getElem.1 hp x y (by omega) hy hxy
      simp only [List.getD_eq_getElem?_getD, List.getElem?_eq_getElem (show x < groups.length by omega),
        List.getElem?_eq_getElem hy, Option.getD_some] at h1 h2
      exact this h1 h2
    rcases Nat.lt_or_gt_of_ne hne with h | h
    · exact key b a h ha hib hi
    · exact key a b h hb hi hib
  match hf : (List.range groups.length).reverse.find? fun a => decide (i ∈ groups.getD a []) with
  | some b =>
    have h1 := List.find?_some hf
    have h2 := List.mem_of_find?_eq_some hf
    simp only [decide_eq_true_eq] at h1
    rw [List.mem_reverse, List.mem_range] at h2
    exact hdis b h2 h1
  | none =>
    rw [List.find?_eq_none] at hf
    exact absurd (hf a (by simpa using ha)) (by simpa using hi)

theorem group_lt {n : Nat} {groups : List (List Nat)} (hg : IsGrouping n groups) (a i : Nat)
    (ha : a < groups.length) (hi : i ∈ groups.getD a []) : i < n := by
  have : i ∈ groups.flatten := by
    rw [List.mem_flatten]
    refine ⟨groups.getD a [], ?_, hi⟩
    simp only [List.getD_eq_getElem?_getD, List.getElem?_eq_getElem ha, Option.getD_some]
    exact List.getElem_mem _
  have := hg.subset this
  simpa using this

theorem group_nodup {n : Nat} {groups : List (List Nat)} (hg : IsGrouping n groups) (a : Nat) :
    (groups.getD a []).Nodup := by
  have hnd : groups.flatten.Nodup := hg.nodup_iff.2 List.nodup_range
  rw [List.nodup_flatten] at hnd
  by_cases ha : a < groups.length
  · apply hnd.1
    simp only [List.getD_eq_getElem?_getD, List.getElem?_eq_getElem ha, Option.getD_some]
    exact List.getElem_mem _
  · simp [List.getD_eq_getElem?_getD, List.getElem?_eq_none (not_lt.1 ha)]

theorem exists_group {n : Nat} {groups : List (List Nat)} (hg : IsGrouping n groups) (i : Nat)
    (hi : i < n) : ∃ a < groups.length, i ∈ groups.getD a [] := by
  have : i ∈ groups.flatten := hg.symm.subset (by simpa using hi)
  rw [List.mem_flatten] at this
  obtain ⟨g, hg1, hg2⟩ := this
  obtain ⟨a, ha, rfl⟩ := List.getElem_of_mem hg1
  refine ⟨a, ha, ?_⟩
  simpa [List.getD_eq_getElem?_getD, ha] using hg2

theorem groupOf_eq_iff {n : Nat} {groups : List (List Nat)} (hg : IsGrouping n groups) (a i : Nat)
    (ha : a < groups.length) (hi : i < n) : groupOf groups i = a ↔ i ∈ groups.getD a [] := by
  constructor
  · intro h
    obtain ⟨b, hb, hib⟩ := exists_group hg i hi
    rw [groupOf_spec hg b i hb hib] at h
    exact h ▸ hib
  · exact groupOf_spec hg a i ha

/-- Sum over two groups of indices. -/
def pairSum (S : Nat → Nat → K) (g h : List Nat) : K := (g.map fun i => (h.map fun j => S i j).sum).sum

theorem val_aggregate1 {n : Nat} (M : Csr K) {groups : List (List Nat)} (hg : IsGrouping n groups)
    (a b : Nat) (ha : a < groups.length) (hb : b < groups.length) :
    (aggregate1 M groups).val a b =
      if 0 < pairSum M.val (groups.getD a []) (groups.getD b []) then
        pairSum M.val (groups.getD a []) (groups.getD b []) else 0 := by
  unfold Csr.val aggregate1
  rw [row_ofRows_map _ _ _ _ ha]
  have h1 : ∀ b, submat M (groups.getD a []) (groups.getD b []) =
      pairSum M.val (groups.getD a []) (groups.getD b []) :=
    fun b => submat_eq M _ _ (group_nodup hg b)
  have h2 := sumAt_filterMap_range groups.length
    (fun b => decide (0 < submat M (groups.getD a []) (groups.getD b [])))
    (fun b => submat M (groups.getD a []) (groups.getD b [])) b
  simp only [decide_eq_true_eq] at h2
  rw [h2, h1 b]
  simp only [hb, true_and]
  rfl

theorem sumAt_groups {n : Nat} {groups : List (List Nat)} (hg : IsGrouping n groups) (b : Nat)
    (hb : b < groups.length) (r : List (Nat × K)) (hr : ∀ e ∈ r, e.1 < n) :
    sumAt (r.map fun e => (groupOf groups e.1, e.2)) b =
      ((groups.getD b []).map fun j => sumAt r j).sum := by
  rw [← filter_sum _ _ (group_nodup hg b)]
  induction r with
  | nil => rfl
  | cons e r ih =>
    rw [List.map_cons, sumAt_cons, ih (fun e he => hr e (by simp [he]))]
    have h := groupOf_eq_iff hg b e.1 hb (hr e (by simp))
    dsimp only
    by_cases h1 : e.1 ∈ groups.getD b []
    · rw [if_pos (h.2 h1), List.filter_cons_of_pos (by simpa using h1)]
      rfl
    · rw [if_neg (fun hc => h1 (h.1 hc)), List.filter_cons_of_neg (by simpa using h1), zero_add]

theorem val_aggregate2 {n : Nat} {M : Csr K} (hM : M.WF) (hn : M.nrows = n) (hc : M.ncols = n)
    {groups : List (List Nat)} (hg : IsGrouping n groups)
    (a b : Nat) (ha : a < groups.length) (hb : b < groups.length) :
    (aggregate2 M groups).val a b = pairSum M.val (groups.getD a []) (groups.getD b []) := by
  have : (aggregate2 M groups).val a b = _ := rfl
  unfold Csr.val aggregate2 at this
  rw [row_ofRows_map _ _ _ _ ha, sumAt_canonRow _ _ _ _ hb, sumAt_flatMap] at this
  unfold Csr.val aggregate2
  rw [row_ofRows_map _ _ _ _ ha, sumAt_canonRow _ _ _ _ hb, sumAt_flatMap]
  unfold pairSum
  have h1 : ∀ i, sumAt ((M.row i).map fun e => (groupOf groups e.1, e.2)) b =
      ((groups.getD b []).map fun j => M.val i j).sum :=
    fun i => sumAt_groups hg b hb (M.row i) (fun e he => hc ▸ hM.row_lt i e he)
  simp only [h1]
  apply List.Perm.sum_eq
  apply List.Perm.map
  rw [List.perm_ext_iff_of_nodup (List.nodup_range.filter _) (group_nodup hg a)]
  intro i
  rw [List.mem_filter, List.mem_range, hn]
  simp only [beq_iff_eq]
  constructor
  · rintro ⟨h2, h3⟩
    exact (groupOf_eq_iff hg a i ha h2).1 h3
  · intro h2
    exact ⟨group_lt hg a i ha h2, groupOf_spec hg a i ha h2⟩

theorem list_sum_nonneg (l : List K) (h : ∀ x ∈ l, 0 ≤ x) : 0 ≤ l.sum := by
  induction l with
  | nil => simp
  | cons a l ih =>
    rw [List.sum_cons]
    exact add_nonneg (h a (by simp)) (ih fun x hx => h x (by simp [hx]))

theorem pairSum_nonneg (S : Nat → Nat → K) (g h : List Nat)
    (hS : ∀ i ∈ g, ∀ j ∈ h, 0 ≤ S i j) : 0 ≤ pairSum S g h := by
  unfold pairSum
  apply list_sum_nonneg
  intro x hx
  rw [List.mem_map] at hx
  obtain ⟨i, hi, rfl⟩ := hx
  apply list_sum_nonneg
  intro y hy
  rw [List.mem_map] at hy
  obtain ⟨j, hj, rfl⟩ := hy
  exact hS i hi j hj

theorem val_aggregatePT {n : Nat} {M : Csr K} (hM : M.WF) (hn : M.nrows = n) (hc : M.ncols = n)
    {groups : List (List Nat)} (hg : IsGrouping n groups)
    (hpos : ∀ a < groups.length, ∀ b < groups.length,
      0 ≤ pairSum M.val (groups.getD a []) (groups.getD b []))
    (a b : Nat) (ha : a < groups.length) (hb : b < groups.length) :
    (aggregatePT M groups).val a b = pairSum M.val (groups.getD a []) (groups.getD b []) := by
  unfold aggregatePT
  split
  · rw [val_aggregate1 M hg a b ha hb]
    split
    · rfl
    · rename_i h
      exact le_antisymm (hpos a ha b hb) (not_lt.1 h)
  · exact val_aggregate2 hM hn hc hg a b ha hb

theorem shape_aggregatePT (M : Csr K) (groups : List (List Nat)) :
    (aggregatePT M groups).WF ∧ (aggregatePT M groups).nrows = groups.length ∧
      (aggregatePT M groups).ncols = groups.length ∧ (aggregatePT M groups).NoRepeats := by
  unfold aggregatePT
  split
  · refine ⟨?_, by simp [aggregate1], rfl, ?_⟩
    · apply wf_ofRows
      intro r hr e he
      rw [List.mem_map] at hr
      obtain ⟨a, _, rfl⟩ := hr
      rw [List.mem_filterMap] at he
      obtain ⟨b, hb, h⟩ := he
      split at h
      · cases h; simpa using hb
      · cases h
    · apply noRepeats_ofRows_map
      intro a _
      have := nodup_filterMap_range groups.length
        (fun b => decide (0 < submat M (groups.getD a []) (groups.getD b [])))
        (fun b => submat M (groups.getD a []) (groups.getD b []))
      simpa only [decide_eq_true_eq] using this
  · refine ⟨?_, by simp [aggregate2], rfl, ?_⟩
    · apply wf_ofRows
      intro r hr e he
      rw [List.mem_map] at hr
      obtain ⟨a, _, rfl⟩ := hr
      exact mem_canonRow_lt _ _ _ e he
    · apply noRepeats_ofRows_map
      intro a _
      exact nodup_canonRow _ _ _

theorem sum_range_list (n : Nat) (p : Nat → K) :
    ((List.range n).map p).sum = ∑ i ∈ Finset.range n, p i := by
  induction n with
  | zero => simp
  | succ n ih =>
    rw [List.range_succ, List.map_append, List.sum_append, ih, Finset.sum_range_succ]; simp

theorem sum_groups {n : Nat} {groups : List (List Nat)} (hg : IsGrouping n groups) (p : Nat → K) :
    (groups.map fun g => (g.map p).sum).sum = ∑ i ∈ Finset.range n, p i := by
  rw [← sum_range_list, ← (hg.map p).sum_eq]
  clear hg
  induction groups with
  | nil => simp
  | cons g groups ih => simp [ih]

theorem aggregateP_eq {n : Nat} {groups : List (List Nat)} (hg : IsGrouping n groups) (p : Nat → K)
    (hp : ∑ i ∈ Finset.range n, p i = 1) (a : Nat) :
    aggregateP p groups a = ((groups.getD a []).map p).sum := by
  unfold aggregateP
  rw [sum_groups hg, hp, div_one]

theorem sum_mul_sum (p q : Nat → K) (g h : List Nat) :
    (g.map p).sum * (h.map q).sum = pairSum (fun i j => p i * q j) g h := by
  unfold pairSum
  rw [← List.sum_map_mul_right]
  congr 1
  apply List.map_congr_left
  intro i _
  rw [List.sum_map_mul_left]

theorem pairSum_sub (S R : Nat → Nat → K) (g h : List Nat) :
    pairSum (fun i j => S i j - R i j) g h = pairSum S g h - pairSum R g h := by
  unfold pairSum
  rw [← sum_map_sub]
  congr 1
  apply List.map_congr_left
  intro i _
  exact sum_map_sub _ _ _

theorem toarray_aggregate (A : Autocov K) (hA : Good A) {groups : List (List Nat)}
    (hg : IsGrouping A.PT.nrows groups) (hn0 : 0 < A.PT.nrows) (hp : Normalised A.PT.nrows A.w)
    (hpos : ∀ a < groups.length, ∀ b < groups.length,
      0 ≤ pairSum A.PT.val (groups.getD a []) (groups.getD b []))
    (a b : Nat) (ha : a < groups.length) (hb : b < groups.length) :
    (A.aggregate groups).toarray a b =
      pairSum A.toarray (groups.getD a []) (groups.getD b []) := by
  obtain ⟨h1, h2, h3, h4⟩ := shape_aggregatePT A.PT groups
  have hpt := val_aggregatePT hA.wf rfl hA.square hg hpos a b ha hb
  have hbase : pairSum A.toarray (groups.getD a []) (groups.getD b []) =
      pairSum A.PT.val (groups.getD a []) (groups.getD b []) -
        pairSum A.w.p0 (groups.getD a []) (groups.getD b []) := pairSum_sub _ _ _ _
  have hn1 : (A.PT.nrows : K) ≠ 0 := by exact_mod_cast hn0.ne'
  unfold Autocov.aggregate
  dsimp only
  rw [toarray_mk _ _ _ h1 _ _ (by rw [h2]; exact ha), hpt, hbase]
  congr 1
  revert hp
  match A.w with
  | .scalars c d =>
    intro hp
    have hu : ∑ i ∈ Finset.range A.PT.nrows, (fun _ => 1 / (A.PT.nrows : K)) i = 1 := by
      simp [hn1]
    show aggregateP _ groups a * aggregateP _ groups b = pairSum (fun _ _ => c * d) _ _
    rw [aggregateP_eq hg _ hu, aggregateP_eq hg _ hu, sum_mul_sum]
    unfold Normalised at hp
    simp only [hp]
  | .vectors p1 p2 =>
    rintro ⟨hp1, hp2⟩
    show aggregateP p1 groups a * aggregateP p2 groups b = pairSum (fun i j => p1 i * p2 j) _ _
    rw [aggregateP_eq hg _ hp1, aggregateP_eq hg _ hp2, sum_mul_sum]

theorem pairSum_swap (S : Nat → Nat → K) (g h : List Nat) :
    pairSum S g h = pairSum (fun j i => S i j) h g := by
  unfold pairSum
  induction g with
  | nil => simp
  | cons a g ih => rw [List.map_cons, List.sum_cons, ih]; simp only [List.map_cons, List.sum_cons]; rw [List.sum_map_add]

theorem pairSum_congr (S R : Nat → Nat → K) (g h : List Nat)
    (e : ∀ i ∈ g, ∀ j ∈ h, S i j = R i j) : pairSum S g h = pairSum R g h := by
  unfold pairSum
  congr 1
  apply List.map_congr_left
  intro i hi
  congr 1
  apply List.map_congr_left
  intro j hj
  exact e i hi j hj

/-- The flag says the truth. -/
def SymmetricOk (A : Autocov K) : Prop :=
  A.symmetric = true → ∀ i j, i < A.PT.nrows → j < A.PT.nrows → A.PT.val i j = A.PT.val j i

theorem good_aggregate (A : Autocov K) (hA : Good A) (hsym : SymmetricOk A)
    {groups : List (List Nat)} (hg : IsGrouping A.PT.nrows groups)
    (hpos : ∀ a < groups.length, ∀ b < groups.length,
      0 ≤ pairSum A.PT.val (groups.getD a []) (groups.getD b [])) :
    Good (A.aggregate groups) ∧ SymmetricOk (A.aggregate groups) ∧
      (A.aggregate groups).PT.nrows = groups.length := by
  obtain ⟨h1, h2, h3, h4⟩ := shape_aggregatePT A.PT groups
  have hs : A.symmetric = true → ∀ i j, i < (aggregatePT A.PT groups).nrows →
      j < (aggregatePT A.PT groups).nrows →
      (aggregatePT A.PT groups).val i j = (aggregatePT A.PT groups).val j i := by
    intro hflag a b ha hb
    rw [h2] at ha hb
    rw [val_aggregatePT hA.wf rfl hA.square hg hpos a b ha hb,
      val_aggregatePT hA.wf rfl hA.square hg hpos b a hb ha, pairSum_swap]
    apply pairSum_congr
    intro i hi j hj
    exact hsym hflag j i (group_lt hg a j ha hj) (group_lt hg b i hb hi)
  refine ⟨good_mk _ _ _ h1 (by rw [h2, h3]) h4 hs, ?_, ?_⟩
  · intro hflag i j hi hj
    have hi' : i < (aggregatePT A.PT groups).nrows := by
      unfold Autocov.aggregate at hi; rwa [nrows_mk] at hi
    have hj' : j < (aggregatePT A.PT groups).nrows := by
      unfold Autocov.aggregate at hj; rwa [nrows_mk] at hj
    show (sortIndices (aggregatePT A.PT groups)).val i j =
      (sortIndices (aggregatePT A.PT groups)).val j i
    rw [val_sortIndices h1 _ _ hi', val_sortIndices h1 _ _ hj']
    exact hs hflag i j hi' hj'
  · unfold Autocov.aggregate
    rw [nrows_mk, h2]

/-! ## Covariance of a transition -/

theorem wf_diagMatmul {T : Csr K} (hT : T.WF) (d : Nat → K) : (diagMatmul T d).WF :=
  wf_mapVals hT _

theorem wf_matmulDiag {T : Csr K} (hT : T.WF) (d : Nat → K) : (matmulDiag T d).WF :=
  wf_mapVals hT _

theorem toarray_fromT (T : Csr K) (hT : T.WF) (p1 p2 : Option (Nat → K)) (i j : Nat)
    (hi : i < T.nrows) :
    (fromT T p1 p2).toarray i j =
      p1.getD (uniform T.nrows) i * T.val i j -
        p1.getD (uniform T.nrows) i * p2.getD (vecMat (p1.getD (uniform T.nrows)) T) j := by
  unfold fromT
  dsimp only
  rw [toarray_mk _ _ _ (wf_diagMatmul hT _) _ _ (by rw [diagMatmul, nrows_mapVals]; exact hi),
    val_diagMatmul _ _ _ _ hi]
  simp only [Weights.p0]
  ring

theorem good_fromT (T : Csr K) (hT : T.WF) (hsq : T.ncols = T.nrows) (hr : T.NoRepeats)
    (p1 p2 : Option (Nat → K)) : Good (fromT T p1 p2) := by
  unfold fromT
  dsimp only
  refine good_mk _ _ _ (wf_mapVals hT _) ?_ (noRepeats_mapVals hr _) (by simp)
  rw [diagMatmul, nrows_mapVals, ncols_mapVals, hsq]

theorem sum_vecMat (T : Csr K) (p : Nat → K)
    (hT : ∀ i < T.nrows, ∑ j ∈ Finset.range T.nrows, T.val i j = 1) :
    ∑ j ∈ Finset.range T.nrows, vecMat p T j = ∑ i ∈ Finset.range T.nrows, p i := by
  unfold vecMat
  rw [Finset.sum_comm]
  apply Finset.sum_congr rfl
  intro i hi
  rw [← Finset.mul_sum, hT i (Finset.mem_range.1 hi), mul_one]

/-- `PT` of the forward covariance. -/
theorem val_forwardPT (T : Csr K) (hT : T.WF) (hsq : T.ncols = T.nrows) (q1 q2 : Nat → K)
    (i j : Nat) (hi : i < T.nrows) (hj : j < T.nrows) :
    (matmulDiag (diagMatmul ((matmulDiag T (invOrOne q2)).matmul T.transpose) q1) q1).val i j =
      ∑ k ∈ Finset.range T.nrows, q1 i * T.val i k * invOrOne q2 k * T.val j k * q1 j := by
  have hn1 : ((matmulDiag T (invOrOne q2)).matmul T.transpose).nrows = T.nrows := by
    rw [nrows_matmul, matmulDiag, nrows_mapVals]
  rw [val_matmulDiag _ _ _ _ (by rw [diagMatmul, nrows_mapVals, hn1]; exact hi),
    val_diagMatmul _ _ _ _ (by rw [hn1]; exact hi),
    val_matmul _ _ (wf_matmulDiag hT _) _ _ (by rw [matmulDiag, nrows_mapVals]; exact hi)
      (by rw [ncols_transpose]; exact hj)]
  rw [matmulDiag, ncols_mapVals, hsq, Finset.sum_mul, Finset.sum_mul]
  apply Finset.sum_congr rfl
  intro k hk
  rw [Finset.mem_range] at hk
  rw [val_transpose T j k hj (by rw [hsq]; exact hk)]
  have := val_matmulDiag T (invOrOne q2) i k hi
  unfold matmulDiag at this
  rw [this]
  ring

theorem shape_forwardPT (T : Csr K) (q1 q2 : Nat → K) :
    let PT := matmulDiag (diagMatmul ((matmulDiag T (invOrOne q2)).matmul T.transpose) q1) q1
    PT.WF ∧ PT.nrows = T.nrows ∧ PT.ncols = T.nrows ∧ PT.NoRepeats := by
  refine ⟨wf_mapVals (wf_mapVals (wf_matmul _ _) _) _, ?_, ?_, ?_⟩
  · rw [matmulDiag, nrows_mapVals, diagMatmul, nrows_mapVals, nrows_matmul, matmulDiag,
      nrows_mapVals]
  · rw [matmulDiag, ncols_mapVals, diagMatmul, ncols_mapVals, ncols_matmul, ncols_transpose]
  · apply noRepeats_mapVals
    apply noRepeats_mapVals
    apply noRepeats_ofRows_map
    intro i _
    exact nodup_canonRow _ _ _

/-- The weights of the forward covariance. -/
def forwardWeights (n : Nat) (p1 : Option (Nat → K)) : Weights K :=
  match p1 with
  | none => .scalars (uniform n 0) (uniform n 0)
  | some p => .vectors p p

theorem fromTForward_eq (T : Csr K) (p1 p2 : Option (Nat → K)) :
    fromTForward T p1 p2 =
      mkAutocov (matmulDiag (diagMatmul ((matmulDiag T (invOrOne
        (p2.getD (vecMat (p1.getD (uniform T.nrows)) T)))).matmul T.transpose)
          (p1.getD (uniform T.nrows))) (p1.getD (uniform T.nrows)))
        (forwardWeights T.nrows p1) true := by
  cases p1 <;> rfl

theorem toarray_forward (T : Csr K) (hT : T.WF) (hsq : T.ncols = T.nrows)
    (p1 p2 : Option (Nat → K)) (i j : Nat) (hi : i < T.nrows) (hj : j < T.nrows) :
    (fromTForward T p1 p2).toarray i j =
      (∑ k ∈ Finset.range T.nrows, p1.getD (uniform T.nrows) i * T.val i k *
        invOrOne (p2.getD (vecMat (p1.getD (uniform T.nrows)) T)) k * T.val j k *
          p1.getD (uniform T.nrows) j) -
        p1.getD (uniform T.nrows) i * p1.getD (uniform T.nrows) j := by
  rw [fromTForward_eq]
  obtain ⟨h1, h2, h3, h4⟩ := shape_forwardPT T (p1.getD (uniform T.nrows))
    (p2.getD (vecMat (p1.getD (uniform T.nrows)) T))
  rw [toarray_mk _ _ _ h1 _ _ (by rw [h2]; exact hi), val_forwardPT T hT hsq _ _ i j hi hj]
  congr 1
  cases p1 <;> rfl

theorem good_forward (T : Csr K) (hT : T.WF) (hsq : T.ncols = T.nrows)
    (p1 p2 : Option (Nat → K)) : Good (fromTForward T p1 p2) := by
  rw [fromTForward_eq]
  obtain ⟨h1, h2, h3, h4⟩ := shape_forwardPT T (p1.getD (uniform T.nrows))
    (p2.getD (vecMat (p1.getD (uniform T.nrows)) T))
  refine good_mk _ _ _ h1 (by rw [h2, h3]) h4 ?_
  intro _ i j hi hj
  rw [h2] at hi hj
  rw [val_forwardPT T hT hsq _ _ i j hi hj, val_forwardPT T hT hsq _ _ j i hj hi]
  apply Finset.sum_congr rfl
  intro k _
  ring

end Verif.Autocov
