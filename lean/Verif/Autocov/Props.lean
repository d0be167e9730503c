import Verif.Autocov.CovLemmas
import Mathlib.Data.Rat.Defs
import Mathlib.Algebra.Order.Ring.Rat
import Mathlib.Tactic.NormNum
import Mathlib.Data.Finset.Basic

/-!
# Autocovariance matrices: properties C18 to C22 and C55
-/

namespace Verif.Autocov

set_option linter.unusedSectionVars false
set_option linter.dupNamespace false

open Verif.Csr

variable {K : Type} [Field K] [LinearOrder K] [IsStrictOrderedRing K]

/-! ## Concrete matrices -/

/-- `[[1/2, 1/2, 0], [1/4, 1/2, 1/4], [0, 0, 1]]`, stored out of order. -/
def exT : Csr ℚ :=
  ⟨3, 3, [0, 2, 5, 6], [1, 0, 0, 2, 1, 2], [1/2, 1/2, 1/4, 1/4, 1/2, 1]⟩

theorem exT_wf : exT.WF := ⟨by decide, by decide, by decide, by decide, by decide, by decide⟩

theorem exT_noRepeats : exT.NoRepeats := by unfold Csr.NoRepeats; decide +kernel

theorem exT_stochastic : Stochastic exT := ⟨by decide +kernel, by decide +kernel⟩

/-- The autocovariance of `exT` from a non-uniform distribution. -/
def exA : Autocov ℚ := fromT exT (some fun i => if i = 0 then 1/2 else 1/4) none

theorem exA_good : Good exA := good_fromT exT exT_wf rfl exT_noRepeats _ _

/-- A matrix whose first row stores nothing. -/
def exE : Autocov ℚ := mkAutocov ⟨2, 2, [0, 0, 1], [0], [1/2]⟩ (.vectors (fun _ => 1/2) (fun _ => 1/2)) false

theorem exE_good : Good exE :=
  good_mk _ _ _ ⟨by decide, by decide, by decide, by decide, by decide, by decide⟩ rfl
    (by unfold Csr.NoRepeats; decide +kernel) (by simp)

/-! ## The constructor -/

/-- For a square matrix without repeated entries, the constructor leaves a good object that
stands for `PT - p1 p2`; the symmetry flag must say the truth. -/
theorem C18_constructor (PT : Csr K) (w : Weights K) (sym : Bool) (h : PT.WF)
    (hsq : PT.ncols = PT.nrows) (hr : PT.NoRepeats)
    (hsym : sym = true → ∀ i j, i < PT.nrows → j < PT.nrows → PT.val i j = PT.val j i) :
    Good (mkAutocov PT w sym) ∧ (mkAutocov PT w sym).PT.nrows = PT.nrows ∧
      ∀ i j, i < PT.nrows → (mkAutocov PT w sym).toarray i j = PT.val i j - w.p0 i j :=
  ⟨good_mk PT w sym h hsq hr hsym, nrows_mk PT w sym,
    fun i j hi => toarray_mk PT w sym h i j hi⟩

example : exT.WF ∧ exT.ncols = exT.nrows ∧ exT.NoRepeats := ⟨exT_wf, rfl, exT_noRepeats⟩

/-! ## C18 -/

/-- **C18** (one entry). -/
theorem C18_element (A : Autocov K) (h : Good A) (i j : Nat) (hi : i < A.PT.nrows) :
    A.element i j = A.toarray i j := element_eq A i j hi h.noRepeats

/-- **C18** (row, column and block sums), for index lists without repetition. -/
theorem C18_sums_partial (A : Autocov K) (h : Good A) (a : Nat) (ha : a < A.PT.nrows)
    (rows cols : List Nat) (hcols : cols.Nodup) (hin : ∀ j ∈ cols, j < A.PT.nrows) :
    A.submatSum rows cols = (rows.map fun i => (cols.map fun j => A.toarray i j).sum).sum ∧
    A.rowIdxSum a cols = (cols.map fun j => A.toarray a j).sum ∧
    A.colIdxSum a cols = (cols.map fun i => A.toarray i a).sum :=
  ⟨submatSum_eq A rows cols hcols, rowIdxSum_eq A a cols hcols,
    colIdxSum_eq A a cols hcols h.columns ha hin⟩

example : Good exA ∧ exA.toarray 0 1 = 1/4 - 1/2 * (3/8) ∧ [2, 0].Nodup :=
  ⟨exA_good, by decide +kernel, by decide⟩

/-- **C18** is violated for repeated column indices: the sum over `[0, 0]` is not twice
the entry. -/
theorem C18_repeated_columns : ∃ A : Autocov ℚ, Good A ∧
    A.rowIdxSum 0 [0, 0] ≠ A.toarray 0 0 + A.toarray 0 0 :=
  ⟨exA, exA_good, by decide +kernel⟩

/-! ## C19 -/

theorem sum_toFinset (idx : List Nat) (hn : idx.Nodup) (f : Nat → K) :
    (idx.map f).sum = ∑ i ∈ idx.toFinset, f i := (List.sum_toFinset f hn).symm

theorem block_insert (S : Nat → Nat → K) (c : Finset Nat) (k : Nat) (hk : k ∉ c) :
    block S (insert k c) (insert k c) =
      block S c c + ((∑ j ∈ c, S k j) + (∑ i ∈ c, S i k) + S k k) := by
  unfold block
  rw [Finset.sum_insert hk, Finset.sum_insert hk]
  simp only [Finset.sum_insert hk, Finset.sum_add_distrib]
  ring

/-- **C19** (joining).  If the row of the node stores at least one entry, the gain reported
for moving node `k` into a cluster is the change of the sum within the cluster. -/
theorem C19_join_exact_partial (A : Autocov K) (h : Good A) (k : Nat) (hk : k < A.PT.nrows)
    (hrow : A.PT.row k ≠ []) (idx : List Nat) (hn : idx.Nodup)
    (hin : ∀ i ∈ idx, i < A.PT.nrows) (hout : k ∉ idx) :
    A.deltaTo k idx = .ok (block A.toarray (insert k idx.toFinset) (insert k idx.toFinset) -
      block A.toarray idx.toFinset idx.toFinset) := by
  rw [deltaTo_eq A h.columns k hk idx hn hin _
    (readDiag_ok h.wf h.sorted h.noRepeats k hk hrow), block_insert _ _ _ (by simpa using hout),
    sum_toFinset idx hn, sum_toFinset idx hn]
  congr 1
  unfold Autocov.toarray
  ring

/-- **C19** (leaving). -/
theorem C19_leave_exact_partial (A : Autocov K) (h : Good A) (k : Nat) (hk : k < A.PT.nrows)
    (hrow : A.PT.row k ≠ []) (idx : List Nat) (hn : idx.Nodup)
    (hin : ∀ i ∈ idx, i < A.PT.nrows) (hmem : k ∈ idx) :
    A.deltaOut k idx = .ok (block A.toarray (idx.toFinset.erase k) (idx.toFinset.erase k) -
      block A.toarray idx.toFinset idx.toFinset) := by
  have hk' : k ∈ idx.toFinset := by simpa using hmem
  have hins := Finset.insert_erase hk'
  have hb := block_insert A.toarray (idx.toFinset.erase k) k (Finset.notMem_erase k _)
  rw [hins] at hb
  rw [deltaOut_eq A h.columns k hk idx hn hin _
    (readDiag_ok h.wf h.sorted h.noRepeats k hk hrow), hb, sum_toFinset idx hn,
    sum_toFinset idx hn, ← Finset.sum_erase_add _ (fun j => A.toarray k j) hk',
    ← Finset.sum_erase_add _ (fun i => A.toarray i k) hk']
  congr 1
  unfold Autocov.toarray
  ring

example : Good exA ∧ exA.PT.row 1 ≠ [] ∧ [0, 2].Nodup ∧ 1 ∉ [0, 2] :=
  ⟨exA_good, by decide +kernel, by decide, by decide⟩

/-- The covariance of a stochastic matrix meets the guard of `C19_join_exact_partial` in
every row, so there the gains are exact for every node and cluster. -/
theorem C19_guard_of_stochastic (T : Csr K) (hT : T.WF) (hs : Stochastic T)
    (p1 p2 : Option (Nat → K)) (k : Nat) (hk : k < T.nrows) : (fromT T p1 p2).PT.row k ≠ [] := by
  have hk' : k < (diagMatmul T (p1.getD (uniform T.nrows))).nrows := by
    rw [diagMatmul, nrows_mapVals]; exact hk
  have h1 : (fromT T p1 p2).PT.row k =
      sortRow T.ncols ((diagMatmul T (p1.getD (uniform T.nrows))).row k) :=
    row_sortIndices _ _ hk'
  intro h0
  rw [h1] at h0
  have h2 := perm_sortRow T.ncols _ ((wf_diagMatmul hT (p1.getD (uniform T.nrows))).row_lt k)
  rw [h0, diagMatmul, row_mapVals _ _ _ hk, List.nil_perm, List.map_eq_nil_iff] at h2
  have h3 := hs.1 k hk
  rw [Finset.sum_eq_zero] at h3
  · exact zero_ne_one h3
  · intro j _
    unfold Csr.val
    rw [h2]; rfl

example : exT.WF ∧ Stochastic exT := ⟨exT_wf, exT_stochastic⟩

/-- **C19** is violated when the row of the node is empty: the search for the diagonal
entry reads the next row.  Here the gain for joining an empty cluster is reported as 1/4
although it is -1/4. -/
theorem C19_empty_row_violated : ∃ A : Autocov ℚ, Good A ∧ A.PT.row 0 = [] ∧
    block A.toarray {0} {0} = -1/4 ∧ A.deltaTo 0 [] = .ok (1/4) := by
  refine ⟨exE, exE_good, by decide +kernel, by decide +kernel, ?_⟩
  rw [deltaTo_eq exE exE_good.columns 0 (by decide +kernel) [] (by decide) (by decide) (1/2)]
  · have : exE.w.p0 0 0 = 1/4 := by decide +kernel
    rw [this]; norm_num
  · have hk : 0 < exE.PT.nrows := by decide +kernel
    rw [readDiag_empty exE_good.wf 0 hk (by decide +kernel)]
    have : ((exE.PT.indices.zip exE.PT.data).drop (exE.PT.indptr.getD 0 0)).head? =
        some (0, 1/2) := by decide +kernel
    rw [this]; rfl

/-- **C19** is violated when no entry is stored in the row of the node and below: the
search reads outside the arrays, for every cluster. -/
theorem C19_trailing_empty_rows_fail (A : Autocov K) (h : Good A) (k : Nat)
    (hk : k < A.PT.nrows) (hrows : ∀ i, k ≤ i → i < A.PT.nrows → A.PT.row i = [])
    (idx : List Nat) :
    A.deltaTo k idx = .error .outOfBounds ∧ A.deltaOut k idx = .error .outOfBounds := by
  have hL : (A.PT.indices.zip A.PT.data).drop (A.PT.indptr.getD k 0) = [] := by
    have hflat := h.wf.flatten_rows
    have hk1 := h.wf.flatten_length k hk.le
    have hall := h.wf.flatten_length A.PT.nrows (le_refl _)
    have hz : ∀ m, k ≤ m → m ≤ A.PT.nrows → A.PT.indptr.getD m 0 = A.PT.indptr.getD k 0 := by
      intro m hkm
      induction m with
      | zero => intro _; rw [Nat.le_zero.1 hkm]
      | succ m ih =>
        intro hm
        rcases Nat.lt_or_ge m k with h1 | h1
        · have : m + 1 = k := by omega
          rw [this]
        · have h2 := h.wf.row_length m (by omega)
          rw [hrows m h1 (by omega), List.length_nil] at h2
          have h3 := h.wf.mono m (by omega)
          have h4 := ih h1 (by omega)
          omega
    have := hz A.PT.nrows hk.le (le_refl _)
    rw [h.wf.last] at this
    rw [List.drop_eq_nil_iff, List.length_zip, h.wf.lens]
    omega
  have hd : readDiag A.PT k = .error .outOfBounds := by
    rw [readDiag_empty h.wf k hk (hrows k (le_refl _) hk), hL]; rfl
  constructor
  · unfold Autocov.deltaTo deltaPTto; rw [hd]
  · unfold Autocov.deltaOut deltaPTout; rw [hd]

/-- A matrix whose last row stores nothing. -/
def exL : Autocov ℚ := mkAutocov ⟨2, 2, [0, 1, 1], [1], [1/2]⟩ (.scalars (1/2) (1/2)) false

example : Good exL ∧ 1 < exL.PT.nrows ∧ ∀ i, i < exL.PT.nrows → 1 ≤ i → exL.PT.row i = [] :=
  ⟨good_mk _ _ _ ⟨by decide, by decide, by decide, by decide, by decide, by decide⟩ rfl
    (by unfold Csr.NoRepeats; decide +kernel) (by simp), by decide +kernel, by decide +kernel⟩

/-! ## C20 -/

/-- **C20** (the two versions).  On a partition of the indices the two versions give the
same matrix as soon as no block sum of `PT` is negative. -/
theorem C20_versions_agree_partial (M : Csr K) (hM : M.WF) (hsq : M.ncols = M.nrows)
    (groups : List (List Nat)) (hg : IsGrouping M.nrows groups)
    (hpos : ∀ i < M.nrows, ∀ j < M.nrows, 0 ≤ M.val i j) (a b : Nat) (ha : a < groups.length)
    (hb : b < groups.length) :
    (aggregate1 M groups).val a b = (aggregate2 M groups).val a b ∧
    (aggregate2 M groups).val a b =
      ((groups.getD a []).map fun i => ((groups.getD b []).map fun j => M.val i j).sum).sum := by
  have h2 := val_aggregate2 hM rfl hsq hg a b ha hb
  refine ⟨?_, h2⟩
  rw [h2, val_aggregate1 M hg a b ha hb]
  split
  · rfl
  · rename_i h
    refine le_antisymm ?_ (not_lt.1 h)
    exact pairSum_nonneg _ _ _ fun i hi j hj =>
      hpos i (group_lt hg a i ha hi) j (group_lt hg b j hb hj)

/-- **C20** (the aggregated autocovariance).  For `PT` without negative entries and
normalised weights, the entry of two groups is the sum of the original entries between
them, and the aggregated object is again good. -/
theorem C20_block_sums_partial (A : Autocov K) (h : Good A) (hsym : SymmetricOk A)
    (hn : 0 < A.PT.nrows) (hp : Normalised A.PT.nrows A.w)
    (hpos : ∀ i < A.PT.nrows, ∀ j < A.PT.nrows, 0 ≤ A.PT.val i j)
    (groups : List (List Nat)) (hg : IsGrouping A.PT.nrows groups) :
    Good (A.aggregate groups) ∧ (A.aggregate groups).PT.nrows = groups.length ∧
      ∀ a b, a < groups.length → b < groups.length →
        (A.aggregate groups).toarray a b =
          ((groups.getD a []).map fun i =>
            ((groups.getD b []).map fun j => A.toarray i j).sum).sum := by
  have hpos' : ∀ a < groups.length, ∀ b < groups.length,
      0 ≤ pairSum A.PT.val (groups.getD a []) (groups.getD b []) :=
    fun a ha b hb => pairSum_nonneg _ _ _ fun i hi j hj =>
      hpos i (group_lt hg a i ha hi) j (group_lt hg b j hb hj)
  obtain ⟨h1, _, h3⟩ := good_aggregate A h hsym hg hpos'
  exact ⟨h1, h3, fun a b ha hb => toarray_aggregate A h hg hn hp hpos' a b ha hb⟩

example : Good exA ∧ SymmetricOk exA ∧ Normalised exA.PT.nrows exA.w ∧
    (∀ i < exA.PT.nrows, ∀ j < exA.PT.nrows, 0 ≤ exA.PT.val i j) ∧
    IsGrouping exA.PT.nrows [[2, 0], [1]] := by
  refine ⟨exA_good, by intro h; exact absurd h (by decide), ⟨by decide +kernel, by decide +kernel⟩,
    by decide +kernel, ?_⟩
  unfold IsGrouping
  decide +kernel

/-- **C20** is violated for a negative block sum: the version chosen for few groups drops
it. -/
theorem C20_negative_block_dropped :
    ∃ (A : Autocov ℚ) (groups : List (List Nat)), Good A ∧ Normalised A.PT.nrows A.w ∧
      IsGrouping A.PT.nrows groups ∧
      (A.aggregate groups).toarray 0 0 ≠
        ((groups.getD 0 []).map fun i =>
          ((groups.getD 0 []).map fun j => A.toarray i j).sum).sum := by
  refine ⟨mkAutocov ⟨2, 2, [0, 2, 4], [0, 1, 0, 1], [1/4, -3/4, -3/4, 1/4]⟩
    (.vectors (fun _ => 1/2) (fun _ => 1/2)) false, [[0, 1]], ?_, ?_, ?_, by decide +kernel⟩
  · exact good_mk _ _ _ ⟨by decide, by decide, by decide, by decide, by decide, by decide⟩ rfl
      (by unfold Csr.NoRepeats; decide +kernel) (by simp)
  · exact ⟨by decide +kernel, by decide +kernel⟩
  · unfold IsGrouping; decide +kernel

/-- **C20** is violated for weights that do not sum to one: they are divided by their
sum. -/
theorem C20_weights_renormalised :
    ∃ (A : Autocov ℚ) (groups : List (List Nat)), Good A ∧
      (∀ i < A.PT.nrows, ∀ j < A.PT.nrows, 0 ≤ A.PT.val i j) ∧ IsGrouping A.PT.nrows groups ∧
      (A.aggregate groups).toarray 0 0 ≠
        ((groups.getD 0 []).map fun i =>
          ((groups.getD 0 []).map fun j => A.toarray i j).sum).sum := by
  refine ⟨mkAutocov ⟨2, 2, [0, 1, 2], [0, 1], [1, 1]⟩
    (.vectors (fun _ => 1) (fun _ => 1)) false, [[0, 1]], ?_, by decide +kernel, ?_,
    by decide +kernel⟩
  · exact good_mk _ _ _ ⟨by decide, by decide, by decide, by decide, by decide, by decide⟩ rfl
      (by unfold Csr.NoRepeats; decide +kernel) (by simp)
  · unfold IsGrouping; decide +kernel

/-! ## C21 -/

/-- **C21** (sparse).  The covariance of a row-stochastic matrix with the default `p2` has
vanishing row sums and column sums. -/
theorem C21_sums_vanish (T : Csr K) (hT : T.WF)
    (hrow : ∀ i < T.nrows, ∑ j ∈ Finset.range T.nrows, T.val i j = 1)
    (p1 : Nat → K) (hp1 : ∑ i ∈ Finset.range T.nrows, p1 i = 1) :
    (∀ i < T.nrows, ∑ j ∈ Finset.range T.nrows, (fromT T (some p1) none).toarray i j = 0) ∧
    (∀ j < T.nrows, ∑ i ∈ Finset.range T.nrows, (fromT T (some p1) none).toarray i j = 0) ∧
    block (fromT T (some p1) none).toarray (Finset.range T.nrows) (Finset.range T.nrows) = 0 := by
  have hrows : ∀ i < T.nrows,
      ∑ j ∈ Finset.range T.nrows, (fromT T (some p1) none).toarray i j = 0 := by
    intro i hi
    rw [Finset.sum_congr rfl fun j _ => toarray_fromT T hT (some p1) none i j hi]
    exact cov_row_sum T.nrows p1 (vecMat p1 T) T.val i ((sum_vecMat T p1 hrow).trans hp1) (hrow i hi)
  refine ⟨hrows, ?_, ?_⟩
  · intro j _
    rw [Finset.sum_congr rfl fun i hi =>
      toarray_fromT T hT (some p1) none i j (Finset.mem_range.1 hi)]
    exact cov_col_sum T.nrows p1 (vecMat p1 T) T.val j hp1 rfl
  · unfold block
    exact Finset.sum_eq_zero fun i hi => hrows i (Finset.mem_range.1 hi)

/-- **C21** with the default uniform `p1`. -/
theorem C21_sums_vanish_default (T : Csr K) (hT : T.WF) (hn : 0 < T.nrows)
    (hrow : ∀ i < T.nrows, ∑ j ∈ Finset.range T.nrows, T.val i j = 1) :
    (∀ i < T.nrows, ∑ j ∈ Finset.range T.nrows, (fromT T none none).toarray i j = 0) ∧
    (∀ j < T.nrows, ∑ i ∈ Finset.range T.nrows, (fromT T none none).toarray i j = 0) := by
  have hn1 : (T.nrows : K) ≠ 0 := by exact_mod_cast hn.ne'
  have h := C21_sums_vanish T hT hrow (uniform T.nrows) (by simp [uniform, hn1])
  exact ⟨h.1, h.2.1⟩

example : exT.WF ∧ 0 < exT.nrows ∧
    ∀ i < exT.nrows, ∑ j ∈ Finset.range exT.nrows, exT.val i j = 1 :=
  ⟨exT_wf, by decide, exT_stochastic.1⟩

/-- **C21** (dense matrices, no threshold). -/
theorem C21_dense_sums_vanish (n : Nat) (T : Nat → Nat → K) (p1 : Nat → K)
    (hrow : ∀ i < n, ∑ j ∈ Finset.range n, T i j = 1) (hp1 : ∑ i ∈ Finset.range n, p1 i = 1) :
    let p2 := fun j => ∑ i ∈ Finset.range n, p1 i * T i j
    (∀ i < n, ∑ j ∈ Finset.range n, computeS p1 p2 T none i j = 0) ∧
    (∀ j < n, ∑ i ∈ Finset.range n, computeS p1 p2 T none i j = 0) := by
  intro p2
  have hp2 : ∑ j ∈ Finset.range n, p2 j = 1 := by
    show ∑ j ∈ Finset.range n, ∑ i ∈ Finset.range n, p1 i * T i j = 1
    rw [Finset.sum_comm, ← hp1]
    apply Finset.sum_congr rfl
    intro i hi
    rw [← Finset.mul_sum, hrow i (Finset.mem_range.1 hi), mul_one]
  exact ⟨fun i hi => cov_row_sum n p1 p2 T i hp2 (hrow i hi),
    fun j _ => cov_col_sum n p1 p2 T j hp1 rfl⟩

/-- The threshold option changes no entry by more than the threshold, and none that
reaches it. -/
theorem C21_threshold (p1 p2 : Nat → K) (T : Nat → Nat → K) (t : K) (ht : 0 ≤ t) (i j : Nat) :
    |computeS p1 p2 T (some t) i j - computeS p1 p2 T none i j| ≤ t ∧
    (t ≤ |computeS p1 p2 T none i j| →
      computeS p1 p2 T (some t) i j = computeS p1 p2 T none i j) := by
  unfold computeS
  dsimp only
  split
  · rename_i h
    rw [zero_sub, abs_neg]
    exact ⟨h.le, fun h2 => absurd h (not_lt.2 h2)⟩
  · rw [sub_self, abs_zero]
    exact ⟨ht, fun _ => rfl⟩

example : (∀ i < 2, ∑ j ∈ Finset.range 2, (fun _ _ : Nat => (1/2 : ℚ)) i j = 1) ∧
    ∑ i ∈ Finset.range 2, (fun i : Nat => if i = 0 then (1/3 : ℚ) else 2/3) i = 1 :=
  ⟨by decide +kernel, by decide +kernel⟩

/-! ## C22 -/

theorem forward_eq_fwd (T : Csr K) (hT : T.WF) (hsq : T.ncols = T.nrows) (p1 : Option (Nat → K))
    (i j : Nat) (hi : i < T.nrows) (hj : j < T.nrows) :
    (fromTForward T p1 none).toarray i j =
      fwd T.nrows (p1.getD (uniform T.nrows)) (vecMat (p1.getD (uniform T.nrows)) T) T.val i j :=
  toarray_forward T hT hsq p1 none i j hi hj

/-- **C22** for one transition: the forward covariance of a stochastic matrix and an
initial distribution is symmetric, has vanishing row sums and is positive semidefinite. -/
theorem C22_forward (T : Csr K) (hT : T.WF) (hsq : T.ncols = T.nrows) (hs : Stochastic T)
    (p1 : Nat → K) (hp : Distribution T.nrows p1) :
    let S := (fromTForward T (some p1) none).toarray
    (∀ i < T.nrows, ∀ j < T.nrows, S i j = S j i) ∧
    (∀ i < T.nrows, ∑ j ∈ Finset.range T.nrows, S i j = 0) ∧
    ∀ x : Nat → K,
      0 ≤ ∑ i ∈ Finset.range T.nrows, ∑ j ∈ Finset.range T.nrows, x i * S i j * x j := by
  have he := fun i j hi hj => forward_eq_fwd T hT hsq (some p1) i j hi hj
  simp only [Option.getD_some] at he
  refine ⟨?_, ?_, ?_⟩
  · intro i hi j hj
    rw [he i j hi hj, he j i hj hi, fwd_symm]
  · intro i hi
    rw [Finset.sum_congr rfl fun j hj => he i j hi (Finset.mem_range.1 hj)]
    exact fwd_row_sum _ _ _ _ hp.1 hp.2 hs.2 hs.1 (fun _ _ => rfl) i hi
  · intro x
    rw [Finset.sum_congr rfl fun i hi => Finset.sum_congr rfl fun j hj => by
      rw [he i j (Finset.mem_range.1 hi) (Finset.mem_range.1 hj)]]
    exact fwd_psd _ _ _ _ hp.1 hp.2 hs.2 hs.1 (fun _ _ => rfl) x

/-- **C22** for one transition with the default uniform distribution (where the code keeps
two scalars instead of vectors). -/
theorem C22_forward_default (T : Csr K) (hT : T.WF) (hsq : T.ncols = T.nrows)
    (hs : Stochastic T) (hn : 0 < T.nrows) :
    let S := (fromTForward T none none).toarray
    (∀ i < T.nrows, ∀ j < T.nrows, S i j = S j i) ∧
    (∀ i < T.nrows, ∑ j ∈ Finset.range T.nrows, S i j = 0) ∧
    ∀ x : Nat → K,
      0 ≤ ∑ i ∈ Finset.range T.nrows, ∑ j ∈ Finset.range T.nrows, x i * S i j * x j := by
  have hn1 : (0 : K) < T.nrows := by exact_mod_cast hn
  have hp : Distribution T.nrows (uniform T.nrows : Nat → K) :=
    ⟨fun i _ => by unfold uniform; positivity, by simp [uniform, hn1.ne']⟩
  have h := C22_forward T hT hsq hs (uniform T.nrows) hp
  have he : ∀ i j, i < T.nrows → j < T.nrows → (fromTForward T none none).toarray i j =
      (fromTForward T (some (uniform T.nrows)) none).toarray i j := by
    intro i j hi hj
    rw [forward_eq_fwd T hT hsq none i j hi hj, forward_eq_fwd T hT hsq _ i j hi hj]
    rfl
  refine ⟨?_, ?_, ?_⟩
  · intro i hi j hj
    rw [he i j hi hj, he j i hj hi]
    exact h.1 i hi j hj
  · intro i hi
    rw [Finset.sum_congr rfl fun j hj => he i j hi (Finset.mem_range.1 hj)]
    exact h.2.1 i hi
  · intro x
    rw [Finset.sum_congr rfl fun i hi => Finset.sum_congr rfl fun j hj => by
      rw [he i j (Finset.mem_range.1 hi) (Finset.mem_range.1 hj)]]
    exact h.2.2 x

example : exT.WF ∧ exT.ncols = exT.nrows ∧ Stochastic exT ∧ Distribution exT.nrows
    (fun i => if i = 0 then (1/2 : ℚ) else 1/4) :=
  ⟨exT_wf, rfl, exT_stochastic, by decide +kernel, by decide +kernel⟩

/-- The forward covariance is built as a good, truthfully flagged object. -/
theorem C22_forward_good (T : Csr K) (hT : T.WF) (hsq : T.ncols = T.nrows)
    (p1 p2 : Option (Nat → K)) : Good (fromTForward T p1 p2) := good_forward T hT hsq p1 p2

/-! ## C55 -/

/-- **C55** (no false negative): an autocovariance that is zero is reported as zero. -/
theorem C55_zero_detected (A : Autocov K) (h : Good A)
    (h0 : ∀ i < A.PT.nrows, ∀ j < A.PT.nrows, A.toarray i j = 0) : A.isAllZeros = true := by
  unfold Autocov.isAllZeros
  rw [List.all_eq_true]
  intro i hi
  rw [List.mem_range] at hi
  rw [List.all_eq_true]
  intro e he
  have h1 : A.PT.val i e.1 = e.2 := sumAt_of_mem _ (h.noRepeats i hi) e he
  have h2 := h0 i hi e.1 (h.square ▸ h.wf.row_lt i e he)
  unfold Autocov.toarray at h2
  rw [h1] at h2
  unfold allclose
  rw [h2, abs_zero, decide_eq_true_eq]
  positivity

/-- `PT` equal to `p1 p2` everywhere. -/
def exN : Autocov ℚ :=
  mkAutocov ⟨2, 2, [0, 2, 4], [0, 1, 0, 1], [1/4, 1/4, 1/4, 1/4]⟩ (.scalars (1/2) (1/2)) false

example : Good exN ∧ ∀ i < exN.PT.nrows, ∀ j < exN.PT.nrows, exN.toarray i j = 0 :=
  ⟨good_mk _ _ _ ⟨by decide, by decide, by decide, by decide, by decide, by decide⟩ rfl
    (by unfold Csr.NoRepeats; decide +kernel) (by simp), by decide +kernel⟩

theorem mem_fromT_row (T : Csr K) (hT : T.WF) (p1 p2 : Option (Nat → K)) (i : Nat)
    (hi : i < T.nrows) (e : Nat × K) (he : e ∈ T.row i) :
    (e.1, e.2 * p1.getD (uniform T.nrows) i) ∈ (fromT T p1 p2).PT.row i := by
  have hi' : i < (diagMatmul T (p1.getD (uniform T.nrows))).nrows := by
    rw [diagMatmul, nrows_mapVals]; exact hi
  have h1 : (fromT T p1 p2).PT.row i =
      sortRow T.ncols ((diagMatmul T (p1.getD (uniform T.nrows))).row i) :=
    row_sortIndices _ _ hi'
  rw [h1]
  apply (perm_sortRow T.ncols _ ((wf_diagMatmul hT _).row_lt i)).symm.subset
  rw [diagMatmul, row_mapVals _ _ _ hi]
  exact List.mem_map.2 ⟨e, he, rfl⟩

/-- **C55** (no false positive for a stochastic matrix): although only stored entries are
inspected, every entry of an autocovariance reported as zero is within the tolerance
accumulated over a row. -/
theorem C55_reported_zero_is_small_partial (T : Csr K) (hT : T.WF) (hsq : T.ncols = T.nrows)
    (hr : T.NoRepeats) (hs : Stochastic T) (p1 : Nat → K) (hp : Distribution T.nrows p1)
    (hzero : (fromT T (some p1) none).isAllZeros = true) (i j : Nat) (hi : i < T.nrows)
    (hj : j < T.nrows) :
    |(fromT T (some p1) none).toarray i j| ≤ p1 i / 10 ^ 5 + T.nrows / 10 ^ 8 := by
  have hq0 : ∀ k < T.nrows, 0 ≤ vecMat p1 T k := fun k hk => Finset.sum_nonneg fun a ha =>
    mul_nonneg (hp.1 a (Finset.mem_range.1 ha)) (hs.2 a (Finset.mem_range.1 ha) k hk)
  have hq1 : ∑ k ∈ Finset.range T.nrows, vecMat p1 T k = 1 := (sum_vecMat T p1 hs.1).trans hp.2
  have hpi := hp.1 i hi
  -- entries reported as close
  have hstored : ∀ e ∈ T.row i,
      |p1 i * T.val i e.1 - p1 i * vecMat p1 T e.1| ≤
        1 / 10 ^ 8 + 1 / 10 ^ 5 * (p1 i * vecMat p1 T e.1) := by
    intro e he
    have h1 := mem_fromT_row T hT (some p1) none i hi e he
    unfold Autocov.isAllZeros at hzero
    rw [List.all_eq_true] at hzero
    have h2 := hzero i (by
      rw [List.mem_range]
      show i < (sortIndices (diagMatmul T p1)).nrows
      rw [nrows_sortIndices, diagMatmul, nrows_mapVals]; exact hi)
    rw [List.all_eq_true] at h2
    have h3 := h2 _ h1
    unfold allclose at h3
    rw [decide_eq_true_eq] at h3
    have h4 : T.val i e.1 = e.2 := sumAt_of_mem _ (hr i hi) e he
    have h5 : (fromT T (some p1) none).w.p0 i e.1 = p1 i * vecMat p1 T e.1 := rfl
    have hcol : e.1 < T.nrows := hsq ▸ hT.row_lt i e he
    rw [h5, abs_of_nonneg (mul_nonneg hpi (hq0 _ hcol))] at h3
    rw [h4, mul_comm (p1 i) e.2]
    exact h3
  have hclose : ∀ k < T.nrows, p1 i * T.val i k - p1 i * vecMat p1 T k ≤
      1 / 10 ^ 8 + 1 / 10 ^ 5 * (p1 i * vecMat p1 T k) := by
    intro k hk
    by_cases hmem : ∃ e ∈ T.row i, e.1 = k
    · obtain ⟨e, he, rfl⟩ := hmem
      exact (le_abs_self _).trans (hstored e he)
    · have h0 : T.val i k = 0 := sumAt_eq_zero _ _ fun e he hc => hmem ⟨e, he, hc⟩
      rw [h0, mul_zero]
      have := mul_nonneg hpi (hq0 k hk)
      have : (0 : K) ≤ 1 / 10 ^ 8 + 1 / 10 ^ 5 * (p1 i * vecMat p1 T k) := by positivity
      linarith
  rw [toarray_fromT T hT (some p1) none i j hi]
  simp only [Option.getD_some, Option.getD_none]
  by_cases hmem : ∃ e ∈ T.row i, e.1 = j
  · obtain ⟨e, he, rfl⟩ := hmem
    refine (hstored e he).trans ?_
    have hle : vecMat p1 T e.1 ≤ 1 := by
      rw [← hq1]
      exact Finset.single_le_sum (f := vecMat p1 T)
        (fun k hk => hq0 k (Finset.mem_range.1 hk)) (Finset.mem_range.2 hj)
    have h1 : p1 i * vecMat p1 T e.1 ≤ p1 i := by
      calc p1 i * vecMat p1 T e.1 ≤ p1 i * 1 := mul_le_mul_of_nonneg_left hle hpi
        _ = p1 i := mul_one _
    have h2 : (1 : K) ≤ T.nrows := by exact_mod_cast (show 1 ≤ T.nrows by omega)
    have h3 : (1 : K) / 10 ^ 8 ≤ T.nrows / 10 ^ 8 := by gcongr
    have h4 : 1 / 10 ^ 5 * (p1 i * vecMat p1 T e.1) ≤ p1 i / 10 ^ 5 := by
      rw [one_div, mul_comm, ← div_eq_mul_inv]; gcongr
    linarith
  · have h0 : T.val i j = 0 := sumAt_eq_zero _ _ fun e he hc => hmem ⟨e, he, hc⟩
    rw [h0, mul_zero, zero_sub, abs_neg, abs_of_nonneg (mul_nonneg hpi (hq0 j hj))]
    -- sum the upper bounds over the other columns
    have hsum : ∑ k ∈ (Finset.range T.nrows).erase j,
        (p1 i * T.val i k - p1 i * vecMat p1 T k) ≤
        ∑ k ∈ (Finset.range T.nrows).erase j,
          (1 / 10 ^ 8 + 1 / 10 ^ 5 * (p1 i * vecMat p1 T k)) :=
      Finset.sum_le_sum fun k hk =>
        hclose k (Finset.mem_range.1 (Finset.mem_of_mem_erase hk))
    have hjm : j ∈ Finset.range T.nrows := Finset.mem_range.2 hj
    have hleft : ∑ k ∈ (Finset.range T.nrows).erase j,
        (p1 i * T.val i k - p1 i * vecMat p1 T k) = p1 i * vecMat p1 T j := by
      have := Finset.sum_erase_add (Finset.range T.nrows)
        (fun k => p1 i * T.val i k - p1 i * vecMat p1 T k) hjm
      have hz : ∑ k ∈ Finset.range T.nrows, (p1 i * T.val i k - p1 i * vecMat p1 T k) = 0 :=
        cov_row_sum T.nrows p1 (vecMat p1 T) T.val i hq1 (hs.1 i hi)
      rw [hz, h0, mul_zero, zero_sub] at this
      linarith
    have hright : ∑ k ∈ (Finset.range T.nrows).erase j,
        (1 / 10 ^ 8 + 1 / 10 ^ 5 * (p1 i * vecMat p1 T k)) ≤ T.nrows / 10 ^ 8 + p1 i / 10 ^ 5 := by
      have hall : ∑ k ∈ (Finset.range T.nrows).erase j,
          (1 / 10 ^ 8 + 1 / 10 ^ 5 * (p1 i * vecMat p1 T k)) ≤
          ∑ k ∈ Finset.range T.nrows, (1 / 10 ^ 8 + 1 / 10 ^ 5 * (p1 i * vecMat p1 T k)) := by
        apply Finset.sum_le_sum_of_subset_of_nonneg (Finset.erase_subset _ _)
        intro k hk _
        have := mul_nonneg hpi (hq0 k (Finset.mem_range.1 hk))
        positivity
      refine hall.trans (le_of_eq ?_)
      rw [Finset.sum_add_distrib, ← Finset.mul_sum, ← Finset.mul_sum, hq1, Finset.sum_const,
        Finset.card_range, nsmul_eq_mul]
      ring
    rw [hleft] at hsum
    linarith

/-- A rank-one stochastic matrix: its autocovariance vanishes. -/
def exR : Csr ℚ := ⟨2, 2, [0, 1, 2], [1, 1], [1, 1]⟩

example : exR.WF ∧ exR.ncols = exR.nrows ∧ exR.NoRepeats ∧ Stochastic exR ∧
    Distribution exR.nrows (fun _ => (1/2 : ℚ)) ∧
    (fromT exR (some fun _ => 1/2) none).isAllZeros = true :=
  ⟨⟨by decide, by decide, by decide, by decide, by decide, by decide⟩, rfl,
    by unfold Csr.NoRepeats; decide +kernel, ⟨by decide +kernel, by decide +kernel⟩,
    ⟨by decide +kernel, by decide +kernel⟩, by decide +kernel⟩

/-- **C55** is violated in general: entries that are not stored in `PT` are not inspected.
A matrix without stored entries is reported as zero although it is `-p1 p2`. -/
theorem C55_unstored_entries_ignored : ∃ A : Autocov ℚ, Good A ∧ A.isAllZeros = true ∧
    A.toarray 0 1 = -1/4 := by
  refine ⟨mkAutocov ⟨2, 2, [0, 0, 0], [], []⟩ (.scalars (1/2) (1/2)) false, ?_, by decide +kernel,
    by decide +kernel⟩
  exact good_mk _ _ _ ⟨by decide, by decide, by decide, by decide, by decide, by decide⟩ rfl
    (by unfold Csr.NoRepeats; decide +kernel) (by simp)

end Verif.Autocov
