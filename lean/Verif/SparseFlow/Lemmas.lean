import Verif.SparseFlow.Model
import Verif.SparseStoch.Props
import Verif.Autocov.AggLemmas
import Verif.Flow.Lemmas

/-!
# The operations on the stored arrays have the values of the operations on matrices
-/

set_option linter.dupNamespace false
set_option linter.unusedSectionVars false

namespace Verif.SparseFlow

open Verif.Csr Verif.Autocov Verif.SparseStoch
open Verif.Trans (Mat EqOn)

variable {K : Type} [Field K] [LinearOrder K] [IsStrictOrderedRing K]

/-- A well-formed `n × n` matrix. -/
structure Sq (n : Nat) (M : Csr K) : Prop where
  wf : M.WF
  rows : M.nrows = n
  cols : M.ncols = n

theorem sumAt_nonzero (r : List (Nat × K)) (j : Nat) :
    sumAt (r.filter fun e => decide (e.2 ≠ 0)) j = sumAt r j := by
  induction r with
  | nil => rfl
  | cons e r ih =>
    rw [List.filter_cons]
    by_cases h : e.2 = 0
    · rw [if_neg (by simpa using h), ih, sumAt_cons, h]
      simp
    · rw [if_pos (by simpa using h), sumAt_cons, sumAt_cons, ih]

theorem Sq.ofRows_map {n : Nat} {f : Nat → List (Nat × K)} (h : ∀ i, ∀ e ∈ f i, e.1 < n) :
    Sq n (ofRows n ((List.range n).map f)) := by
  refine ⟨wf_ofRows _ _ ?_, by simp, rfl⟩
  intro r hr e he
  rw [List.mem_map] at hr
  obtain ⟨i, _, rfl⟩ := hr
  exact h i e he

theorem Sq.dropZeros {n : Nat} {M : Csr K} (h : Sq n M) : Sq n (dropZeros M) := by
  unfold SparseFlow.dropZeros
  rw [h.cols, h.rows]
  exact Sq.ofRows_map fun i e he => h.cols ▸ h.wf.row_lt i e (List.mem_filter.1 he).1

theorem row_dropZeros {n : Nat} {M : Csr K} (h : Sq n M) {i : Nat} (hi : i < n) :
    (SparseFlow.dropZeros M).row i = (M.row i).filter fun e => decide (e.2 ≠ 0) :=
  row_ofRows_map _ _ _ _ (by rw [h.rows]; exact hi)

theorem val_dropZeros {n : Nat} {M : Csr K} (h : Sq n M) {i : Nat} (hi : i < n) (j : Nat) :
    (SparseFlow.dropZeros M).val i j = M.val i j := by
  unfold Csr.val
  rw [row_dropZeros h hi, sumAt_nonzero]

theorem noRepeats_dropZeros {n : Nat} {M : Csr K} (h : Sq n M) (hr : M.NoRepeats) :
    (SparseFlow.dropZeros M).NoRepeats := by
  intro i hi
  rw [h.dropZeros.rows] at hi
  rw [row_dropZeros h hi]
  exact (hr i (by rw [h.rows]; exact hi)).sublist (List.Sublist.map _ List.filter_sublist)

theorem noZeros_dropZeros {n : Nat} {M : Csr K} (h : Sq n M) : (SparseFlow.dropZeros M).NoZeros := by
  intro i hi e he
  rw [h.dropZeros.rows] at hi
  rw [row_dropZeros h hi] at he
  simpa using (List.mem_filter.1 he).2

/-! ## Trimming -/

theorem noRepeats_set {M : Csr K} (hr : M.NoRepeats) (tol : K) (r u : Bool) :
    (csrSetToZeroes tol r u M).NoRepeats := by
  unfold csrSetToZeroes
  dsimp only
  split
  · exact hr
  · intro i hi
    have hi' : i < M.nrows := by simpa using hi
    rw [row_ofRows_map _ _ _ _ hi']
    exact (hr i hi').sublist (List.Sublist.map _ List.filter_sublist)

theorem Sq.trimC {n : Nat} {M : Csr K} (h : Sq n M) (rtol : K) : Sq n (trimC rtol M) := by
  obtain ⟨a, b, c⟩ := setToZeroes_wf rtol true true h.wf
  exact Sq.dropZeros ⟨a, b.trans h.rows, c.trans h.cols⟩

theorem sq_set {n : Nat} {M : Csr K} (h : Sq n M) (rtol : K) : Sq n (csrSetToZeroes rtol true true M) := by
  obtain ⟨a, b, c⟩ := setToZeroes_wf rtol true true h.wf
  exact ⟨a, b.trans h.rows, c.trans h.cols⟩

theorem noRepeats_trimC {n : Nat} {M : Csr K} (h : Sq n M) (hr : M.NoRepeats) (rtol : K) :
    (SparseFlow.trimC rtol M).NoRepeats :=
  noRepeats_dropZeros (sq_set h rtol) (noRepeats_set hr rtol true true)

/-- Stored data are values of the matrix. -/
theorem data_val {n : Nat} {M : Csr K} (h : Sq n M) (hr : M.NoRepeats) {x : K} (hx : x ∈ M.data) :
    ∃ i < n, ∃ j < n, M.val i j = x := by
  have hz : x ∈ (M.indices.zip M.data).map Prod.snd := by
    rw [List.map_snd_zip (by rw [h.wf.lens])]
    exact hx
  rw [List.mem_map] at hz
  obtain ⟨e, he, rfl⟩ := hz
  rw [← h.wf.flatten_rows, List.mem_flatten] at he
  obtain ⟨l, hl, hel⟩ := he
  unfold Csr.rows at hl
  rw [List.mem_map] at hl
  obtain ⟨i, hi, rfl⟩ := hl
  rw [List.mem_range] at hi
  refine ⟨i, h.rows ▸ hi, e.1, ?_, ?_⟩
  · rw [← h.cols]; exact h.wf.row_lt i e hel
  · exact sumAt_of_mem _ (hr i hi) e hel

theorem val_data {M : Csr K} (hr : M.NoRepeats) {i j : Nat} (hi : i < M.nrows) :
    M.val i j = 0 ∨ M.val i j ∈ M.data := by
  by_cases hm : ∃ e ∈ M.row i, e.1 = j
  · obtain ⟨e, he, rfl⟩ := hm
    right
    unfold Csr.val
    rw [sumAt_of_mem _ (hr i hi) e he]
    exact (row_sub M i e he).2
  · left
    exact sumAt_eq_zero _ _ fun e he hj => hm ⟨e, he, hj⟩

theorem threshold_eq {n : Nat} {M : Csr K} (h : Sq n M) (hr : M.NoRepeats) (hne : M.data ≠ []) (rtol : K) :
    zeroThreshold rtol true M.data = rtol * Trans.maxAbs n M.val := by
  have := isThreshold rtol true M.data hne
  unfold IsThreshold at this
  rw [if_pos rfl] at this
  obtain ⟨m, h1, ⟨x, hx, hxm⟩, h3⟩ := this
  rw [h3]
  congr 1
  apply le_antisymm
  · obtain ⟨i, hi, j, hj, rfl⟩ := data_val h hr hx
    rw [← hxm]
    exact Trans.abs_le_maxAbs _ hi hj
  · refine Trans.maxAbs_le (hxm ▸ abs_nonneg x) fun i hi j _ => ?_
    rcases val_data hr (i := i) (j := j) (by rw [h.rows]; exact hi) with h0 | h0
    · rw [h0, abs_zero]; exact hxm ▸ abs_nonneg x
    · exact h1 _ h0

theorem val_trimC {n : Nat} {M : Csr K} (h : Sq n M) (hr : M.NoRepeats) (rtol : K) :
    EqOn n (SparseFlow.trimC rtol M).val (Flow.trim n rtol M.val) := by
  intro i hi j hj
  unfold SparseFlow.trimC
  rw [val_dropZeros (sq_set h rtol) hi, setToZeroes_val rtol true true hr i j (by rw [h.rows]; exact hi)]
  unfold Flow.trim zeroed
  simp only [if_true, decide_eq_true_eq]
  by_cases hd : M.data = []
  · have : M.val i j = 0 := by
      rcases val_data hr (i := i) (j := j) (by rw [h.rows]; exact hi) with h0 | h0
      · exact h0
      · rw [hd] at h0; simp at h0
    rw [this]; simp
  · rw [threshold_eq h hr hd]

theorem trim_congr {n : Nat} {A B : Mat K} (h : EqOn n A B) (rtol : K) :
    EqOn n (Flow.trim n rtol A) (Flow.trim n rtol B) := by
  have hm : Trans.maxAbs n A = Trans.maxAbs n B := by
    apply le_antisymm
    · exact Trans.maxAbs_le (Trans.maxAbs_nonneg _ _) fun i hi j hj => by
        rw [h i hi j hj]; exact Trans.abs_le_maxAbs _ hi hj
    · exact Trans.maxAbs_le (Trans.maxAbs_nonneg _ _) fun i hi j hj => by
        rw [← h i hi j hj]; exact Trans.abs_le_maxAbs _ hi hj
  intro i hi j hj
  unfold Flow.trim
  rw [hm, h i hi j hj]

/-! ## Sums -/

theorem nodup_canonRow (n : Nat) (b : Bool) (r : List (Nat × K)) : ((canonRow n b r).map Prod.fst).Nodup := by
  unfold canonRow
  have : ((List.range n).filterMap fun j =>
      if (r.any (fun e => e.1 == j) && !(b && decide (sumAt r j = 0))) = true then some (j, sumAt r j) else none).map
        Prod.fst = (List.range n).filter fun j => r.any (fun e => e.1 == j) && !(b && decide (sumAt r j = 0)) := by
    generalize List.range n = l
    induction l with
    | nil => rfl
    | cons a l ih =>
      rw [List.filterMap_cons, List.filter_cons]
      by_cases h : (r.any (fun e => e.1 == a) && !(b && decide (sumAt r a = 0))) = true
      · rw [if_pos h, if_pos h]
        simp only [List.map_cons]
        rw [ih]
      · rw [if_neg h, if_neg h]
        exact ih
  rw [this]
  exact List.nodup_range.filter _

theorem nonzero_canonRow (n : Nat) (r : List (Nat × K)) : ∀ e ∈ canonRow n true r, e.2 ≠ 0 := by
  intro e he
  unfold canonRow at he
  rw [List.mem_filterMap] at he
  obtain ⟨j, _, hj⟩ := he
  split at hj
  · rename_i hc
    injection hj with hj
    rw [← hj]
    simp only [Bool.and_eq_true, Bool.not_eq_true', Bool.true_and, decide_eq_false_iff_not] at hc
    exact hc.2
  · simp at hj

theorem row_addC {n : Nat} {A B : Csr K} (hA : Sq n A) {i : Nat} (hi : i < n) :
    (addC A B).row i = canonRow n true (A.row i ++ B.row i) := by
  unfold addC
  rw [row_ofRows_map _ _ _ _ (by rw [hA.rows]; exact hi), hA.cols]

theorem sq_addC {n : Nat} {A B : Csr K} (hA : Sq n A) : Sq n (addC A B) := by
  unfold addC
  rw [hA.cols, hA.rows]
  exact Sq.ofRows_map fun i e he => mem_canonRow_lt _ _ _ e he

theorem val_addC {n : Nat} {A B : Csr K} (hA : Sq n A) {i j : Nat} (hi : i < n) (hj : j < n) :
    (addC A B).val i j = A.val i j + B.val i j := by
  unfold Csr.val
  rw [row_addC hA hi, sumAt_canonRow _ _ _ _ hj, sumAt_append]

theorem noRepeats_addC {n : Nat} {A B : Csr K} (hA : Sq n A) : (addC A B).NoRepeats := by
  intro i hi
  rw [(sq_addC hA).rows] at hi
  rw [row_addC hA hi]
  exact nodup_canonRow _ _ _

theorem noZeros_addC {n : Nat} {A B : Csr K} (hA : Sq n A) : (addC A B).NoZeros := by
  intro i hi
  rw [(sq_addC hA).rows] at hi
  rw [row_addC hA hi]
  exact nonzero_canonRow _ _

theorem row_subDiagC {n : Nat} {M : Csr K} (D : Csr K) (hM : Sq n M) {i : Nat} (hi : i < n) :
    (subDiagC M D).row i = canonRow n true (M.row i ++ [(i, -D.val i i)]) := by
  unfold subDiagC
  rw [row_ofRows_map _ _ _ _ (by rw [hM.rows]; exact hi), hM.cols]

theorem sq_subDiagC {n : Nat} {M : Csr K} (D : Csr K) (hM : Sq n M) : Sq n (subDiagC M D) := by
  unfold subDiagC
  rw [hM.cols, hM.rows]
  exact Sq.ofRows_map fun i e he => mem_canonRow_lt _ _ _ e he

theorem val_subDiagC {n : Nat} {M : Csr K} (D : Csr K) (hM : Sq n M) {i j : Nat} (hi : i < n) (hj : j < n) :
    (subDiagC M D).val i j = M.val i j - (if i = j then D.val i i else 0) := by
  unfold Csr.val
  rw [row_subDiagC D hM hi, sumAt_canonRow _ _ _ _ hj, sumAt_append, sumAt_cons]
  by_cases h : i = j
  · subst h
    simp [sumAt, Csr.val, sub_eq_add_neg]
  · simp [sumAt, h]

theorem noRepeats_subDiagC {n : Nat} {M : Csr K} (D : Csr K) (hM : Sq n M) : (subDiagC M D).NoRepeats := by
  intro i hi
  rw [(sq_subDiagC D hM).rows] at hi
  rw [row_subDiagC D hM hi]
  exact nodup_canonRow _ _ _

theorem noZeros_subDiagC {n : Nat} {M : Csr K} (D : Csr K) (hM : Sq n M) : (subDiagC M D).NoZeros := by
  intro i hi
  rw [(sq_subDiagC D hM).rows] at hi
  rw [row_subDiagC D hM hi]
  exact nonzero_canonRow _ _

/-! ## Products -/

theorem sq_emptyC (n : Nat) : Sq n (emptyC n : Csr K) := Sq.ofRows_map fun _ _ he => by simp at he

theorem row_emptyC {n i : Nat} (hi : i < n) : (emptyC n : Csr K).row i = [] := row_ofRows_map _ _ _ _ hi

theorem val_emptyC {n i : Nat} (hi : i < n) (j : Nat) : (emptyC n : Csr K).val i j = 0 := by
  unfold Csr.val
  rw [row_emptyC hi]
  rfl

theorem sq_mapVals {n : Nat} {M : Csr K} (h : Sq n M) (f : Nat → Nat → K → K) : Sq n (mapVals M f) :=
  ⟨wf_mapVals h.wf f, (nrows_mapVals M f).trans h.rows, h.cols⟩

theorem sq_matmul {n : Nat} {A B : Csr K} (hA : Sq n A) (hB : Sq n B) : Sq n (A.matmul B) :=
  ⟨wf_matmul A B, (nrows_matmul A B).trans hA.rows, hB.cols⟩

theorem sq_transpose {n : Nat} {A : Csr K} (h : Sq n A) : Sq n A.transpose :=
  ⟨wf_transpose A, (nrows_transpose A).trans h.cols, h.rows⟩

theorem sq_scale {n : Nat} {A : Csr K} (h : Sq n A) (o : K) : Sq n (A.scale o) :=
  ⟨wf_scale h.wf o, h.rows, h.cols⟩

theorem noRepeats_scale {A : Csr K} (h : A.NoRepeats) (o : K) : (A.scale o).NoRepeats := by
  intro i hi
  rw [row_scale, List.map_map]
  exact h i hi

theorem noZeros_scale {A : Csr K} (h : A.NoZeros) {o : K} (ho : o ≠ 0) : (A.scale o).NoZeros := by
  intro i hi e he
  rw [row_scale, List.mem_map] at he
  obtain ⟨e', he', rfl⟩ := he
  exact mul_ne_zero (h i hi e' he') ho

theorem noRepeats_matmul (A B : Csr K) : (A.matmul B).NoRepeats := by
  unfold Csr.matmul
  exact noRepeats_ofRows_map _ _ _ fun i _ => nodup_canonRow _ _ _

theorem val_matmulSq {n : Nat} {A B : Csr K} (hA : Sq n A) (hB : Sq n B) :
    EqOn n (A.matmul B).val (Trans.mul n A.val B.val) := by
  intro i hi j hj
  rw [val_matmul A B hA.wf i j (by rw [hA.rows]; exact hi) (by rw [hB.cols]; exact hj), hA.cols]
  rfl

theorem val_rowNormalize {n : Nat} {M : Csr K} (h : Sq n M) (be : Backend) :
    Sq n (SparseStoch.rowNormalize be 1 M) ∧
      EqOn n (SparseStoch.rowNormalize be 1 M).val (Trans.rowNormalize n M.val) := by
  obtain ⟨h1, -⟩ := normalize_spec be (fun _ => 1) M h.wf
  refine ⟨⟨h1, h.rows, h.cols⟩, fun i hi j hj => ?_⟩
  obtain ⟨-, b, c⟩ := C15_rows_sum_to_target be 1 M h.wf i (by rw [h.rows]; exact hi)
  unfold Trans.rowNormalize
  unfold rowTotal at b c
  rw [h.cols] at b c
  split
  · rename_i h0
    exact c h0 j
  · rename_i h0
    rw [b h0 one_ne_zero j]
    ring

theorem gram_shape {n : Nat} {A : Csr K} (h : Sq n A) (mkl : Bool) :
    Sq n (gramC mkl A) ∧ (gramC mkl A).NoRepeats ∧ ∀ i < n, ∀ j < n, (gramC mkl A).val i j =
      if (mkl && decide (j < i)) = true then 0 else ∑ k ∈ Finset.range n, A.val i k * A.val j k := by
  have hs := sq_matmul h (sq_transpose h)
  have hv : ∀ i < n, ∀ j < n, (A.matmul A.transpose).val i j = ∑ k ∈ Finset.range n, A.val i k * A.val j k := by
    intro i hi j hj
    rw [val_matmulSq h (sq_transpose h) i hi j hj]
    unfold Trans.mul
    apply Finset.sum_congr rfl
    intro k hk
    rw [val_transpose A j k (by rw [h.rows]; exact hj) (by rw [h.cols]; exact Finset.mem_range.1 hk)]
  unfold gramC
  dsimp only
  cases mkl
  · refine ⟨hs, noRepeats_matmul _ _, fun i hi j hj => ?_⟩
    rw [if_neg (by simp), if_neg (by simp)]
    exact hv i hi j hj
  · simp only [if_true, Bool.true_and, decide_eq_true_eq]
    rw [hs.cols, hs.rows]
    refine ⟨Sq.ofRows_map fun i e he => hs.cols ▸ hs.wf.row_lt i e (List.mem_filter.1 he).1, ?_, fun i hi j hj => ?_⟩
    · refine noRepeats_ofRows_map _ _ _ fun i hi => ?_
      exact (noRepeats_matmul A A.transpose i (by rw [hs.rows]; exact hi)).sublist
        (List.Sublist.map _ List.filter_sublist)
    · rw [← hv i hi j hj]
      unfold Csr.val
      rw [row_ofRows_map _ _ _ _ hi]
      generalize (A.matmul A.transpose).row i = r
      induction r with
      | nil => simp [sumAt]
      | cons e r ih =>
        rw [List.filter_cons, sumAt_cons]
        by_cases h1 : i ≤ e.1
        · rw [if_pos (by simpa using h1), sumAt_cons, ih]
          by_cases h2 : j < i
          · rw [if_pos h2, if_pos h2, if_neg (by omega)]; simp
          · rw [if_neg h2, if_neg h2]
        · rw [if_neg (by simpa using h1), ih]
          by_cases h2 : j < i
          · rw [if_pos h2, if_pos h2]
          · rw [if_neg h2, if_neg h2, if_neg (by omega), zero_add]

end Verif.SparseFlow
