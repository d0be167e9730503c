import Verif.SparseStoch.FullLemmas
import Mathlib.Data.Rat.Defs
import Mathlib.Algebra.Order.Ring.Rat
import Mathlib.Tactic.NormNum

/-!
# Compressed stochastic matrices: properties C11 to C17
-/

namespace Verif.SparseStoch

set_option linter.unusedSectionVars false

open Verif.Csr

variable {K : Type} [Field K] [LinearOrder K] [IsStrictOrderedRing K]

/-! ## Concrete matrices used to show that the hypotheses can be met -/

/-- Kept indices 0 and 2 of 3, block `[[1/2, 1/2], [0, 1]]`. -/
def exA : SSM ℚ := ⟨3, [0, 2], ⟨2, 2, [0, 2, 3], [0, 1, 1], [1/2, 1/2, 1]⟩, 1⟩

/-- Kept indices 1 and 2 of 3, block `[[1/3, 2/3], [1, 0]]`. -/
def exB : SSM ℚ := ⟨3, [1, 2], ⟨2, 2, [0, 2, 3], [1, 0, 0], [2/3, 1/3, 1]⟩, 2⟩

/-- Kept index 1 of 3, disjoint from those of `exA`. -/
def exD : SSM ℚ := ⟨3, [1], ⟨1, 1, [0, 1], [0], [5]⟩, 1⟩

/-- `[[1/2, 0, 1/2], [0, 1, 0], [0, 0, 1]]`. -/
def exT : Csr ℚ := ⟨3, 3, [0, 2, 3, 4], [0, 2, 1, 2], [1/2, 1/2, 1, 1]⟩

theorem exA_wf : exA.WF :=
  ⟨by decide, by decide, ⟨by decide, by decide, by decide, by decide, by decide, by decide⟩,
    by decide, by decide⟩

theorem exB_wf : exB.WF :=
  ⟨by decide, by decide, ⟨by decide, by decide, by decide, by decide, by decide, by decide⟩,
    by decide, by decide⟩

theorem exD_wf : exD.WF :=
  ⟨by decide, by decide, ⟨by decide, by decide, by decide, by decide, by decide, by decide⟩,
    by decide, by decide⟩

theorem exT_wf : exT.WF := ⟨by decide, by decide, by decide, by decide, by decide, by decide⟩

theorem exT_noRepeats : exT.NoRepeats := by unfold Csr.NoRepeats; decide +kernel

theorem exT_noZeros : exT.NoZeros := by unfold Csr.NoZeros; decide +kernel

/-! ## C11 -/

/-- **C11** (meaning).  Expanding a well-formed compressed matrix never fails and gives
the block on the kept indices, `diag` on the remaining diagonal and 0 elsewhere. -/
theorem C11_expansion (A : SSM K) (h : A.WF) :
    ∃ M, A.toFull = .ok M ∧ M.WF ∧ M.nrows = A.size ∧ M.ncols = A.size ∧
      (∀ a b (ha : a < A.nz.length) (hb : b < A.nz.length),
        M.val A.nz[a] A.nz[b] = A.small.val a b) ∧
      (∀ i j, i < A.size → j < A.size → i ∉ A.nz ∨ j ∉ A.nz →
        M.val i j = if i = j then A.diag else 0) ∧
      ∀ i j, i < A.size → M.val i j = A.dense i j := by
  obtain ⟨M, h1, h2, h3, h4, h5⟩ := toFull_ok h
  refine ⟨M, h1, h2, h3, h4, ?_, ?_, h5⟩
  · intro a b ha hb
    rw [h5 _ _ (h.inside _ (List.getElem_mem _)), WF.dense_getElem h a b ha hb]
  · intro i j hi _ hout
    rw [h5 i j hi, dense_not_mem hout]

example : exA.WF ∧ exA.nz ≠ [] ∧ 1 ∉ exA.nz := ⟨exA_wf, by decide, by decide⟩

/-- **C11** (round trip), with either version of the helper routines: compressing a square
matrix with the detected indices and expanding the result gives back every entry, when
`diag_val` is not 0 and the matrix stores no zeros and no repeated entries. -/
theorem C11_round_trip_partial (be : Backend) (T : Csr K) (d : K) (hT : T.WF)
    (hsq : T.ncols = T.nrows) (hrep : T.NoRepeats) (hz : T.NoZeros) (hd : d ≠ 0) :
    ∃ C M, fromFull be T d = .ok C ∧ C.WF ∧ C.toFull = .ok M ∧ M.nrows = T.nrows ∧
      M.ncols = T.ncols ∧ ∀ i j, i < T.nrows → j < T.nrows → M.val i j = T.val i j := by
  obtain ⟨C, h1, h2, h3, _, h4⟩ := fromFullWith_sorted be hT hsq hrep hz (detect T d) d hd
    (detect_sorted T d) (fun i hi => ((mem_detect T d i).1 hi).1) (identityOutside_detect T d)
  obtain ⟨M, h5, _, h6, h7, h8⟩ := toFull_ok h2
  refine ⟨C, M, h1, h2, h5, h6.trans h3, ?_, ?_⟩
  · rw [h7, h3, hsq]
  · intro i j hi hj
    rw [h8 i j (by rw [h3]; exact hi), h4 i j hi hj]

example : exT.WF ∧ exT.ncols = exT.nrows ∧ exT.NoRepeats ∧ exT.NoZeros ∧ (1 : ℚ) ≠ 0 ∧
    detect exT 1 = [0, 2] :=
  ⟨exT_wf, rfl, exT_noRepeats, exT_noZeros, by norm_num, by decide +kernel⟩

/-- **C11** (which indices are kept): exactly those whose row or column differs from
`diag_val` times the identity. -/
theorem C11_detected_indices (be : Backend) (T : Csr K) (d : K) (hT : T.WF)
    (hsq : T.ncols = T.nrows) (hrep : T.NoRepeats) (hz : T.NoZeros) (hd : d ≠ 0)
    (C : SSM K) (hC : fromFull be T d = .ok C) (i : Nat) :
    i ∈ C.nz ↔ i < T.nrows ∧ ∃ j < T.nrows,
      T.val i j ≠ (if i = j then d else 0) ∨ T.val j i ≠ (if j = i then d else 0) := by
  obtain ⟨C', h1, _, _, h3, _⟩ := fromFullWith_sorted be hT hsq hrep hz (detect T d) d hd
    (detect_sorted T d) (fun i hi => ((mem_detect T d i).1 hi).1) (identityOutside_detect T d)
  unfold fromFull at hC
  rw [h1] at hC
  cases hC
  rw [h3]
  exact mem_detect T d i

example : ∃ C, fromFull .compiled exT 1 = .ok C := by
  obtain ⟨C, _, h, _⟩ := C11_round_trip_partial .compiled exT 1 exT_wf rfl exT_noRepeats
    exT_noZeros (by norm_num)
  exact ⟨C, h⟩

/-- **C11** is violated for `diag_val = 0`: as soon as one index is left out (its row and
column are zero), compression fails, because the result array is sized for one stored
entry in every row that is left out. -/
theorem C11_zero_diag_fails (be : Backend) (T : Csr K) (hT : T.WF) (hsq : T.ncols = T.nrows)
    (hrep : T.NoRepeats) (hz : T.NoZeros) (i : Nat) (hi : i < T.nrows)
    (hzero : ∀ j < T.nrows, T.val i j = 0 ∧ T.val j i = 0) :
    ∀ C, fromFull be T 0 ≠ .ok C := by
  intro C
  apply fromFull_zero_diag be hT hsq hrep hz i hi
  intro h
  obtain ⟨_, j, hj, h2⟩ := (mem_detect T 0 i).1 h
  obtain ⟨h3, h4⟩ := hzero j hj
  rcases h2 with h2 | h2
  · apply h2; rw [h3]; simp
  · apply h2; rw [h4]; simp

/-- `[[2, 0], [0, 0]]` without stored zeros. -/
def exZ : Csr ℚ := ⟨2, 2, [0, 1, 1], [0], [2]⟩

example : exZ.WF ∧ exZ.NoRepeats ∧ exZ.NoZeros ∧
    (∀ j < exZ.nrows, exZ.val 1 j = 0 ∧ exZ.val j 1 = 0) ∧ exZ.val 0 0 = 2 :=
  ⟨⟨by decide, by decide, by decide, by decide, by decide, by decide⟩,
    by unfold Csr.NoRepeats; decide +kernel, by unfold Csr.NoZeros; decide +kernel,
    by decide +kernel, by decide +kernel⟩

/-- **C11** is violated for a stored zero: the matrix `[[1/2, 0], [0, 1]]` with the zero at
(0, 1) stored explicitly is refused by the Python version with a `KeyError`. -/
theorem C11_stored_zero_fails :
    ∃ T : Csr ℚ, T.WF ∧ T.ncols = T.nrows ∧ T.NoRepeats ∧
      fromFull .python T 1 = .error .keyError := by
  refine ⟨⟨2, 2, [0, 2, 3], [0, 1, 1], [1/2, 0, 1]⟩, ⟨by decide, by decide, by decide, by decide,
    by decide, by decide⟩, rfl, by unfold Csr.NoRepeats; decide +kernel, ?_⟩
  have h : (match fromFull .python (⟨2, 2, [0, 2, 3], [0, 1, 1], [1/2, 0, 1]⟩ : Csr ℚ) 1 with
    | .error .keyError => true
    | _ => false) = true := by decide +kernel
  revert h
  generalize fromFull .python (⟨2, 2, [0, 2, 3], [0, 1, 1], [1/2, 0, 1]⟩ : Csr ℚ) 1 = r
  intro h
  match r, h with
  | .error .keyError, _ => rfl

/-- `create_diag` stands for `diag_val` times the identity. -/
theorem C11_create_diag (size : Nat) (d : K) :
    ∃ C, createDiag size d = .ok C ∧ C.WF ∧ C.size = size ∧
      ∀ i j, C.dense i j = if i = j then d else 0 := by
  have hw : (⟨0, 0, [0], [], []⟩ : Csr K).WF :=
    ⟨rfl, rfl, fun i hi => absurd hi (Nat.not_lt_zero i), rfl, rfl,
      fun c hc => absurd hc (by simp)⟩
  refine ⟨_, fromSmall_ok size _ [] d hw rfl rfl List.Pairwise.nil, ⟨List.Pairwise.nil, by simp, hw,
    rfl, rfl⟩, rfl, ?_⟩
  intro i j
  exact dense_mk_not (Or.inl (by simp))

/-! ## C12 -/

/-- **C12** (addition).  `A + B` never fails on well-formed matrices of the same size, is
well-formed, and stands for the sum of the two matrices. -/
theorem C12_add_exact (A B : SSM K) (hA : A.WF) (hB : B.WF) (hsize : A.size = B.size) :
    ∃ C, A.add B = .ok C ∧ C.WF ∧ C.size = A.size ∧
      ∀ i j, C.dense i j = A.dense i j + B.dense i j := by
  obtain ⟨C, h1, h2, h3, _, h4⟩ := addWith_ok id rfl (fun _ _ => rfl) hA hB hsize
  exact ⟨C, h1, h2, h3, h4⟩

/-- **C12** (subtraction). -/
theorem C12_sub_exact (A B : SSM K) (hA : A.WF) (hB : B.WF) (hsize : A.size = B.size) :
    ∃ C, A.sub B = .ok C ∧ C.WF ∧ C.size = A.size ∧
      ∀ i j, C.dense i j = A.dense i j - B.dense i j := by
  obtain ⟨C, h1, h2, h3, _, h4⟩ := addWith_ok (fun x : K => -1 * x) (by simp)
    (by intros; ring) hA hB hsize
  refine ⟨C, h1, h2, h3, ?_⟩
  intro i j
  rw [h4]; ring

/-- **C12** (kept indices): the result keeps the union of the two index lists. -/
theorem C12_kept_indices (A B : SSM K) (hA : A.WF) (hB : B.WF) (hsize : A.size = B.size) :
    (∃ C, A.add B = .ok C ∧ ∀ i, i ∈ C.nz ↔ i ∈ A.nz ∨ i ∈ B.nz) ∧
    (∃ C, A.sub B = .ok C ∧ ∀ i, i ∈ C.nz ↔ i ∈ A.nz ∨ i ∈ B.nz) := by
  constructor
  · obtain ⟨C, h1, _, _, h3, _⟩ := addWith_ok id rfl (fun _ _ => rfl) hA hB hsize
    exact ⟨C, h1, fun i => by rw [h3, mem_unique, List.mem_append]⟩
  · obtain ⟨C, h1, _, _, h3, _⟩ := addWith_ok (fun x : K => -1 * x) (by simp)
      (by intros; ring) hA hB hsize
    exact ⟨C, h1, fun i => by rw [h3, mem_unique, List.mem_append]⟩

example : exA.WF ∧ exB.WF ∧ exA.size = exB.size ∧ exA.dense 0 2 = 1/2 ∧ exB.dense 0 0 = 2 :=
  ⟨exA_wf, exB_wf, rfl, by decide +kernel, by decide +kernel⟩

/-! ## C13 -/

/-- **C13**.  `A @ B` never fails on well-formed matrices of the same size, is well-formed,
and stands for the matrix product, whether or not the kept indices overlap. -/
theorem C13_matmul_exact (A B : SSM K) (hA : A.WF) (hB : B.WF) (hsize : A.size = B.size) :
    ∃ C, A.matmul B = .ok C ∧ C.WF ∧ C.size = A.size ∧
      ∀ i j, i < A.size → j < A.size →
        C.dense i j = ∑ k ∈ Finset.range A.size, A.dense i k * B.dense k j :=
  matmul_ok hA hB hsize

example : exA.WF ∧ exB.WF ∧ exD.WF ∧ interLen exA exB = 1 ∧ interLen exA exD = 0 :=
  ⟨exA_wf, exB_wf, exD_wf, by decide, by decide⟩

/-! ## C14 -/

/-- **C14** (transpose). -/
theorem C14_transpose_exact (A : SSM K) (h : A.WF) :
    ∃ C, A.transpose = .ok C ∧ C.WF ∧ C.size = A.size ∧ ∀ i j, C.dense i j = A.dense j i :=
  transpose_ok h

/-- **C14** (scalar product). -/
theorem C14_scalar_exact (A : SSM K) (h : A.WF) (o : K) :
    ∃ C, A.smul o = .ok C ∧ C.WF ∧ C.size = A.size ∧ ∀ i j, C.dense i j = A.dense i j * o := by
  obtain ⟨C, h1, h2, h3, _, _, h4⟩ := smul_ok h o
  exact ⟨C, h1, h2, h3, h4⟩

/-- **C14** (adding and subtracting a multiple of the identity). -/
theorem C14_diag_shift_exact (A : SSM K) (h : A.WF) (d : K) :
    (∃ C, A.addDiag d = .ok C ∧ C.WF ∧ C.size = A.size ∧
      ∀ i j, C.dense i j = A.dense i j + if i = j then d else 0) ∧
    (∃ C, A.subDiag d = .ok C ∧ C.WF ∧ C.size = A.size ∧
      ∀ i j, C.dense i j = A.dense i j - if i = j then d else 0) := by
  constructor
  · obtain ⟨C, h1, h2, h3, _, h4⟩ := addDiag_ok h d
    exact ⟨C, h1, h2, h3, h4⟩
  · obtain ⟨C, h1, h2, h3, _, h4⟩ := subDiag_ok h d
    exact ⟨C, h1, h2, h3, h4⟩

example : exB.WF ∧ exB.dense 1 2 = 2/3 ∧ exB.dense 2 1 = 1 :=
  ⟨exB_wf, by decide +kernel, by decide +kernel⟩

/-! ## C15 -/

/-- Sum of row `i` over all columns. -/
def rowTotal (M : Csr K) (i : Nat) : K := ∑ j ∈ Finset.range M.ncols, M.val i j

theorem rowTotal_eq {M : Csr K} (h : M.WF) (i : Nat) :
    rowTotal M i = ((M.row i).map Prod.snd).sum := sum_sumAt _ _ (h.row_lt i)

/-- **C15** for a CSR matrix, one target `t i` per row; both the scalar and the array
routine are instances.  Rows that do not sum to 0 sum to their target and, for a nonzero
target, are scaled by one factor; the other rows keep every entry. -/
theorem normalize_spec (be : Backend) (t : Nat → K) (M : Csr K) (h : M.WF) :
    let N : Csr K := { M with data := normData be t M }
    N.WF ∧ ∀ i < M.nrows,
      (rowTotal M i ≠ 0 → rowTotal N i = t i) ∧
      (rowTotal M i ≠ 0 → t i ≠ 0 → ∀ j, N.val i j = M.val i j * (t i / rowTotal M i)) ∧
      (rowTotal M i = 0 → ∀ j, N.val i j = M.val i j) := by
  intro N
  have hN : N.WF := normalize_wf be t h
  refine ⟨hN, ?_⟩
  intro i hi
  have hrow : N.row i = normRow be (t i) (M.row i) := normalize_row be t h i hi
  rw [rowTotal_eq h]
  refine ⟨?_, ?_, ?_⟩
  · intro h0
    rw [rowTotal_eq hN, hrow, normRow_snd, normVals_sum _ _ _ h0]
  · intro h0 ht j
    unfold Csr.val
    rw [hrow, normRow_scaled be (t i) ht _ h0, sumAt_div]
    field_simp
  · intro h0 j
    unfold Csr.val
    rw [hrow, normRow_zero be (t i) _ h0]

/-- **C15** (scalar target). -/
theorem C15_rows_sum_to_target (be : Backend) (s : K) (M : Csr K) (h : M.WF) (i : Nat)
    (hi : i < M.nrows) :
    (rowTotal M i ≠ 0 → rowTotal (rowNormalize be s M) i = s) ∧
    (rowTotal M i ≠ 0 → s ≠ 0 → ∀ j,
      (rowNormalize be s M).val i j = M.val i j * (s / rowTotal M i)) ∧
    (rowTotal M i = 0 → ∀ j, (rowNormalize be s M).val i j = M.val i j) :=
  (normalize_spec be (fun _ => s) M h).2 i hi

/-- **C15** (one target per row). -/
theorem C15_rows_sum_to_targets (t : Nat → K) (M : Csr K) (h : M.WF) (i : Nat)
    (hi : i < M.nrows) :
    (rowTotal M i ≠ 0 → rowTotal (rowNormalizeArray t M) i = t i) ∧
    (rowTotal M i ≠ 0 → t i ≠ 0 → ∀ j,
      (rowNormalizeArray t M).val i j = M.val i j * (t i / rowTotal M i)) ∧
    (rowTotal M i = 0 → ∀ j, (rowNormalizeArray t M).val i j = M.val i j) :=
  (normalize_spec .compiled t M h).2 i hi

/-- **C15** (repeating changes nothing), for the scalar and the array routine. -/
theorem C15_idempotent (be : Backend) (s : K) (t : Nat → K) (M : Csr K) (h : M.WF) :
    rowNormalize be s (rowNormalize be s M) = rowNormalize be s M ∧
    rowNormalizeArray t (rowNormalizeArray t M) = rowNormalizeArray t M := by
  constructor
  · have := normalize_idem be (fun _ => s) h
    unfold rowNormalize
    rw [this]
  · have := normalize_idem .compiled t h
    unfold rowNormalizeArray
    rw [this]

example : exT.WF ∧ rowTotal exT 0 ≠ 0 := ⟨exT_wf, by unfold rowTotal; decide +kernel⟩

theorem dense_row_total (A : SSM K) (h : A.WF) (i : Nat) (hi : i ∈ A.nz) :
    ∑ j ∈ Finset.range A.size, A.dense i j = rowTotal A.small (A.nz.idxOf i) := by
  rw [sum_on_list A.size A.nz (nodup_of_sorted h.sorted) h.inside]
  · unfold rowTotal
    rw [h.cols]
    apply Finset.sum_congr rfl
    intro k hk
    rw [Finset.mem_range] at hk
    rw [getD_lt hk, dense_mem hi (List.getElem_mem _), idxOf_getElem (nodup_of_sorted h.sorted)]
  · intro x _ hx
    rw [dense_not_mem (Or.inr hx), if_neg]
    rintro rfl; exact hx hi

theorem dense_row_total_out (A : SSM K) (i : Nat) (hi : i < A.size) (hout : i ∉ A.nz) :
    ∑ j ∈ Finset.range A.size, A.dense i j = A.diag := by
  have : ∀ j, A.dense i j = if i = j then A.diag else 0 :=
    fun j => dense_not_mem (Or.inl hout)
  simp only [this]
  rw [Finset.sum_ite_eq]
  simp [hi]

/-- **C15** for a compressed matrix: every row of the full matrix with nonzero sum sums to
the target and, for a nonzero target, is scaled by one factor.  Rows that are not kept
become the target on the diagonal whatever `diag` was before. -/
theorem C15_compressed_rows (be : Backend) (s : K) (A : SSM K) (h : A.WF) :
    (A.rowNormalize be s).WF ∧ ∀ i < A.size,
      ((∑ j ∈ Finset.range A.size, A.dense i j) ≠ 0 →
        ∑ j ∈ Finset.range A.size, (A.rowNormalize be s).dense i j = s) ∧
      ((∑ j ∈ Finset.range A.size, A.dense i j) ≠ 0 → s ≠ 0 → ∀ j < A.size,
        (A.rowNormalize be s).dense i j =
          A.dense i j * (s / ∑ j ∈ Finset.range A.size, A.dense i j)) ∧
      (i ∈ A.nz → (∑ j ∈ Finset.range A.size, A.dense i j) = 0 → ∀ j < A.size,
        (A.rowNormalize be s).dense i j = A.dense i j) ∧
      (i ∉ A.nz → ∀ j < A.size, (A.rowNormalize be s).dense i j = if i = j then s else 0) := by
  obtain ⟨hN, hrows⟩ := normalize_spec be (fun _ => s) A.small h.block
  have hwf : (A.rowNormalize be s).WF := ⟨h.sorted, h.inside, hN, h.rows, h.cols⟩
  refine ⟨hwf, ?_⟩
  intro i hi
  have hnz : (A.rowNormalize be s).nz = A.nz := rfl
  have hsz : (A.rowNormalize be s).size = A.size := rfl
  have hout : i ∉ A.nz → ∀ j, (A.rowNormalize be s).dense i j = if i = j then s else 0 :=
    fun ho j => dense_not_mem (A := A.rowNormalize be s) (Or.inl ho)
  have hcol : ∀ j, i ∈ A.nz → j ∉ A.nz → A.dense i j = 0 ∧ (A.rowNormalize be s).dense i j = 0 := by
    intro j hi hj
    have hne : i ≠ j := by rintro rfl; exact hj hi
    rw [dense_not_mem (Or.inr hj), dense_not_mem (A := A.rowNormalize be s) (Or.inr hj),
      if_neg hne, if_neg hne]
    exact ⟨rfl, rfl⟩
  have hmm : ∀ j, i ∈ A.nz → j ∈ A.nz → (A.rowNormalize be s).dense i j =
      (SparseStoch.rowNormalize be s A.small).val (A.nz.idxOf i) (A.nz.idxOf j) :=
    fun j h1 h2 => dense_mem (A := A.rowNormalize be s) h1 h2
  refine ⟨?_, ?_, ?_, fun ho j _ => hout ho j⟩
  · intro h0
    by_cases hm : i ∈ A.nz
    · have h1 := dense_row_total (A.rowNormalize be s) hwf i hm
      rw [hsz] at h1
      rw [h1, hnz]
      rw [dense_row_total A h i hm] at h0
      exact (hrows _ (by rw [h.rows]; exact idxOf_lt hm)).1 h0
    · have h1 := dense_row_total_out (A.rowNormalize be s) i hi hm
      rw [hsz] at h1
      exact h1
  · intro h0 hs j hj
    by_cases hm : i ∈ A.nz
    · by_cases hjm : j ∈ A.nz
      · rw [hmm j hm hjm, dense_mem hm hjm]
        rw [dense_row_total A h i hm] at h0 ⊢
        exact (hrows _ (by rw [h.rows]; exact idxOf_lt hm)).2.1 h0 hs _
      · rw [(hcol j hm hjm).1, (hcol j hm hjm).2, zero_mul]
    · rw [hout hm j]
      rw [dense_row_total_out A i hi hm] at h0 ⊢
      rw [dense_not_mem (Or.inl hm)]
      split
      · field_simp
      · rw [zero_mul]
  · intro hm h0 j _
    by_cases hjm : j ∈ A.nz
    · rw [hmm j hm hjm, dense_mem hm hjm]
      rw [dense_row_total A h i hm] at h0
      exact (hrows _ (by rw [h.rows]; exact idxOf_lt hm)).2.2 h0 _
    · rw [(hcol j hm hjm).1, (hcol j hm hjm).2]

example : exB.WF ∧ (∑ j ∈ Finset.range exB.size, exB.dense 1 j) ≠ 0 ∧ 0 ∉ exB.nz :=
  ⟨exB_wf, by decide +kernel, by decide⟩

/-! ## C16 -/

/-- `thr` is the threshold the caller asked for: `tol` itself, or `tol` times the largest
magnitude of the stored values. -/
def IsThreshold (tol : K) (relative : Bool) (data : List K) (thr : K) : Prop :=
  if relative then ∃ m, (∀ x ∈ data, |x| ≤ m) ∧ (∃ x ∈ data, |x| = m) ∧ thr = tol * m
  else thr = tol

theorem isThreshold (tol : K) (relative : Bool) (data : List K) (h : data ≠ []) :
    IsThreshold tol relative data (zeroThreshold tol relative data) := by
  unfold IsThreshold zeroThreshold
  match data, h with
  | x :: rest, _ =>
    cases relative
    · simp
    · simp only [if_true]
      obtain ⟨h1, h2⟩ := maxAbs_spec x rest
      exact ⟨_, h1, h2, rfl⟩

/-- **C16** for a CSR matrix with at least one stored value: entries whose magnitude
exceeds the threshold are kept as they are and all others become zero; without absolute
values the comparison is with the value itself. -/
theorem C16_trim_exact (tol : K) (relative : Bool) (M : Csr K) (hrep : M.NoRepeats)
    (hne : M.data ≠ []) :
    ∃ thr, IsThreshold tol relative M.data thr ∧ ∀ i j, i < M.nrows →
      (csrSetToZeroes tol relative true M).val i j = (if thr < |M.val i j| then M.val i j else 0) ∧
      (csrSetToZeroes tol relative false M).val i j =
        (if thr < M.val i j then M.val i j else 0) := by
  refine ⟨_, isThreshold tol relative M.data hne, ?_⟩
  intro i j hi
  rw [setToZeroes_val tol relative true hrep i j hi, setToZeroes_val tol relative false hrep i j hi]
  unfold zeroed
  simp only [if_true, Bool.false_eq_true, if_false, decide_eq_true_eq]
  constructor
  · by_cases h : zeroThreshold tol relative M.data < |M.val i j|
    · rw [if_neg (not_le.2 h), if_pos h]
    · rw [if_pos (not_lt.1 h), if_neg h]
  · by_cases h : zeroThreshold tol relative M.data < M.val i j
    · rw [if_neg (not_le.2 h), if_pos h]
    · rw [if_pos (not_lt.1 h), if_neg h]

/-- `[[1, -1], [1/100, 0]]`. -/
def exM : Csr ℚ := ⟨2, 2, [0, 2, 3], [0, 1, 0], [1, -1, 1/100]⟩

example : exM.NoRepeats ∧ exM.data ≠ [] ∧ exM.val 0 1 = -1 :=
  ⟨by unfold Csr.NoRepeats; decide +kernel, by decide, by decide +kernel⟩

/-- **C16**: with a non-negative tolerance and no absolute values every negative entry is
deleted. -/
theorem C16_negatives_deleted (tol : K) (htol : 0 ≤ tol) (relative : Bool) (M : Csr K)
    (hrep : M.NoRepeats) (i j : Nat) (hi : i < M.nrows) (hneg : M.val i j < 0) :
    (csrSetToZeroes tol relative false M).val i j = 0 := by
  have hne : M.data ≠ [] := by
    intro h0
    have : M.val i j = 0 := by
      unfold Csr.val
      apply sumAt_eq_zero
      intro e he
      have := (row_sub M i e he).2
      rw [h0] at this; simp at this
    rw [this] at hneg
    exact lt_irrefl _ hneg
  obtain ⟨thr, h1, h2⟩ := C16_trim_exact tol relative M hrep hne
  rw [(h2 i j hi).2, if_neg]
  have hthr : 0 ≤ thr := by
    unfold IsThreshold at h1
    cases relative
    · simp only [Bool.false_eq_true, if_false] at h1; rw [h1]; exact htol
    · simp only [if_true] at h1
      obtain ⟨m, _, ⟨x, _, hx⟩, rfl⟩ := h1
      exact mul_nonneg htol (hx ▸ abs_nonneg x)
  exact not_lt.2 (hneg.le.trans hthr)

example : exM.NoRepeats ∧ exM.val 0 1 < 0 :=
  ⟨by unfold Csr.NoRepeats; decide +kernel, by decide +kernel⟩

/-- **C16** for the method of a compressed matrix: the block is trimmed, the rest of the
matrix is untouched. -/
theorem C16_compressed_trim (tol : K) (relative useAbs : Bool) (A : SSM K) (h : A.WF)
    (hrep : A.small.NoRepeats) (hne : A.small.data ≠ []) :
    ∃ thr, IsThreshold tol relative A.small.data thr ∧ (A.setToZeroes tol relative useAbs).WF ∧
      ∀ i j, (A.setToZeroes tol relative useAbs).dense i j =
        if i ∈ A.nz ∧ j ∈ A.nz then
          (if thr < (if useAbs then |A.dense i j| else A.dense i j) then A.dense i j else 0)
        else A.dense i j := by
  obtain ⟨h1, h2, h3⟩ := setToZeroes_wf tol relative useAbs h.block
  obtain ⟨thr, h4, h5⟩ := C16_trim_exact tol relative A.small hrep hne
  refine ⟨thr, h4, ⟨h.sorted, h.inside, h1, h2.trans h.rows, h3.trans h.cols⟩, ?_⟩
  intro i j
  split
  · rename_i hij
    have h6 := h5 (A.nz.idxOf i) (A.nz.idxOf j) (by rw [h.rows]; exact idxOf_lt hij.1)
    rw [dense_mem hij.1 hij.2,
      dense_mem (A := A.setToZeroes tol relative useAbs) hij.1 hij.2]
    cases useAbs
    · exact h6.2
    · exact h6.1
  · rename_i hij
    have h7 : i ∉ A.nz ∨ j ∉ A.nz := by
      by_contra hc; exact hij (by simpa only [not_or, not_not] using hc)
    rw [dense_not_mem h7, dense_not_mem (A := A.setToZeroes tol relative useAbs) h7]
    rfl

example : exA.WF ∧ exA.small.NoRepeats ∧ exA.small.data ≠ [] :=
  ⟨exA_wf, by unfold Csr.NoRepeats; decide +kernel, by decide⟩

/-- **C16** is violated by `temporal_network.set_to_zeroes` on a compressed matrix: whether
or not absolute values are asked for, every negative entry of the block is deleted,
however large it is … -/
theorem C16_absolute_option_ignored (tol : K) (htol : 0 ≤ tol) (relative useAbs : Bool) (A : SSM K)
    (h : A.WF) (hrep : A.small.NoRepeats) (i j : Nat) (hi : i ∈ A.nz) (hj : j ∈ A.nz)
    (hneg : A.dense i j < 0) :
    (setToZeroesSSM (some tol) relative useAbs A).dense i j = 0 := by
  rw [dense_mem hi hj] at hneg
  show (A.setToZeroes tol relative false).dense i j = 0
  rw [dense_mem (A := A.setToZeroes tol relative false) hi hj]
  exact C16_negatives_deleted tol htol relative A.small hrep _ _ (by rw [h.rows]; exact idxOf_lt hi) hneg

/-- … so an entry of the largest magnitude is deleted although absolute values were asked
for. -/
theorem C16_absolute_option_violated :
    ∃ A : SSM ℚ, A.WF ∧ A.dense 0 1 = -1 ∧ (∀ x ∈ A.small.data, |x| ≤ 1) ∧
      (setToZeroesSSM (some (1/100000000)) true true A).dense 0 1 = 0 := by
  refine ⟨⟨2, [0, 1], exM, 1⟩, ⟨by decide, by decide, ⟨by decide, by decide, by decide,
    by decide, by decide, by decide⟩, by decide, by decide⟩, by decide +kernel,
    by decide +kernel, by decide +kernel⟩

/-! ## C17 -/

/-- **C17** (what is represented).  With any list of distinct kept indices that covers the
off-identity part, the compressed matrix holds at the sorted positions the entries of the
positions in the order given. -/
theorem C17_effect (be : Backend) (T : Csr K) (nz : List Nat) (d : K) (hT : T.WF)
    (hsq : T.ncols = T.nrows) (hrep : T.NoRepeats) (hz : T.NoZeros) (hd : d ≠ 0)
    (hn : nz.Nodup) (hin : ∀ i ∈ nz, i < T.nrows) (hid : IdentityOutside T nz d) :
    ∃ C, fromFullWith be T nz d = .ok C ∧ C.WF ∧ C.size = T.nrows ∧ C.diag = d ∧
      (∀ i, i ∈ C.nz ↔ i ∈ nz) ∧ ∃ hlen : C.nz.length = nz.length,
      ∀ a b (ha : a < nz.length) (hb : b < nz.length),
        C.dense (C.nz[a]'(hlen ▸ ha)) (C.nz[b]'(hlen ▸ hb)) = T.val nz[a] nz[b] := by
  have hr := cover_rows hT hsq hrep hz nz d hin hid
  have h1 := fromFullWith_ok be hT nz d hn hin hr (rest_rows nz d hd hid)
  obtain ⟨hb1, hb2⟩ := keptBlock nz hr
  have hlen : (unique nz).length = nz.length := by
    have : (unique nz).Perm nz :=
      (List.perm_ext_iff_of_nodup (nodup_of_sorted (sorted_unique nz)) hn).2 (mem_unique nz)
    exact this.length_eq
  have hwf : (SSM.mk T.nrows (unique nz) (ofRows nz.length (nz.map (keptRow T nz))) d).WF := by
    refine ⟨sorted_unique nz, ?_, hb1, by simp [hlen], by simp [hlen]⟩
    intro i hi
    exact hin i ((mem_unique nz i).1 hi)
  refine ⟨_, h1, hwf, rfl, rfl, mem_unique nz, hlen, ?_⟩
  intro a b ha hb
  have := WF.dense_getElem hwf a b (by rw [← hlen] at ha; exact ha) (by rw [← hlen] at hb; exact hb)
  dsimp only at this ⊢
  rw [this, hb2 a b ha hb hn]

/-- **C17** for a strictly increasing list: the compressed matrix stands for the matrix. -/
theorem C17_increasing_list_partial (be : Backend) (T : Csr K) (nz : List Nat) (d : K)
    (hT : T.WF) (hsq : T.ncols = T.nrows) (hrep : T.NoRepeats) (hz : T.NoZeros) (hd : d ≠ 0)
    (hs : nz.Pairwise (· < ·)) (hin : ∀ i ∈ nz, i < T.nrows) (hid : IdentityOutside T nz d) :
    ∃ C, fromFullWith be T nz d = .ok C ∧ C.WF ∧ C.size = T.nrows ∧
      ∀ i j, i < T.nrows → j < T.nrows → C.dense i j = T.val i j := by
  obtain ⟨C, h1, h2, h3, _, h4⟩ := fromFullWith_sorted be hT hsq hrep hz nz d hd hs hin hid
  exact ⟨C, h1, h2, h3, h4⟩

example : [0, 2].Pairwise (· < ·) ∧ IdentityOutside exT [0, 2] 1 ∧ IdentityOutside exT [2, 0] 1 :=
  ⟨by decide, by unfold IdentityOutside; decide +kernel, by unfold IdentityOutside; decide +kernel⟩

/-- **C17** (when the order matters).  With distinct kept indices that cover the off-identity
part, the compressed matrix stands for the given one exactly when the entries at the
positions in the order given are those at the positions in increasing order. -/
theorem C17_right_iff (be : Backend) (T : Csr K) (nz : List Nat) (d : K) (hT : T.WF)
    (hsq : T.ncols = T.nrows) (hrep : T.NoRepeats) (hz : T.NoZeros) (hd : d ≠ 0)
    (hn : nz.Nodup) (hin : ∀ i ∈ nz, i < T.nrows) (hid : IdentityOutside T nz d)
    (inc : List Nat) (hinc : inc.Pairwise (· < ·)) (hperm : inc.Perm nz) :
    ∃ C, fromFullWith be T nz d = .ok C ∧
      ((∀ i j, i < T.nrows → j < T.nrows → C.dense i j = T.val i j) ↔
        ∀ a b (ha : a < nz.length) (hb : b < nz.length),
          T.val nz[a] nz[b] = T.val (inc[a]'(hperm.length_eq ▸ ha)) (inc[b]'(hperm.length_eq ▸ hb))) := by
  obtain ⟨C, h1, hwf, hsz, hdg, hmem, hlen, hval⟩ :=
    C17_effect be T nz d hT hsq hrep hz hd hn hin hid
  refine ⟨C, h1, ?_⟩
  have hCinc : C.nz = inc := by
    have hp : C.nz.Perm inc := (List.perm_ext_iff_of_nodup (nodup_of_sorted hwf.sorted)
      (nodup_of_sorted hinc)).2 fun i => by rw [hmem, hperm.mem_iff]
    exact hp.eq_of_pairwise (fun a b _ _ h1 h2 => absurd h1 (Nat.lt_asymm h2)) hwf.sorted hinc
  subst hCinc
  constructor
  · intro h a b ha hb
    rw [← hval a b ha hb]
    refine h _ _ ?_ ?_
    · exact hin _ ((hmem _).1 (List.getElem_mem _))
    · exact hin _ ((hmem _).1 (List.getElem_mem _))
  · intro h i j hi hj
    by_cases hi' : i ∈ nz ∧ j ∈ nz
    · obtain ⟨a, ha, rfl⟩ := List.getElem_of_mem ((hmem i).2 hi'.1)
      obtain ⟨b, hb, rfl⟩ := List.getElem_of_mem ((hmem j).2 hi'.2)
      rw [hval a b (hlen ▸ ha) (hlen ▸ hb), h a b (hlen ▸ ha) (hlen ▸ hb)]
    · have h' : i ∉ nz ∨ j ∉ nz := by
        by_cases hi2 : i ∈ nz
        · exact Or.inr fun hj2 => hi' ⟨hi2, hj2⟩
        · exact Or.inl hi2
      have h2 : i ∉ C.nz ∨ j ∉ C.nz := by
        rcases h' with h' | h'
        · exact Or.inl fun hh => h' ((hmem i).1 hh)
        · exact Or.inr fun hh => h' ((hmem j).1 hh)
      have h3 : C.dense i j = if i = j then C.diag else 0 := dense_mk_not h2
      rw [h3, hdg, hid i hi j hj h']

/-- **C17** (wrong indices).  A kept index that is not a row of the matrix is never accepted:
an exception in Python, an access outside the arrays in the compiled version. -/
theorem C17_index_outside (be : Backend) (T : Csr K) (nz : List Nat) (d : K) (hT : T.WF) (i : Nat)
    (hi : i ∈ nz) (hout : T.nrows ≤ i) : ∃ e, fromFullWith be T nz d = .error e := by
  have hrow : ∀ alloc b, ∃ e, fromFullRow be T alloc nz b i = .error e := by
    intro alloc b
    unfold fromFullRow
    rw [if_pos (by rw [hT.ptrLen]; omega)]
    exact ⟨_, rfl⟩
  have hfold : ∀ alloc (l : List Nat) b, i ∈ l →
      ∃ e, l.foldlM (fromFullRow be T alloc nz) b = .error e := by
    intro alloc l
    induction l with
    | nil => intro b h; simp at h
    | cons v l ih =>
      intro b h
      rw [List.foldlM_cons]
      cases hv : fromFullRow be T alloc nz b v with
      | error e => exact ⟨e, rfl⟩
      | ok b' =>
        rcases List.mem_cons.1 h with rfl | h
        · obtain ⟨e, he⟩ := hrow alloc b
          rw [he] at hv; cases hv
        · exact ih b' h
  unfold fromFullWith
  split
  · exact ⟨_, rfl⟩
  · obtain ⟨e, he⟩ := hfold (fromFullAlloc T nz).toNat nz Build.empty hi
    rw [he]
    exact ⟨e, rfl⟩

/-- The lists `[0, 2]` and `[2, 0]` for a matrix whose entries at the two positions differ, and
an index outside. -/
example : [0, 2].Perm [2, 0] ∧ exT.val 0 0 ≠ exT.val 2 2 ∧ exT.nrows ≤ 3 := by decide +kernel

/-- **C17** is violated for a list that is not increasing: the kept indices `[2, 0]` give a
matrix with the two indices exchanged. -/
theorem C17_order_matters :
    ∃ (T : Csr ℚ) (nz : List Nat), T.WF ∧ T.ncols = T.nrows ∧ T.NoRepeats ∧ T.NoZeros ∧
      nz.Nodup ∧ IdentityOutside T nz 1 ∧
      ∀ be, ∃ C, fromFullWith be T nz 1 = .ok C ∧ C.dense 0 2 ≠ T.val 0 2 := by
  refine ⟨exT, [2, 0], exT_wf, rfl, exT_noRepeats, exT_noZeros, by decide,
    by unfold IdentityOutside; decide +kernel, ?_⟩
  intro be
  obtain ⟨C, h1, _, _, _, h2, hlen, h3⟩ := C17_effect be exT [2, 0] 1 exT_wf rfl exT_noRepeats
    exT_noZeros (by norm_num) (by decide) (by decide) (by unfold IdentityOutside; decide +kernel)
  refine ⟨C, h1, ?_⟩
  have h4 : ∀ be, (match fromFullWith be exT [2, 0] 1 with
    | .ok C => decide (C.dense 0 2 = 0)
    | .error _ => false) = true := by
    intro be; cases be <;> decide +kernel
  have h5 := h4 be
  rw [h1] at h5
  simp only [decide_eq_true_eq] at h5
  rw [h5]
  decide +kernel

end Verif.SparseStoch
