import Verif.SparseStoch.Props
import Mathlib.Tactic.Linarith

/-!
# The second Python replacement of the compiled row normalisation: property C115

`_cython_sparse_stoch_subst.py` is a second pure-Python replacement of two compiled
routines.  Its `sparse_stoch_from_full_csr` (lines 3-30) is word for word the one of
`_cython_subst.py` (lines 9-36), modelled by `fromFullWith .python`.  Its
`inplace_csr_row_normalize` (lines 33-40) differs: it assigns where the other versions
divide.
-/

namespace Verif.Subst

set_option linter.unusedSectionVars false

open Verif.Csr Verif.SparseStoch

variable {K : Type} [Field K] [LinearOrder K] [IsStrictOrderedRing K]

/-- Values of one row after the loop body of `inplace_csr_row_normalize`
(`_cython_sparse_stoch_subst.py:37-40`): when the sum is not 0 the slice is assigned the
scalar `row_sum_tmp/row_sum`.  A target of 0 gives infinite values in numpy and is left
out: the theorems ask for a nonzero target. -/
def substVals (target : K) (vals : List K) : List K :=
  if vals.sum = 0 then vals else vals.map fun _ => vals.sum / target

/-- The `data` array after the loop over the rows
(`_cython_sparse_stoch_subst.py:37-40`). -/
def substData (target : K) (M : Csr K) : List K :=
  (List.range M.nrows).flatMap fun i => substVals target ((M.row i).map Prod.snd)

/-- `inplace_csr_row_normalize` of `_cython_sparse_stoch_subst.py:33-40`. -/
def substNormalize (target : K) (M : Csr K) : Csr K := { M with data := substData target M }

/-- Number of entries stored in row `i`. -/
def stored (M : Csr K) (i : Nat) : Nat := (M.row i).length

/-! ## Rows after the call -/

theorem substVals_length (t : K) (l : List K) : (substVals t l).length = l.length := by
  unfold substVals; split <;> simp

theorem subst_eq (t : K) {M : Csr K} (h : M.WF) :
    substNormalize t M = ofRows M.ncols ((List.range M.nrows).map fun i =>
      ((M.row i).map Prod.fst).zip (substVals t ((M.row i).map Prod.snd))) :=
  withData_eq h (fun _ l => substVals t l) (fun _ l => substVals_length t l)

theorem subst_row (t : K) {M : Csr K} (h : M.WF) (i : Nat) (hi : i < M.nrows) :
    (substNormalize t M).row i =
      ((M.row i).map Prod.fst).zip (substVals t ((M.row i).map Prod.snd)) := by
  rw [subst_eq t h, row_ofRows_map _ _ _ _ hi]

theorem subst_row_nonzero (t : K) {M : Csr K} (h : M.WF) (i : Nat) (hi : i < M.nrows)
    (h0 : rowTotal M i ≠ 0) :
    (substNormalize t M).row i = (M.row i).map fun e => (e.1, rowTotal M i / t) := by
  rw [subst_row t h i hi]
  rw [rowTotal_eq h] at h0 ⊢
  unfold substVals
  rw [if_neg h0]
  exact zip_map_self (M.row i) fun _ => _

theorem subst_row_zero (t : K) {M : Csr K} (h : M.WF) (i : Nat) (hi : i < M.nrows)
    (h0 : rowTotal M i = 0) : (substNormalize t M).row i = M.row i := by
  rw [subst_row t h i hi]
  rw [rowTotal_eq h] at h0
  unfold substVals
  rw [if_pos h0]
  exact zip_fst_snd _

theorem subst_wf (t : K) {M : Csr K} (h : M.WF) : (substNormalize t M).WF := by
  rw [subst_eq t h]
  apply wf_ofRows
  intro r hr e he
  rw [List.mem_map] at hr
  obtain ⟨i, _, rfl⟩ := hr
  obtain ⟨f, hf, h2⟩ := List.mem_map.1 (List.of_mem_zip he).1
  rw [← h2]; exact h.row_lt i f hf

/-- **C115** (what the replacement does).  The positions of the entries are kept and rows
with sum 0 are unchanged; in every other row all stored entries become the same number, the
old sum divided by the target, so that the new sum is that number times the number of
stored entries. -/
theorem C115_rows_after (t : K) (M : Csr K) (h : M.WF) (i : Nat) (hi : i < M.nrows) :
    (substNormalize t M).WF ∧
    (rowTotal M i = 0 → (substNormalize t M).row i = M.row i) ∧
    (rowTotal M i ≠ 0 →
      (substNormalize t M).row i = (M.row i).map (fun e => (e.1, rowTotal M i / t)) ∧
      rowTotal (substNormalize t M) i = stored M i * (rowTotal M i / t)) := by
  refine ⟨subst_wf t h, subst_row_zero t h i hi, fun h0 => ⟨subst_row_nonzero t h i hi h0, ?_⟩⟩
  rw [rowTotal_eq (subst_wf t h), subst_row_nonzero t h i hi h0]
  unfold stored
  generalize rowTotal M i / t = c
  induction M.row i with
  | nil => simp
  | cons e r ih =>
    simp only [List.map_cons, List.sum_cons, List.length_cons] at ih ⊢
    rw [ih]; push_cast; ring

/-- **C115** (when a row reaches its target).  A row whose sum is not 0 sums to the target
afterwards exactly when the number of its stored entries times its old sum is the square of
the target. -/
theorem C115_reaches_target_iff (t : K) (ht : t ≠ 0) (M : Csr K) (h : M.WF) (i : Nat)
    (hi : i < M.nrows) (h0 : rowTotal M i ≠ 0) :
    rowTotal (substNormalize t M) i = t ↔ stored M i * rowTotal M i = t ^ 2 := by
  rw [((C115_rows_after t M h i hi).2.2 h0).2, ← mul_div_assoc, div_eq_iff ht, sq]

/-- **C115** (agreement).  The replacement and the row normalisation the package uses give
the same matrix exactly when in every row of nonzero sum `s` every stored value `x`
satisfies `x * t ^ 2 = s ^ 2`; this holds for both versions of the latter. -/
theorem C115_agrees_iff (be : Backend) (t : K) (ht : t ≠ 0) (M : Csr K) (h : M.WF) :
    substNormalize t M = rowNormalize be t M ↔
      ∀ i < M.nrows, rowTotal M i ≠ 0 → ∀ e ∈ M.row i, e.2 * t ^ 2 = rowTotal M i ^ 2 := by
  have key : ∀ i < M.nrows, rowTotal M i ≠ 0 →
      ((substNormalize t M).row i = (rowNormalize be t M).row i ↔
        ∀ e ∈ M.row i, e.2 * t ^ 2 = rowTotal M i ^ 2) := by
    intro i hi h0
    have hr : (rowNormalize be t M).row i = normRow be t (M.row i) :=
      normalize_row be (fun _ => t) h i hi
    have h1 : ((M.row i).map Prod.snd).sum ≠ 0 := by rwa [rowTotal_eq h] at h0
    rw [hr, subst_row_nonzero t h i hi h0, normRow_scaled be t ht _ h1, ← rowTotal_eq h,
      List.map_inj_left]
    refine forall₂_congr fun e _ => ?_
    rw [Prod.mk.injEq, and_iff_right rfl, div_div_eq_mul_div, div_eq_div_iff ht h0]
    constructor <;> intro hh <;> linarith
  constructor
  · intro heq i hi h0
    exact (key i hi h0).1 (by rw [heq])
  · intro hall
    have e1 : rowNormalize be t M = _ := normalize_eq be (fun _ => t) h
    rw [subst_eq t h, e1]
    congr 1
    apply List.map_congr_left
    intro i hi
    have hi' := List.mem_range.1 hi
    rw [← subst_row t h i hi']
    by_cases h0 : rowTotal M i = 0
    · rw [subst_row_zero t h i hi' h0, normRow_zero]
      rwa [rowTotal_eq h] at h0
    · rw [(key i hi' h0).2 (hall i hi' h0)]
      exact normalize_row be (fun _ => t) h i hi'

/-- **C115** is violated by every transition matrix with a row of two or more stored
entries: such a row, which sums to 1, sums to the number of its stored entries after
normalisation to 1, while the normalisation the package uses leaves every entry alone. -/
theorem C115_stochastic_violated (be : Backend) (M : Csr K) (h : M.WF) (i : Nat)
    (hi : i < M.nrows) (h1 : rowTotal M i = 1) (h2 : 2 ≤ stored M i) :
    rowTotal (substNormalize 1 M) i = stored M i ∧
    rowTotal (substNormalize 1 M) i ≠ 1 ∧
    (∀ j, (rowNormalize be 1 M).val i j = M.val i j) ∧
    substNormalize 1 M ≠ rowNormalize be 1 M := by
  have h0 : rowTotal M i ≠ 0 := by rw [h1]; exact one_ne_zero
  have hs : rowTotal (substNormalize 1 M) i = stored M i := by
    rw [((C115_rows_after 1 M h i hi).2.2 h0).2, h1]; simp
  have hne : rowTotal (substNormalize 1 M) i ≠ 1 := by
    rw [hs]
    have : ((stored M i : Nat) : K) ≠ ((1 : Nat) : K) := fun hh => by
      have := Nat.cast_injective hh; omega
    simpa using this
  refine ⟨hs, hne, ?_, ?_⟩
  · intro j
    rw [(C15_rows_sum_to_target be 1 M h i hi).2.1 h0 one_ne_zero, h1]; simp
  · intro heq
    rw [heq] at hne
    exact hne ((C15_rows_sum_to_target be 1 M h i hi).1 h0)

/-- **C115** (partial: one stored entry per row).  On matrices whose rows each store at most
one entry the replacement reaches the target of a row of nonzero sum `s` exactly when
`s = t²`; with target 1 that is when the row was already normalised. -/
theorem C115_single_entries_partial (be : Backend) (M : Csr K) (h : M.WF)
    (h1 : ∀ i < M.nrows, stored M i ≤ 1) :
    substNormalize 1 M = rowNormalize be 1 M ↔
      ∀ i < M.nrows, rowTotal M i = 0 ∨ rowTotal M i = 1 := by
  rw [C115_agrees_iff be 1 one_ne_zero M h]
  refine forall₂_congr fun i hi => ?_
  have hl := h1 i hi
  rw [rowTotal_eq h]
  unfold stored at hl
  match hr : M.row i, hl with
  | [], _ => simp
  | [e], _ =>
    simp only [List.map_cons, List.map_nil, List.sum_cons, List.sum_nil, add_zero,
      List.mem_singleton, forall_eq, one_pow, mul_one]
    constructor
    · intro hh
      by_cases h0 : e.2 = 0
      · exact Or.inl h0
      · right
        have := hh h0
        have h2 : e.2 * (e.2 - 1) = 0 := by linarith [this, sq e.2]
        rcases mul_eq_zero.1 h2 with h3 | h3
        · exact absurd h3 h0
        · linarith
    · rintro (h0 | h0) hne
      · exact absurd h0 hne
      · rw [h0]; simp

/-- The matrix `[[1/2, 0, 1/2], [0, 1, 0], [0, 0, 1]]`: its first row sums to 2 after
normalisation to 1 by the replacement. -/
example : exT.WF ∧ 0 < exT.nrows ∧ rowTotal exT 0 = 1 ∧ 2 ≤ stored exT 0 ∧
    rowTotal (substNormalize 1 exT) 0 = 2 :=
  ⟨exT_wf, by decide, by unfold rowTotal; decide +kernel, by decide +kernel,
    by unfold rowTotal; decide +kernel⟩

/-- A matrix with one stored entry per row, one row of which is changed differently. -/
example : (⟨2, 2, [0, 1, 2], [1, 0], [1, 3]⟩ : Csr ℚ).WF ∧
    (∀ i < 2, stored (⟨2, 2, [0, 1, 2], [1, 0], [1, 3]⟩ : Csr ℚ) i ≤ 1) ∧
    rowTotal (⟨2, 2, [0, 1, 2], [1, 0], [1, 3]⟩ : Csr ℚ) 1 = 3 :=
  ⟨⟨by decide, by decide, by decide, by decide, by decide, by decide⟩, by decide +kernel,
    by unfold rowTotal; decide +kernel⟩

end Verif.Subst
