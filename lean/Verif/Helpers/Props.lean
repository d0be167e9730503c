import Verif.Helpers.OuterLemmas
import Verif.Autocov.AggLemmas
import Verif.SparseStoch.Lemmas

/-!
# C90, C91: the free-standing helper functions on sparse matrices
-/

namespace Verif.Helpers

set_option linter.unusedSectionVars false

open Verif.Csr Verif.Autocov
open Verif.SparseStoch (fullRow rebuild rebuildRow rebuild_ok mem_fullRow_lt sumAt_renamed)

variable {K : Type} [Field K] [LinearOrder K] [IsStrictOrderedRing K]

/-! ## C90: the outer product -/

/-- The stored entries of the row after the clean-up. -/
def entries (p : Csr K) : List (Nat × K) :=
  sortRow p.ncols ((p.row 0).filter fun e => decide (e.2 ≠ 0))

theorem tidy_eq (p : Csr K) (h : p.nrows = 1) : tidy p = ofRows p.ncols [entries p] := by
  unfold tidy entries
  rw [h]
  rfl

theorem entries_lt {p : Csr K} (hp : p.WF) :
    ∀ e ∈ (p.row 0).filter fun e => decide (e.2 ≠ 0), e.1 < p.ncols :=
  fun e he => hp.row_lt 0 e (List.mem_of_mem_filter he)

theorem entries_perm {p : Csr K} (hp : p.WF) :
    (entries p).Perm ((p.row 0).filter fun e => decide (e.2 ≠ 0)) :=
  perm_sortRow _ _ (entries_lt hp)

theorem entries_strict {p : Csr K} (hp : p.WF) (h1 : p.nrows = 1) (hr : p.NoRepeats) :
    Strict (entries p) := by
  have hs := sortRow_sorted p.ncols ((p.row 0).filter fun e => decide (e.2 ≠ 0))
  have hnd : ((entries p).map Prod.fst).Nodup := by
    rw [((entries_perm hp).map Prod.fst).nodup_iff]
    exact ((List.filter_sublist (l := p.row 0)).map Prod.fst).nodup (hr 0 (by omega))
  exact (hs.and hnd).imp (fun h => by omega)

theorem sumAt_nonzero (r : List (Nat × K)) (j : Nat) :
    sumAt (r.filter fun e => decide (e.2 ≠ 0)) j = sumAt r j := by
  induction r with
  | nil => rfl
  | cons e r ih =>
    by_cases he : e.2 = 0
    · rw [List.filter_cons_of_neg (by simpa using he), ih, sumAt_cons, he]
      simp
    · rw [List.filter_cons_of_pos (by simpa using he), sumAt_cons, ih, sumAt_cons]

theorem sumAt_entries {p : Csr K} (hp : p.WF) (j : Nat) : sumAt (entries p) j = p.val 0 j := by
  rw [sumAt_perm (entries_perm hp), sumAt_nonzero]
  rfl

theorem length_entries {p : Csr K} (hp : p.WF) (h1 : p.nrows = 1) (hr : p.NoRepeats) :
    (entries p).length = ((Finset.range p.ncols).filter fun j => p.val 0 j ≠ 0).card := by
  have hst := entries_strict hp h1 hr
  have hnd : ((entries p).map Prod.fst).Nodup := hst.imp (fun h => by omega)
  rw [← List.length_map (f := Prod.fst) (as := entries p), ← List.toFinset_card_of_nodup hnd]
  congr 1
  ext j
  rw [List.mem_toFinset, Finset.mem_filter, Finset.mem_range]
  constructor
  · intro hj
    obtain ⟨e, he, rfl⟩ := List.mem_map.1 hj
    have hmem := (entries_perm hp).subset he
    refine ⟨entries_lt hp e hmem, ?_⟩
    rw [← sumAt_entries hp, sumAt_of_mem _ hnd e he]
    simpa using (List.mem_filter.1 hmem).2
  · rintro ⟨_, hv⟩
    by_contra hno
    apply hv
    rw [← sumAt_entries hp]
    apply sumAt_eq_zero
    intro e he h
    exact hno (h ▸ List.mem_map_of_mem he)

/-- Number of places where the row is not zero. -/
def nonzeros (p : Csr K) : Nat := ((Finset.range p.ncols).filter fun j => p.val 0 j ≠ 0).card

/-- **C90** (`sparse_outer`). For a row with a value that is not zero (two of them without
`triu`) the result is a well-formed square matrix that holds the products of the values; with
`triu` or MKL the places below the diagonal are zero. -/
theorem C90_outer_partial (mkl triu : Bool) (p : Csr K) (hp : p.WF) (h1 : p.nrows = 1)
    (hr : p.NoRepeats) (hk : 0 < nonzeros p) (hk1 : triu = true ∨ nonzeros p ≠ 1) :
    ∃ O, (sparseOuter mkl triu p).1 = .ok O ∧ O.WF ∧ O.nrows = p.ncols ∧ O.ncols = p.ncols ∧
      ∀ i < p.ncols, ∀ j < p.ncols, O.val i j =
        if (triu || mkl) = true ∧ j < i then 0 else p.val 0 i * p.val 0 j := by
  have hst := entries_strict hp h1 hr
  have hlt : ∀ e ∈ entries p, e.1 < p.ncols := fun e he =>
    entries_lt hp e ((entries_perm hp).subset he)
  have hlen := length_entries hp h1 hr
  have hdata : (ofRows p.ncols [entries p]).data = (entries p).map Prod.snd := by
    simp [ofRows, Build.toCsr, ofRows_entries]
  have hix : (ofRows p.ncols [entries p]).indices = (entries p).map Prod.fst := by
    simp [ofRows, Build.toCsr, ofRows_entries]
  have hne : indexLists triu ((entries p).map Prod.fst) ≠ [] := by
    intro h
    have := congrArg List.length h
    simp only [indexLists, List.length_map, List.length_nil] at this
    unfold nonzeros at hk
    omega
  have h2 : ¬ (triu = false ∧ ((entries p).map Prod.snd).length = 1) := by
    rintro ⟨h3, h4⟩
    rw [List.length_map] at h4
    rcases hk1 with h5 | h5
    · rw [h3] at h5; exact nomatch h5
    · unfold nonzeros at h5
      omega
  have hflat := flatten_rowAt mkl triu hst hlt
  refine ⟨ofRows p.ncols ((List.range p.ncols).map (rowAt mkl triu (entries p))), ?_, ?_, ?_, rfl,
    ?_⟩
  · unfold sparseOuter
    rw [if_neg (by omega)]
    dsimp only
    rw [tidy_eq p h1, hdata, hix, if_neg hne, if_neg h2, data_eq mkl triu hst,
      indices_eq mkl triu, if_neg (by simp)]
    dsimp only [ncols_ofRows]
    rw [lengths_eq mkl triu hst hlt, cumsum_ofRows]
    unfold ofRows Build.toCsr
    rw [ofRows_entries, hflat]
    simp
  · apply wf_ofRows
    intro r hr' e he
    obtain ⟨i, hi, rfl⟩ := List.mem_map.1 hr'
    unfold rowAt at he
    obtain ⟨f, hf, he⟩ := List.mem_flatMap.1 he
    unfold oRow at he
    split at he
    · obtain ⟨g, hg, rfl⟩ := List.mem_map.1 he
      exact hlt g (List.mem_of_mem_filter hg)
    · obtain ⟨g, hg, rfl⟩ := List.mem_map.1 he
      exact hlt g hg
  · simp
  · intro i hi j _
    unfold Csr.val
    rw [row_ofRows_map _ _ _ _ hi, sumAt_rowAt]
    simp only [sumAt_entries hp]
    rfl

/-- **C90, violated**: a row without values raises `ValueError` instead of giving the zero
matrix, and without `triu` so does a row with a single value. -/
theorem C90_outer_violated (mkl triu : Bool) (p : Csr K) (hp : p.WF) (h1 : p.nrows = 1)
    (hr : p.NoRepeats) (hk : nonzeros p = 0 ∨ triu = false ∧ nonzeros p = 1) :
    (sparseOuter mkl triu p).1 = .error .value := by
  have hlen := length_entries hp h1 hr
  have hdata : (ofRows p.ncols [entries p]).data = (entries p).map Prod.snd := by
    simp [ofRows, Build.toCsr, ofRows_entries]
  have hix : (ofRows p.ncols [entries p]).indices = (entries p).map Prod.fst := by
    simp [ofRows, Build.toCsr, ofRows_entries]
  unfold sparseOuter
  rw [if_neg (by omega)]
  dsimp only
  rw [tidy_eq p h1, hdata, hix]
  unfold nonzeros at hk
  rw [← hlen] at hk
  rcases hk with h0 | ⟨h3, h4⟩
  · rw [List.length_eq_zero_iff.1 h0]
    rfl
  · split
    · rfl
    · rw [if_pos ⟨h3, by rw [List.length_map]; exact h4⟩]

/-- **C90**: the row of the caller is cleaned in place; its values stay the same. -/
theorem C90_outer_argument (mkl triu : Bool) (p : Csr K) (hp : p.WF) (h1 : p.nrows = 1) :
    let q := (sparseOuter mkl triu p).2
    q.WF ∧ q.nrows = 1 ∧ q.ncols = p.ncols ∧ q.NoZeros ∧ SortedRows q ∧
      ∀ j, q.val 0 j = p.val 0 j := by
  have hq : (sparseOuter mkl triu p).2 = ofRows p.ncols [entries p] := by
    rw [← tidy_eq p h1]
    unfold sparseOuter
    rw [if_neg (by omega)]
    dsimp only
    split_ifs <;> rfl
  have hrow : (ofRows p.ncols [entries p]).row 0 = entries p := row_ofRows _ _ 0 (by simp)
  dsimp only
  rw [hq]
  refine ⟨?_, rfl, rfl, ?_, ?_, ?_⟩
  · apply wf_ofRows
    intro r hr e he
    rw [List.mem_singleton] at hr
    subst hr
    exact entries_lt hp e ((entries_perm hp).subset he)
  · intro i hi e he
    have : i = 0 := by
      have : i < 1 := hi
      omega
    subst this
    rw [hrow] at he
    simpa using (List.mem_filter.1 ((entries_perm hp).subset he)).2
  · intro i hi
    have : i = 0 := by
      have : i < 1 := hi
      omega
    subst this
    rw [hrow]
    exact sortRow_sorted _ _
  · intro j
    unfold Csr.val
    rw [hrow]
    exact sumAt_entries hp j

/-! ## C90: rows divided by their sums -/

theorem sumAt_divRow (r : List (Nat × K)) (j : Nat) :
    sumAt (divRow r) j =
      if (r.map Prod.snd).sum ≠ 0 then sumAt r j / (r.map Prod.snd).sum else sumAt r j := by
  unfold divRow
  dsimp only
  split
  · rw [sumAt_map_scale r (fun x => x / (r.map Prod.snd).sum) (zero_div _)
      (fun a b => add_div _ _ _)]
  · rfl

theorem val_divRows (M : Csr K) (hM : M.WF) (i j : Nat) (hi : i < M.nrows) :
    (divRows M).val i j =
      if ∑ c ∈ Finset.range M.ncols, M.val i c ≠ 0 then
        M.val i j / ∑ c ∈ Finset.range M.ncols, M.val i c
      else M.val i j := by
  have hsum : ((M.row i).map Prod.snd).sum = ∑ c ∈ Finset.range M.ncols, M.val i c :=
    (sum_sumAt (M.row i) M.ncols (hM.row_lt i)).symm
  unfold divRows Csr.rows Csr.val
  rw [List.map_map, row_ofRows_map _ _ _ _ hi]
  simp only [Function.comp]
  rw [sumAt_divRow, hsum]
  rfl

theorem nrows_divRows (M : Csr K) : (divRows M).nrows = M.nrows := by
  simp [divRows, Csr.rows]

/-- **C90** (`csc_row_normalize` of a CSC matrix). Rows with a sum that is not zero are
divided by it, the others stay. `Xt` and the result are given by their columns. -/
theorem C90_row_normalize (Xt : Csr K) (i j : Nat) (hi : i < Xt.ncols) (hj : j < Xt.nrows) :
    (cscRowNormalize Xt).WF ∧ (cscRowNormalize Xt).nrows = Xt.nrows ∧
    (cscRowNormalize Xt).ncols = Xt.ncols ∧
    (cscRowNormalize Xt).val j i =
      if ∑ c ∈ Finset.range Xt.nrows, Xt.val c i ≠ 0 then
        Xt.val j i / ∑ c ∈ Finset.range Xt.nrows, Xt.val c i
      else Xt.val j i := by
  have hn : (divRows Xt.transpose).nrows = Xt.ncols := by
    rw [nrows_divRows, nrows_transpose]
  have hc : (divRows Xt.transpose).ncols = Xt.nrows := rfl
  refine ⟨wf_transpose _, ?_, ?_, ?_⟩
  · unfold cscRowNormalize
    rw [nrows_transpose, hc]
  · unfold cscRowNormalize
    rw [ncols_transpose, hn]
  · unfold cscRowNormalize
    rw [val_transpose _ i j (by rw [hn]; exact hi) (by rw [hc]; exact hj),
      val_divRows _ (wf_transpose _) _ _ (by rw [nrows_transpose]; exact hi),
      val_transpose Xt j i hj hi, ncols_transpose]
    have : ∑ c ∈ Finset.range Xt.nrows, Xt.transpose.val i c =
        ∑ c ∈ Finset.range Xt.nrows, Xt.val c i :=
      Finset.sum_congr rfl fun c hc' => val_transpose Xt c i (Finset.mem_range.1 hc') hi
    rw [this]

/-- **C90, violated** (`csc_row_normalize` of a CSR matrix): the result is the same, but the
matrix of the caller is divided as well, in spite of the promised copy. -/
theorem C90_row_normalize_violated (X : Csr K) (hX : X.WF) (i j : Nat) (hi : i < X.nrows)
    (hj : j < X.ncols) (hs : ∑ c ∈ Finset.range X.ncols, X.val i c ≠ 0)
    (hs1 : ∑ c ∈ Finset.range X.ncols, X.val i c ≠ 1) (hv : X.val i j ≠ 0) :
    (csrRowNormalize X).1.val j i = X.val i j / ∑ c ∈ Finset.range X.ncols, X.val i c ∧
    (csrRowNormalize X).2.val i j ≠ X.val i j := by
  have h := val_divRows X hX i j hi
  rw [if_pos hs] at h
  constructor
  · unfold csrRowNormalize
    dsimp only
    rw [val_transpose (divRows X) i j (by rw [nrows_divRows]; exact hi) hj, h]
  · unfold csrRowNormalize
    dsimp only
    rw [h]
    intro he
    rw [div_eq_iff hs] at he
    exact hs1 (mul_left_cancel₀ hv (by rw [mul_one]; exact he.symm))

/-! ## C90: values close to one -/

theorem row_setToOnes (tol : K) (M : Csr K) (i : Nat) :
    (setToOnes tol M).row i =
      (M.row i).map fun e => (e.1, if |e.2 - 1| ≤ tol then 1 else e.2) := by
  unfold Csr.row setToOnes
  dsimp only
  rw [List.zip_map_right, ← List.map_drop, ← List.map_take]
  rfl

/-- **C90** (`set_to_ones`). With a tolerance below one every value within the tolerance of
one becomes one and every other value stays; no value moves by more than the tolerance, and
doing it twice changes nothing. -/
theorem C90_ones (tol : K) (h1 : tol < 1) (M : Csr K) (hr : M.NoRepeats) (i j : Nat)
    (hi : i < M.nrows) :
    (setToOnes tol M).val i j = (if |M.val i j - 1| ≤ tol then 1 else M.val i j) ∧
    (0 ≤ tol → |(setToOnes tol M).val i j - M.val i j| ≤ tol) ∧
    setToOnes tol (setToOnes tol M) = setToOnes tol M := by
  have hval : (setToOnes tol M).val i j = (if |M.val i j - 1| ≤ tol then 1 else M.val i j) := by
    unfold Csr.val
    rw [row_setToOnes]
    by_cases hj : j ∈ (M.row i).map Prod.fst
    · obtain ⟨e, he, rfl⟩ := List.mem_map.1 hj
      have hnd : (((M.row i).map fun e => (e.1, if |e.2 - 1| ≤ tol then 1 else e.2)).map
          Prod.fst).Nodup := by
        rw [List.map_map]
        exact hr i hi
      have h2 := sumAt_of_mem _ hnd (e.1, if |e.2 - 1| ≤ tol then 1 else e.2)
        (List.mem_map.2 ⟨e, he, rfl⟩)
      dsimp only at h2
      rw [h2, sumAt_of_mem _ (hr i hi) e he]
    · rw [sumAt_eq_zero _ j, sumAt_eq_zero (M.row i) j]
      · rw [if_neg]
        rw [zero_sub, abs_neg, abs_one]
        exact not_le.2 h1
      · intro e he h
        exact hj (h ▸ List.mem_map_of_mem he)
      · intro e he h
        obtain ⟨f, hf, rfl⟩ := List.mem_map.1 he
        exact hj (List.mem_map.2 ⟨f, hf, h⟩)
  refine ⟨hval, ?_, ?_⟩
  · intro h0
    rw [hval]
    split
    · rename_i h
      rw [abs_sub_comm]
      exact h
    · simpa using h0
  · unfold setToOnes
    simp only [List.map_map]
    congr 1
    apply List.map_congr_left
    intro x _
    simp only [Function.comp]
    split
    · split <;> simp
    · rfl

/-! ## C90: the dense forward covariance -/

theorem foldl_sum (n : Nat) (f : Nat → K) :
    (List.range n).foldl (fun s k => s + f k) 0 = ∑ k ∈ Finset.range n, f k := by
  induction n with
  | zero => rfl
  | succ n ih => rw [List.range_succ, List.foldl_append, ih, Finset.sum_range_succ]; rfl

/-- **C90** (`compute_S_0t0`). Where no final probability is zero the dense routine gives the
forward covariance of the sparse class; where one is zero it raises, while the sparse class
gives a value. -/
theorem C90_forward (T : Csr K) (hT : T.WF) (hsq : T.ncols = T.nrows) (p0 pt : Nat → K) :
    ((∀ k < T.nrows, pt k ≠ 0) → ∃ S, computeS0t0 T.nrows p0 pt T.val = .ok S ∧
      ∀ i < T.nrows, ∀ j < T.nrows,
        S i j = (fromTForward T (some p0) (some pt)).toarray i j) ∧
    ((∃ k < T.nrows, pt k = 0) → computeS0t0 T.nrows p0 pt T.val = .error .zeroDivision) := by
  constructor
  · intro h
    refine ⟨fun i j => (List.range T.nrows).foldl
      (fun s k => s + p0 i * T.val i k * (1 / pt k) * T.val j k * p0 j) 0 - p0 i * p0 j, ?_, ?_⟩
    · unfold computeS0t0
      rw [if_neg]
      rw [List.any_eq_true]
      rintro ⟨k, hk, h0⟩
      exact h k (List.mem_range.1 hk) (of_decide_eq_true h0)
    · intro i hi j hj
      dsimp only
      rw [toarray_forward T hT hsq _ _ i j hi hj, foldl_sum]
      simp only [Option.getD_some]
      congr 1
      apply Finset.sum_congr rfl
      intro k hk
      unfold invOrOne
      rw [if_neg (h k (Finset.mem_range.1 hk))]
  · rintro ⟨k, hk, h0⟩
    unfold computeS0t0
    rw [if_pos]
    rw [List.any_eq_true]
    exact ⟨k, List.mem_range.2 hk, decide_eq_true h0⟩

/-! ## Concrete cases for C90 -/

/-- A row with three values, one of them a stored zero, not sorted. -/
def exRow : Csr ℚ := ofRows 4 [[(3, 1 / 2), (1, 0), (0, 2)]]

/-- Non-vacuity of `C90_outer_partial` and `C90_outer_argument`. -/
example : exRow.WF ∧ exRow.nrows = 1 ∧ exRow.NoRepeats ∧ nonzeros exRow = 2 :=
  ⟨wf_ofRows _ _ (by decide +kernel), by decide, by unfold Csr.NoRepeats; decide +kernel,
    by decide +kernel⟩

/-- Non-vacuity of `C90_outer_violated`: a row without values and a row with one. -/
example : (ofRows 3 [[]] : Csr ℚ).WF ∧ (ofRows 3 [[]] : Csr ℚ).NoRepeats ∧
    nonzeros (ofRows 3 [[]] : Csr ℚ) = 0 ∧ nonzeros (ofRows 3 [[(1, 5)]] : Csr ℚ) = 1 ∧
    (ofRows 3 [[(1, 5)]] : Csr ℚ).NoRepeats :=
  ⟨wf_ofRows _ _ (by decide +kernel), by unfold Csr.NoRepeats; decide +kernel, by decide +kernel,
    by decide +kernel, by unfold Csr.NoRepeats; decide +kernel⟩

/-- Non-vacuity of `C90_row_normalize_violated`, `C90_ones` and `C90_forward`. -/
def exM : Csr ℚ := ofRows 2 [[(0, 1), (1, 2)], [(1, 1 - 1 / 1000)]]

example : exM.WF ∧ exM.NoRepeats ∧ exM.ncols = exM.nrows ∧
    ∑ c ∈ Finset.range exM.ncols, exM.val 0 c ≠ 0 ∧
    ∑ c ∈ Finset.range exM.ncols, exM.val 0 c ≠ 1 ∧ exM.val 0 1 ≠ 0 ∧
    (setToOnes (1 / 100) exM).val 1 1 = 1 ∧ exM.val 1 1 ≠ 1 :=
  ⟨wf_ofRows _ _ (by decide +kernel), by unfold Csr.NoRepeats; decide +kernel, by decide,
    by decide +kernel, by decide +kernel, by decide +kernel, by decide +kernel, by decide +kernel⟩

end Verif.Helpers
