import Verif.ExpmArrays.Props

/-!
# Trimming and normalisation of the exponentials (C96)

What `thresh_ratio` and `normalize_rows` do to the stored result of the exponential by components and by
columns (parallel_expm.py:54-60, 113-117, 265-270; temporal_network.py:2353-2358).
-/

set_option linter.dupNamespace false

namespace Verif.ExpmArrays

open Verif.Csr Verif.Memory Verif.Trans Finset

section
variable {K : Type} [Field K] [LinearOrder K] [IsStrictOrderedRing K]

theorem sumAt_map_nodup (f : K → K) (h0 : f 0 = 0) (r : List (Nat × K)) (hn : (r.map Prod.fst).Nodup) (j : Nat) :
    sumAt (r.map fun e => (e.1, f e.2)) j = f (sumAt r j) := by
  by_cases h : ∃ e ∈ r, e.1 = j
  · obtain ⟨e, he, rfl⟩ := h
    have h1 : sumAt r e.1 = e.2 := sumAt_of_mem _ hn _ he
    have hn' : ((r.map fun e => (e.1, f e.2)).map Prod.fst).Nodup := by
      rwa [List.map_map]
    have h2 := sumAt_of_mem _ hn' (e.1, f e.2) (List.mem_map_of_mem (f := fun e : Nat × K => (e.1, f e.2)) he)
    rw [h1]
    exact h2
  · have h1 : sumAt r j = 0 := sumAt_eq_zero _ _ fun e he hej => h ⟨e, he, hej⟩
    rw [h1, h0]
    apply sumAt_eq_zero
    intro e he hej
    obtain ⟨e', he', rfl⟩ := List.mem_map.1 he
    exact h ⟨e', he', hej⟩

theorem row_mapData (M : Csr K) (f : K → K) (i : Nat) :
    ({ M with data := M.data.map f } : Csr K).row i = (M.row i).map fun e => (e.1, f e.2) := by
  have : M.indices.zip (M.data.map f) = (M.indices.zip M.data).map fun e => (e.1, f e.2) := by
    rw [List.zip_map_right]
    rfl
  unfold Csr.row
  simp only [this]
  rw [List.map_take, List.map_drop]

/-- Values below the bound are set to zero and removed. -/
theorem trimmed_val {M : Csr K} (f : K → K) (h0 : f 0 = 0) (i j : Nat) (hi : i < M.nrows)
    (hn : ((M.row i).map Prod.fst).Nodup) :
    (Sparse.eliminateZeros ⟨.csr, { M with data := M.data.map f }⟩).arr.val i j = f (M.val i j) := by
  unfold Sparse.eliminateZeros
  simp only
  rw [rowsMap_val (M := { M with data := M.data.map f }) _ sumAt_nonzero i j hi]
  unfold Csr.val
  rw [row_mapData, sumAt_map_nodup f h0 _ hn]

theorem trimmed_wf {M : Csr K} (h : M.WF) (f : K → K) :
    (Sparse.eliminateZeros ⟨.csr, { M with data := M.data.map f }⟩).arr.WF := by
  apply rowsMap_wf (M := { M with data := M.data.map f })
  · exact ⟨h.ptrLen, h.ptrZero, h.mono, by simpa using h.last, by simpa using h.lens, h.bound⟩
  · intro r e he
    exact (List.mem_filter.1 he).1

theorem dataMax_spec (l : List K) (h : l ≠ []) : (∀ x ∈ l, x ≤ dataMax l) ∧ dataMax l ∈ l := by
  cases l with
  | nil => exact absurd rfl h
  | cons x xs => exact SparseStoch.foldl_max_spec xs x

/-- The stored values of the reconstructed matrix are the entries inside the components. -/
theorem rebuilt_data (lab : List Nat) (S : Nat → Mat K) (x : K) : x ∈ (rebuilt lab S).data ↔
    ∃ i < lab.length, ∃ j < lab.length, labOf lab i = labOf lab j ∧ (rebuilt lab S).val i j = x := by
  have hd : (rebuilt lab S).data = ((List.range lab.length).map (rowOf lab S)).flatten.map Prod.snd := by
    unfold rebuilt ofRows Build.toCsr
    simp only
    rw [ofRows_entries]
  rw [hd]
  constructor
  · intro hx
    obtain ⟨e, he, rfl⟩ := List.mem_map.1 hx
    obtain ⟨r, hr, her⟩ := List.mem_flatten.1 he
    obtain ⟨i, hi, rfl⟩ := List.mem_map.1 hr
    rw [List.mem_range] at hi
    have hm : e.1 ∈ (rowOf lab S i).map Prod.fst := List.mem_map_of_mem her
    rw [rowOf_fst] at hm
    obtain ⟨h1, h2⟩ := List.mem_filter.1 hm
    refine ⟨i, hi, e.1, List.mem_range.1 h1, (of_decide_eq_true h2).symm, ?_⟩
    have hrow : (rebuilt lab S).row i = rowOf lab S i := row_ofRows_map _ _ _ _ hi
    unfold Csr.val
    rw [hrow]
    refine sumAt_of_mem _ ?_ _ her
    rw [rowOf_fst]; exact List.nodup_range.filter _
  · rintro ⟨i, hi, j, hj, hlab, rfl⟩
    have hrow : (rebuilt lab S).row i = rowOf lab S i := row_ofRows_map _ _ _ _ hi
    have hm : j ∈ (rowOf lab S i).map Prod.fst := by
      rw [rowOf_fst]
      simp [compIndices, hj, hlab]
    obtain ⟨e, he, rfl⟩ := List.mem_map.1 hm
    have hv : (rebuilt lab S).val i e.1 = e.2 := by
      unfold Csr.val
      rw [hrow]
      refine sumAt_of_mem _ ?_ _ he
      rw [rowOf_fst]; exact List.nodup_range.filter _
    rw [hv]
    exact List.mem_map_of_mem (List.mem_flatten.2 ⟨_, List.mem_map.2 ⟨i, List.mem_range.2 hi, rfl⟩, he⟩)

/-- What `inplace_csr_row_normalize` does to the entries: rows with a sum different from zero are divided
by it, the others stay. -/
def NormalizedOf (n : Nat) (M' M : Nat → Nat → K) : Prop :=
  ∀ i < n, ∀ j < n, M' i j =
    if ∑ k ∈ range n, M i k = 0 then M i j else M i j / ∑ k ∈ range n, M i k

theorem normalized_of {M : Csr K} {n : Nat} (h : M.WF) (h1 : M.nrows = n) (h2 : M.ncols = n) :
    NormalizedOf n (SparseStoch.rowNormalize .compiled 1 M).val M.val := by
  intro i hi j _
  have hs := (SparseStoch.normalize_spec .compiled (fun _ => (1 : K)) M h).2 i (by omega)
  have ht : SparseStoch.rowTotal M i = ∑ k ∈ range n, M.val i k := by unfold SparseStoch.rowTotal; rw [h2]
  rw [ht] at hs
  split
  · rename_i h0
    exact hs.2.2 h0 j
  · rename_i h0
    have := hs.2.1 h0 one_ne_zero j
    rw [mul_one_div] at this
    exact this

end

/-- **C96**: the options of the exponential by components.  With a threshold `r`, an entry is set to zero
exactly if it is below the largest entry inside a component divided by `r`; with normalisation the rows
are divided by their sums. -/
theorem C96_options (A : Sparse ℝ) (lab : List Nat) (hne : lab ≠ []) (h : A.Square lab.length) (nComp : Nat)
    (hl : ∀ c ∈ lab, c < nComp)
    (hsep : ∀ i < lab.length, ∀ j < lab.length, A.val i j ≠ 0 → lab.getD i 0 = lab.getD j 0) :
    (∀ r, ∃ M, subspaceExpm expm lab nComp (some r) false A = .ok M ∧ ∃ m,
      (∃ i < lab.length, ∃ j < lab.length, lab.getD i 0 = lab.getD j 0 ∧ expm lab.length A.val i j = m) ∧
      (∀ i < lab.length, ∀ j < lab.length, lab.getD i 0 = lab.getD j 0 → expm lab.length A.val i j ≤ m) ∧
      ∀ i < lab.length, ∀ j < lab.length,
        M.val i j = if expm lab.length A.val i j < m / r then 0 else expm lab.length A.val i j) ∧
    ∀ th, ∃ M M', subspaceExpm expm lab nComp th false A = .ok M ∧ subspaceExpm expm lab nComp th true A = .ok M' ∧
      NormalizedOf lab.length M'.val M.val := by
  obtain ⟨M₀, h0, hwf, hnr, hv⟩ := C96_serial A lab h nComp hl hsep
  have hM₀ := h0
  rw [serial_eq expm lab nComp hl] at hM₀
  set R := rebuilt lab fun c => expm ((cmpIndices lab nComp).getD c []).length
    (sub ((cmpIndices lab nComp).getD c []) A.eliminateZeros.sortIndices.val) with hR
  have hfin : finish none false R = R := rfl
  rw [hfin] at hM₀
  have hRM : R = M₀ := Except.ok.inj hM₀
  rw [← hRM] at hwf hnr hv
  have hnc : R.ncols = lab.length := rfl
  have hnod : ∀ i < lab.length, ((R.row i).map Prod.fst).Nodup := by
    intro i hi
    have hrow : R.row i = rowOf lab _ i := row_ofRows_map _ _ _ _ hi
    rw [hrow, rowOf_fst]
    exact List.nodup_range.filter _
  constructor
  · intro r
    refine ⟨_, serial_eq expm lab nComp hl (some r) false A, dataMax R.data, ?_, ?_, ?_⟩
    · have hpos : 0 < lab.length := List.length_pos_iff.2 hne
      have hdn : R.data ≠ [] := by
        have : R.val 0 0 ∈ R.data := (rebuilt_data lab _ _).2 ⟨0, hpos, 0, hpos, rfl, rfl⟩
        exact List.ne_nil_of_mem this
      obtain ⟨i, hi, j, hj, hlab, hx⟩ := (rebuilt_data lab _ _).1 (dataMax_spec R.data hdn).2
      exact ⟨i, hi, j, hj, hlab, (hv i hi j hj).symm.trans hx⟩
    · intro i hi j hj hlab
      rw [← hv i hi j hj]
      have hm : R.val i j ∈ R.data := (rebuilt_data lab _ _).2 ⟨i, hi, j, hj, hlab, rfl⟩
      exact (dataMax_spec R.data (List.ne_nil_of_mem hm)).1 _ hm
    · intro i hi j hj
      rw [← hR, ← hv i hi j hj]
      show (Sparse.eliminateZeros ⟨.csr, { R with data := _ }⟩).arr.val i j = _
      exact trimmed_val (fun x => if x < dataMax R.data / r then 0 else x) (by simp) i j (by rw [hnr]; exact hi) (hnod i hi)
  · intro th
    refine ⟨_, _, serial_eq expm lab nComp hl th false A, serial_eq expm lab nComp hl th true A, ?_⟩
    rw [← hR]
    cases th with
    | none => exact normalized_of hwf hnr hnc
    | some r =>
      refine normalized_of (trimmed_wf hwf _) ?_ hnc
      exact (rowsMap_nrows _ _).trans hnr

/-- **C96**: the options of the exponential by columns: the threshold is relative to the largest entry of
the column. -/
theorem C96_column_options {EMul : Nat → Mat ℝ → (Nat → ℝ) → Nat → ℝ} (hE : MulSpec EMul) (A : Sparse ℝ) (n : Nat)
    (h : A.Square n) :
    (∀ r, ∀ j < n, ∃ m, (∃ i < n, expm n A.val i j = m) ∧ (∀ i < n, expm n A.val i j ≤ m) ∧
      ∀ i < n, (parallelExpm EMul (some r) false A).val i j =
        if expm n A.val i j < m / r then 0 else expm n A.val i j) ∧
    ∀ th, NormalizedOf n (parallelExpm EMul th true A).val (parallelExpm EMul th false A).val := by
  obtain ⟨h1, h2, h3⟩ := square_toCsc h
  have hn : A.toCsc.arr.nrows = n := h1.rows
  have hW : initWorker A.toCsc.arr.data A.toCsc.arr.indices A.toCsc.arr.indptr n = A.toCsc := by
    unfold initWorker
    rw [← h2]
    have e1 := h1.rows
    have e2 := h1.cols
    generalize A.toCsc = B at *
    obtain ⟨f, M⟩ := B
    cases M
    simp only at e1 e2
    subst e1
    subst e2
    rfl
  have hcol : ∀ i < n, ∀ j < n, EMul n A.toCsc.val (fun k => if k = j then 1 else 0) i = expm n A.val i j := by
    intro i hi j hj
    rw [← expm_congr (fun a ha b hb => h3 a b ha hb)]
    exact C60_by_columns hE n A.toCsc.val i hi j hj
  have hpar : ∀ th, parallelExpm EMul th false A = stackT n ((List.range n).map fun c =>
      rowOfVec n (trimColumn n th (EMul n A.toCsc.val fun k => if k = c then 1 else 0))) := by
    intro th
    unfold parallelExpm worker
    simp only [Bool.false_eq_true, if_false]
    rw [hn, hW]
  constructor
  · intro r j hj
    set v := EMul n A.toCsc.val fun k => if k = j then 1 else 0 with hv
    set m := (List.range n).foldl (fun m j => max m (v j)) (v 0) with hm
    have hpos : 0 < n := by omega
    refine ⟨m, ?_, ?_, ?_⟩
    · have : m = v 0 ∨ ∃ i ∈ List.range n, m = v i := by
        rw [hm]
        clear_value v
        clear hm m hv
        generalize List.range n = l
        generalize v 0 = a
        induction l generalizing a with
        | nil => exact Or.inl rfl
        | cons x l ih =>
          rw [List.foldl_cons]
          rcases ih (max a (v x)) with h | ⟨i, hi, h⟩
          · rcases max_choice a (v x) with h' | h'
            · left; rw [h, h']
            · right; exact ⟨x, by simp, by rw [h, h']⟩
          · right; exact ⟨i, by simp [hi], h⟩
      rcases this with h | ⟨i, hi, h⟩
      · exact ⟨0, hpos, by rw [h, hv, hcol 0 hpos j hj]⟩
      · have hi := List.mem_range.1 hi
        exact ⟨i, hi, by rw [h, hv, hcol i hi j hj]⟩
    · intro i hi
      rw [← hcol i hi j hj]
      exact (foldl_max_ge v (List.range n) (v 0)).2 i (List.mem_range.2 hi)
    · intro i hi
      rw [hpar, stackT_val n (fun c => trimColumn n (some r) (EMul n A.toCsc.val fun k => if k = c then 1 else 0)) i j hi hj]
      rw [← hcol i hi j hj]
      rfl
  · intro th
    have e : parallelExpm EMul th true A = SparseStoch.rowNormalize .compiled 1 (parallelExpm EMul th false A) := by
      unfold parallelExpm
      simp
    rw [e]
    have hwf : (parallelExpm EMul th false A).WF := by rw [hpar]; exact wf_transpose _
    refine normalized_of hwf ?_ ?_
    · rw [hpar]; exact nrows_transpose _
    · rw [hpar]
      simp [stackT, Csr.transpose, ofRows, Build.toCsr]

/-- The 2-node matrix of the other examples meets the hypotheses. -/
example {EMul : Nat → Mat ℝ → (Nat → ℝ) → Nat → ℝ} (hE : MulSpec EMul) :
    (∃ M, subspaceExpm expm [0, 0] 1 (some 100) false exA = .ok M) ∧
    NormalizedOf 2 (parallelExpm EMul none true exA).val (parallelExpm EMul none false exA).val := by
  have cases2 : ∀ {i : Nat}, i < ([0, 0] : List Nat).length → i = 0 ∨ i = 1 := by
    intro i hi
    have : i < 2 := hi
    omega
  obtain ⟨M, hM, _⟩ := (C96_options exA [0, 0] (by simp) exA_square 1 (by simp)
      (by intro i hi j hj _; rcases cases2 hi with rfl | rfl <;> rcases cases2 hj with rfl | rfl <;> rfl)).1 100
  exact ⟨⟨M, hM⟩, (C96_column_options hE exA 2 exA_square).2 none⟩

end Verif.ExpmArrays
