import Verif.ExpmArrays.Lemmas
import Verif.DenseMem.Lemmas
import Verif.SparseStoch.Props
import Verif.Trans.SubExpm
import Mathlib.Analysis.SpecialFunctions.Exponential

/-!
# Exponentials by components on arrays: property C96
-/

set_option linter.dupNamespace false
set_option linter.unusedSectionVars false

namespace Verif.ExpmArrays

open Verif.Csr Verif.Memory Verif.Trans NormedSpace

variable {K : Type} [Field K] [LinearOrder K] [IsStrictOrderedRing K]

/-! ## The reconstruction -/

/-- **C96**: the reconstruction of the matrix from the components succeeds exactly if all labels are below
the number of components; then the arrays are filled exactly, the matrix is well formed, and an entry
between nodes of one component is that of the component's matrix, at the positions of the nodes in
the component. -/
theorem C96_reconstruction (lab : List Nat) (nComp : Nat) (S : Nat → Nat → Nat → K) :
    ((∃ a, rebuildRun lab nComp S = .ok a) ↔ ∀ c ∈ lab, c < nComp) ∧
    ∀ a, rebuildRun lab nComp S = .ok a → ∃ M : Csr K, a = arraysOf M ∧ M.WF ∧
      M.nrows = lab.length ∧ M.ncols = lab.length ∧ ∀ i j, i < lab.length → j < lab.length →
        let nodes (c : Nat) := (List.range lab.length).filter fun k => decide (lab.getD k 0 = c)
        M.val i j = if lab.getD i 0 = lab.getD j 0 then
          S (lab.getD i 0) ((nodes (lab.getD i 0)).idxOf i) ((nodes (lab.getD i 0)).idxOf j) else 0 := by
  have hiff : (∃ a, rebuildRun lab nComp S = .ok a) ↔ ∀ c ∈ lab, c < nComp := by
    constructor
    · rintro ⟨a, ha⟩ c hc
      by_contra hlt
      push Not at hlt
      obtain ⟨r, hr, hrc⟩ := List.getElem_of_mem hc
      unfold rebuildRun at ha
      simp only at ha
      rw [DenseMem.bind_ok_iff] at ha
      obtain ⟨o, ho, _⟩ := ha
      obtain ⟨s1, s2, h⟩ := DenseMem.loop_ok_step 0 lab.length _ _ _ ho r (Nat.zero_le _) hr
      unfold rebuildRow at h
      rw [rd_nat _ _ hr, ok_bind, hrc, rd_nat_err _ _ (by simpa [cmpIndices] using hlt), err_bind] at h
      cases h
    · intro h
      exact ⟨_, rebuildRun_ok lab nComp h S⟩
  refine ⟨hiff, ?_⟩
  intro a ha
  have hl := hiff.1 ⟨a, ha⟩
  rw [rebuildRun_ok lab nComp hl S] at ha
  cases ha
  refine ⟨_, rfl, rebuilt_wf lab S, rebuilt_nrows lab S, rfl, ?_⟩
  intro i j hi hj
  exact rebuilt_val lab S i j hi hj

example : (∀ c ∈ [0, 1, 0], c < 2) ∧
    (rebuildRun [0, 1, 0] 2 (fun c a b => (100 * c + 10 * a + b : ℚ))).toOption.map (fun a =>
      (a.indptr, a.indices, a.data)) = some ([0, 2, 3, 5], [0, 2, 1, 0, 2], [0, 1, 100, 10, 11]) := by
  refine ⟨by decide, ?_⟩
  decide +kernel

/-! ## Stacking of columns -/

/-- **C96**: stacking the columns by hand gives the arrays of the CSC matrix with these columns, without
a stray access; stacking them with SciPy gives the same values in CSR format. -/
theorem C96_stack (N : Nat) (f : Nat → Nat → K) :
    let cols := (List.range N).map fun c => rowOfVec N (f c)
    (∃ M : Csr K, stackColsRun N cols = .ok (arraysOf M) ∧ M.WF ∧ M.nrows = N ∧ M.ncols = N ∧
      ∀ i j, i < N → j < N → (⟨.csc, M⟩ : Sparse K).val i j = f j i) ∧
    (stackT N cols).WF ∧ (stackT N cols).nrows = N ∧
    ∀ i j, i < N → j < N → (stackT N cols).val i j = f j i := by
  intro cols
  have hl : cols.length = N := by simp [cols]
  refine ⟨⟨_, stackCols_ok N cols hl, ?_, ?_, rfl, ?_⟩, wf_transpose _, nrows_transpose _, stackT_val N f⟩
  · apply wf_ofRows
    intro r hr e he
    obtain ⟨c, _, rfl⟩ := List.mem_map.1 hr
    exact rowOfVec_lt _ _ e he
  · simp [ofRows, Build.toCsr, cols]
  · intro i j hi hj
    show (ofRows N cols).val j i = _
    unfold Csr.val
    rw [row_ofRows_map _ _ _ _ hj, sumAt_rowOfVec _ _ _ hi]

/-- **C96**: `compute_parallel_expm` gives the exponential for both formats of the argument. -/
theorem C96_columns {EMul : Nat → Mat ℝ → (Nat → ℝ) → Nat → ℝ} (hE : MulSpec EMul) (A : Sparse ℝ) (n : Nat)
    (h : A.Square n) : EqOn n (parallelExpm EMul none false A).val (expm n A.val) := by
  obtain ⟨h1, h2, h3⟩ := square_toCsc h
  intro i hi j hj
  unfold parallelExpm
  simp only [Bool.false_eq_true, if_false]
  have hn : A.toCsc.arr.nrows = n := h1.rows
  rw [hn]
  unfold worker
  rw [stackT_val n (fun c => trimColumn n none (EMul n (initWorker A.toCsc.arr.data A.toCsc.arr.indices
    A.toCsc.arr.indptr n).val fun k => if k = c then 1 else 0)) i j hi hj]
  have hW : initWorker A.toCsc.arr.data A.toCsc.arr.indices A.toCsc.arr.indptr n = A.toCsc := by
    unfold initWorker
    rw [← h2]
    have e1 := h1.rows
    have e2 := h1.cols
    generalize A.toCsc = B at *
    obtain ⟨f, M⟩ := B
    cases M
    simp only at e1 e2
    subst e1
    subst e2
    rfl
  rw [hW]
  have := C60_by_columns hE n A.toCsc.val i hi j hj
  rw [← expm_congr (fun a ha b hb => h3 a b ha hb)]
  exact this

/-! ## By components -/

theorem rebuilt_congr {lab : List Nat} {S S' : Nat → Mat K}
    (h : ∀ c ∈ lab, ∀ a < lab.count c, ∀ b < lab.count c, S c a b = S' c a b) : rebuilt lab S = rebuilt lab S' := by
  unfold rebuilt
  congr 1
  apply List.map_congr_left
  intro r hr
  rw [List.mem_range] at hr
  unfold rowOf
  apply List.map_congr_left
  intro b hb
  rw [List.mem_range, compIndices_length] at hb
  have hmem : labOf lab r ∈ lab := by
    unfold labOf; rw [List.getD_eq_getElem _ _ hr]; exact List.getElem_mem hr
  rw [h _ hmem _ _ _ hb]
  rw [← compIndices_length]
  apply List.idxOf_lt_length_of_mem
  simp [compIndices, hr]

/-- The matrix before trimming and normalisation. -/
theorem serial_eq (E : Nat → Mat K → Mat K) (lab : List Nat) (nComp : Nat) (hl : ∀ c ∈ lab, c < nComp) (th : Option K)
    (nz : Bool) (A : Sparse K) : subspaceExpm E lab nComp th nz A = .ok (finish th nz (rebuilt lab fun c =>
      E ((cmpIndices lab nComp).getD c []).length (sub ((cmpIndices lab nComp).getD c [])
        A.eliminateZeros.sortIndices.val))) := by
  unfold subspaceExpm
  simp only
  rw [rebuildRun_ok lab nComp hl, ok_bind, pure_ok, toCsr_arraysOf _ _ (rebuilt_nrows _ _) rfl]

/-- **C96**: with one process the function gives the exponential of the matrix, for both formats. -/
theorem C96_serial (A : Sparse ℝ) (lab : List Nat) (h : A.Square lab.length) (nComp : Nat)
    (hl : ∀ c ∈ lab, c < nComp)
    (hsep : ∀ i < lab.length, ∀ j < lab.length, A.val i j ≠ 0 → lab.getD i 0 = lab.getD j 0) :
    ∃ M, subspaceExpm expm lab nComp none false A = .ok M ∧ M.WF ∧ M.nrows = lab.length ∧
      EqOn lab.length M.val (expm lab.length A.val) := by
  refine ⟨_, serial_eq expm lab nComp hl none false A, rebuilt_wf _ _, rebuilt_nrows _ _, ?_⟩
  intro i hi j hj
  show (rebuilt lab _).val i j = _
  rw [rebuilt_congr (S' := fun c => expm (compIndices lab.length (labOf lab) c).length
      (sub (compIndices lab.length (labOf lab) c) A.eliminateZeros.sortIndices.val))
      (fun c hc a _ b _ => by rw [cmpIndices_getD lab nComp c (hl c hc)]), rebuilt_val _ _ _ _ hi hj]
  have hval : EqOn lab.length A.eliminateZeros.sortIndices.val A.val := fun a ha b hb => val_clean h a b ha hb
  rw [← expm_congr hval]
  exact rebuild_expm (lab := labOf lab) (fun a ha b hb hne => hsep a ha b hb (by rwa [hval a ha b hb] at hne)) i hi j hj

/-- **C96**: the function that divides the components among processes gives the same arrays as the one
with one process, with all options, if the argument is a CSC matrix.  Missing: CSR matrices, see
`C96_csr_violated`. -/
theorem C96_parallel_partial {EMul : Nat → Mat ℝ → (Nat → ℝ) → Nat → ℝ} (hE : MulSpec EMul) (A : Sparse ℝ)
    (hf : A.fmt = .csc) (lab : List Nat) (h : A.Square lab.length) (nComp : Nat) (hl : ∀ c ∈ lab, c < nComp)
    (th : Option ℝ) (nz : Bool) :
    subspaceExpmParallel expm EMul lab nComp th nz A = subspaceExpm expm lab nComp th nz A := by
  rw [serial_eq expm lab nComp hl]
  unfold subspaceExpmParallel
  simp only
  rw [rebuildRun_ok lab nComp hl, ok_bind, pure_ok, toCsr_arraysOf _ _ (rebuilt_nrows _ _) rfl]
  congr 2
  have hc := square_clean h
  apply rebuilt_congr
  intro c hcl a ha b hb
  rw [cmpIndices_getD lab nComp c (hl c hcl)]
  have hlen := compIndices_length lab c
  split
  · have := C96_columns hE (A.eliminateZeros.sortIndices.block (compIndices lab.length (labOf lab) c)) _
      (block_square _ _) a (by rw [hlen]; exact ha) b (by rw [hlen]; exact hb)
    rw [this]
    have he : EqOn (compIndices lab.length (labOf lab) c).length
        (A.eliminateZeros.sortIndices.block (compIndices lab.length (labOf lab) c)).val
        (sub (compIndices lab.length (labOf lab) c) A.eliminateZeros.sortIndices.val) :=
      fun x hx y hy => block_val _ _ (List.nodup_range.filter _) x y hx hy
    rw [expm_congr he]
  · unfold expmWorker
    have hW : initWorker A.eliminateZeros.sortIndices.arr.data A.eliminateZeros.sortIndices.arr.indices
        A.eliminateZeros.sortIndices.arr.indptr lab.length = A.eliminateZeros.sortIndices := by
      unfold initWorker
      have e1 := hc.rows
      have e2 := hc.cols
      have e3 : A.eliminateZeros.sortIndices.fmt = .csc := hf
      generalize A.eliminateZeros.sortIndices = B at *
      obtain ⟨f, M⟩ := B
      cases M
      simp only at e1 e2 e3
      subst e1
      rw [e2, e3]
    rw [hW]

/-- **C96 is violated** for CSR matrices: the shared arrays are read as columns, so that with components
of less than 1000 nodes the function works on the transposed matrix, with all options. -/
theorem C96_csr_violated (EMul : Nat → Mat ℝ → (Nat → ℝ) → Nat → ℝ) (A : Sparse ℝ) (hf : A.fmt = .csr)
    (lab : List Nat) (h : A.Square lab.length) (nComp : Nat) (hl : ∀ c ∈ lab, c < nComp)
    (hsmall : ∀ c, lab.count c < 1000)
    (hsep : ∀ i < lab.length, ∀ j < lab.length, A.val i j ≠ 0 → lab.getD i 0 = lab.getD j 0) :
    (∃ M, subspaceExpmParallel expm EMul lab nComp none false A = .ok M ∧
      ∀ i < lab.length, ∀ j < lab.length, M.val i j = expm lab.length A.val j i) ∧
    ∀ th nz, subspaceExpmParallel expm EMul lab nComp th nz A =
      subspaceExpm expm lab nComp th nz ⟨.csc, A.arr⟩ := by
  have key : ∀ th nz, subspaceExpmParallel expm EMul lab nComp th nz A =
      subspaceExpm expm lab nComp th nz ⟨.csc, A.arr⟩ := by
    intro th nz
    rw [serial_eq expm lab nComp hl]
    unfold subspaceExpmParallel
    simp only
    rw [rebuildRun_ok lab nComp hl, ok_bind, pure_ok, toCsr_arraysOf _ _ (rebuilt_nrows _ _) rfl]
    congr 2
    have hc := square_clean h
    apply rebuilt_congr
    intro c hcl a ha b hb
    rw [cmpIndices_getD lab nComp c (hl c hcl)]
    rw [if_neg (by rw [compIndices_length]; exact not_le.2 (hsmall c))]
    unfold expmWorker
    have hW : initWorker A.eliminateZeros.sortIndices.arr.data A.eliminateZeros.sortIndices.arr.indices
        A.eliminateZeros.sortIndices.arr.indptr lab.length =
        (⟨.csc, A.arr⟩ : Sparse ℝ).eliminateZeros.sortIndices := by
      have e0 : (⟨.csc, A.arr⟩ : Sparse ℝ).eliminateZeros.sortIndices =
        ⟨.csc, A.eliminateZeros.sortIndices.arr⟩ := rfl
      rw [e0]
      unfold initWorker
      have e1 := hc.rows
      have e2 := hc.cols
      generalize A.eliminateZeros.sortIndices = B at *
      obtain ⟨f, M⟩ := B
      cases M
      simp only at e1 e2
      subst e1
      rw [e2]
    rw [hW]
  refine ⟨?_, key⟩
  have hflip : ∀ i j, (⟨.csc, A.arr⟩ : Sparse ℝ).val i j = A.val j i := by
    intro i j
    unfold Sparse.val
    rw [hf]
  obtain ⟨M, h1, _, _, h2⟩ := C96_serial ⟨.csc, A.arr⟩ lab ⟨h.wf, h.rows, h.cols⟩ nComp hl (by
    intro i hi j hj hne
    rw [hflip] at hne
    exact (hsep j hj i hi hne).symm)
  refine ⟨M, by rw [key]; exact h1, ?_⟩
  intro i hi j hj
  rw [h2 i hi j hj]
  unfold expm
  rw [dif_pos ⟨hi, hj⟩, dif_pos ⟨hj, hi⟩]
  have : (Matrix.of fun a b : Fin lab.length => (⟨.csc, A.arr⟩ : Sparse ℝ).val a b) =
      (Matrix.of fun a b : Fin lab.length => A.val a b).transpose := by
    ext a b
    exact hflip a b
  rw [this, Matrix.exp_transpose]
  rfl

/-! ## Laplacians -/

section
variable {ι : Type} [Fintype ι] [DecidableEq ι]

/-- Where a matrix without negative entries off the diagonal has a positive entry, so has its
exponential. -/
theorem exp_pos_of_edge {A : Matrix ι ι ℝ} (hA : ∀ i j, i ≠ j → 0 ≤ A i j) (i j : ι) (hij : i = j ∨ 0 < A i j) :
    0 < exp A i j := by
  obtain ⟨c, hc⟩ : ∃ c : ℝ, ∀ i, 0 ≤ A i i + c := by
    refine ⟨∑ i, |A i i|, fun i => ?_⟩
    have h1 : |A i i| ≤ ∑ i, |A i i| := Finset.single_le_sum (f := fun i => |A i i|)
      (fun i _ => abs_nonneg _) (Finset.mem_univ i)
    have h2 := neg_abs_le (A i i)
    linarith
  let B : Matrix ι ι ℝ := A + c • (1 : Matrix ι ι ℝ)
  have hB : ∀ i j, 0 ≤ B i j := by
    intro i j
    show 0 ≤ (A + c • (1 : Matrix ι ι ℝ)) i j
    rw [Matrix.add_apply, Matrix.smul_apply, Matrix.one_apply]
    by_cases h : i = j
    · subst h; simpa using hc i
    · simpa [h] using hA i j h
  have hAB : A = (Matrix.diagonal fun _ : ι => -c) + B := by
    ext a b
    show A a b = ((Matrix.diagonal fun _ : ι => -c) + (A + c • (1 : Matrix ι ι ℝ))) a b
    rw [Matrix.add_apply, Matrix.add_apply, Matrix.smul_apply, Matrix.one_apply, Matrix.diagonal_apply]
    split <;> simp
  have hcomm : Commute (Matrix.diagonal fun _ : ι => -c) B := by
    have : (Matrix.diagonal fun _ : ι => -c) = (-c) • (1 : Matrix ι ι ℝ) := by
      ext a b
      rw [Matrix.smul_apply, Matrix.one_apply, Matrix.diagonal_apply]
      split <;> simp
    rw [this]
    exact (Commute.one_left B).smul_left _
  rw [hAB, Matrix.exp_add_of_commute _ _ hcomm, Matrix.exp_diagonal, Matrix.diagonal_mul]
  refine mul_pos ?_ ?_
  · rw [Pi.coe_exp, ← Real.exp_eq_exp_ℝ]
    exact Real.exp_pos _
  · have hs := hasSum_exp_apply B i j
    by_cases hd : i = j
    · have h1 := le_hasSum hs 0 fun k _ => mul_nonneg (by positivity) (pow_nonneg_entries hB k i j)
      simp only [pow_zero, Nat.factorial_zero, Nat.cast_one, inv_one, one_mul, Matrix.one_apply, if_pos hd] at h1
      linarith
    · have h1 := le_hasSum hs 1 fun k _ => mul_nonneg (by positivity) (pow_nonneg_entries hB k i j)
      simp only [pow_one, Nat.factorial_one, Nat.cast_one, inv_one, one_mul] at h1
      have hBij : B i j = A i j := by
        show (A + c • (1 : Matrix ι ι ℝ)) i j = _
        rw [Matrix.add_apply, Matrix.smul_apply, Matrix.one_apply, if_neg hd]
        simp
      rw [hBij] at h1
      rcases hij with h | h
      · exact absurd h hd
      · linarith

end

theorem expm_edge {n : Nat} {L : Mat ℝ} (hoff : ∀ i < n, ∀ j < n, i ≠ j → L i j ≤ 0) {t : ℝ} (ht : 0 < t) (i j : Nat)
    (hi : i < n) (hj : j < n) (hL : i = j ∨ L i j < 0) : 0 < expm n (fun i j => -t * L i j) i j := by
  unfold expm
  rw [dif_pos ⟨hi, hj⟩]
  apply exp_pos_of_edge
  · intro a b hab
    have := hoff a a.2 b b.2 (fun h => hab (Fin.ext h))
    show 0 ≤ -t * L a b
    nlinarith
  · rcases hL with rfl | hL
    · left; rfl
    · right
      show 0 < -t * L i j
      nlinarith

/-- **C96 is violated**, with the usual options (rows normalised, no threshold): for every Laplacian of a
walk given in CSR format and all components smaller than 1000 nodes, entry `(i, j)` times the sum of
column `i` of the exponential is the exponential's entry `(j, i)`.  If the walk can go from `i` to `j` but
never back (`C` is a set of nodes that it cannot leave), the result at `(i, j)` is zero, although the
probability is positive. -/
theorem C96_walk_violated (EMul : Nat → Mat ℝ → (Nat → ℝ) → Nat → ℝ) (A : Sparse ℝ) (hf : A.fmt = .csr)
    (lab : List Nat) (h : A.Square lab.length) (nComp : Nat) (hl : ∀ c ∈ lab, c < nComp)
    (hsmall : ∀ c, lab.count c < 1000)
    (hsep : ∀ i < lab.length, ∀ j < lab.length, A.val i j ≠ 0 → lab.getD i 0 = lab.getD j 0)
    (L : Mat ℝ) (t : ℝ) (ht : 0 < t) (hA : A.val = fun i j => -t * L i j)
    (hsum : ∀ i < lab.length, ∑ j ∈ Finset.range lab.length, L i j = 0)
    (hoff : ∀ i < lab.length, ∀ j < lab.length, i ≠ j → L i j ≤ 0) :
    ∃ M, subspaceExpmParallel expm EMul lab nComp none true A = .ok M ∧
      (∀ i < lab.length, ∀ j < lab.length,
        M.val i j * (∑ k ∈ Finset.range lab.length, expm lab.length A.val k i) = expm lab.length A.val j i) ∧
      ∀ (C : Finset Nat), (∀ a ∈ C, ∀ b < lab.length, b ∉ C → L a b = 0) →
        ∀ i < lab.length, ∀ j < lab.length, i ∉ C → j ∈ C → L i j < 0 →
          M.val i j = 0 ∧ 0 < expm lab.length A.val i j := by
  obtain ⟨⟨M₀, h1, h2⟩, h3⟩ := C96_csr_violated EMul A hf lab h nComp hl hsmall hsep
  have hst := expm_stoch hsum hoff ht.le
  rw [← hA] at hst
  -- the normalised matrix
  have hM : ∃ M, subspaceExpmParallel expm EMul lab nComp none true A = .ok M ∧
      M = SparseStoch.rowNormalize .compiled 1 M₀ ∧ M₀.WF ∧ M₀.nrows = lab.length ∧ M₀.ncols = lab.length := by
    rw [h3, serial_eq expm lab nComp hl] at h1 ⊢
    refine ⟨_, rfl, ?_, ?_, ?_, ?_⟩
    · cases h1; rfl
    · cases h1; exact rebuilt_wf _ _
    · cases h1; exact rebuilt_nrows _ _
    · cases h1; rfl
  obtain ⟨M, hrun, rfl, hwf, hnr, hnc⟩ := hM
  refine ⟨_, hrun, ?_⟩
  have htot : ∀ i < lab.length, SparseStoch.rowTotal M₀ i = ∑ k ∈ Finset.range lab.length, expm lab.length A.val k i := by
    intro i hi
    unfold SparseStoch.rowTotal
    rw [hnc]
    exact Finset.sum_congr rfl fun j hj => h2 i hi j (Finset.mem_range.1 hj)
  have hcol : ∀ i < lab.length, 0 < ∑ k ∈ Finset.range lab.length, expm lab.length A.val k i := by
    intro i hi
    apply Finset.sum_pos'
    · intro k hk
      exact (hst k (Finset.mem_range.1 hk)).1 i hi
    · refine ⟨i, Finset.mem_range.2 hi, ?_⟩
      rw [hA]
      exact expm_edge hoff ht i i hi hi (Or.inl rfl)
  have hval : ∀ i < lab.length, ∀ j < lab.length,
      (SparseStoch.rowNormalize .compiled 1 M₀).val i j *
        (∑ k ∈ Finset.range lab.length, expm lab.length A.val k i) = expm lab.length A.val j i := by
    intro i hi j hj
    have := ((SparseStoch.normalize_spec .compiled (fun _ => (1 : ℝ)) M₀ hwf).2 i (by omega)).2.1
      (by rw [htot i hi]; exact (hcol i hi).ne') one_ne_zero j
    have e : (SparseStoch.rowNormalize .compiled 1 M₀).val i j = M₀.val i j * (1 / SparseStoch.rowTotal M₀ i) := this
    rw [e, htot i hi, h2 i hi j hj]
    have := (hcol i hi).ne'
    field_simp
  refine ⟨hval, ?_⟩
  intro C hC i hi j hj hiC hjC hLij
  have hzero : expm lab.length A.val j i = 0 := by
    have := (expm_sub (n := lab.length) (A := A.val) (idx := (List.range lab.length).filter fun a => decide (a ∈ C))
      (List.nodup_range.filter _) (fun a ha => List.mem_range.1 (List.mem_filter.1 ha).1) (by
        intro a ha b hb hnb
        rw [hA]
        have haC : a ∈ C := of_decide_eq_true (List.mem_filter.1 ha).2
        have hbC : b ∉ C := fun hbC => hnb (List.mem_filter.2 ⟨List.mem_range.2 hb, decide_eq_true hbC⟩)
        simp only [hC a haC b hb hbC, mul_zero])).2
    apply this j (List.mem_filter.2 ⟨List.mem_range.2 hj, decide_eq_true hjC⟩) i hi
    intro hc
    exact hiC (of_decide_eq_true (List.mem_filter.1 hc).2)
  constructor
  · have := hval i hi j hj
    rw [hzero] at this
    rcases mul_eq_zero.1 this with h | h
    · exact h
    · exact absurd h (hcol i hi).ne'
  · rw [hA]
    exact expm_edge hoff ht i j hi hj (Or.inr hLij)

/-- A walk that goes from node 0 to node 1 and stays there, in CSR format. -/
def exA : Sparse ℝ := ⟨.csr, ⟨2, 2, [0, 2, 2], [0, 1], [-1, 1]⟩⟩

theorem exA_square : exA.Square 2 := by
  refine ⟨⟨rfl, rfl, ?_, rfl, rfl, ?_⟩, rfl, rfl⟩
  · intro i hi
    have : i = 0 ∨ i = 1 := by have : i < 2 := hi; omega
    rcases this with rfl | rfl <;> decide
  · intro c hc
    have : c = 0 ∨ c = 1 := by simpa [exA] using hc
    show c < 2
    omega

theorem exA_val : exA.val 0 0 = -1 ∧ exA.val 0 1 = 1 ∧ exA.val 1 0 = 0 ∧ exA.val 1 1 = 0 := by
  simp [exA, Sparse.val, Csr.val, Csr.row, sumAt]

/-- The example meets the conditions of `C96_walk_violated` (and of `C96_csr_violated`): with several
processes the probability of going from 0 to 1 comes out as zero. -/
example (EMul : Nat → Mat ℝ → (Nat → ℝ) → Nat → ℝ) :
    ∃ M, subspaceExpmParallel expm EMul [0, 0] 1 none true exA = .ok M ∧ M.val 0 1 = 0 ∧ 0 < expm 2 exA.val 0 1 := by
  obtain ⟨h00, h01, h10, h11⟩ := exA_val
  have cases2 : ∀ {i : Nat}, i < ([0, 0] : List Nat).length → i = 0 ∨ i = 1 := by
    intro i hi
    have : i < 2 := hi
    omega
  obtain ⟨M, h1, _, h2⟩ := C96_walk_violated EMul exA rfl [0, 0] exA_square 1 (by simp)
    (fun c => lt_of_le_of_lt List.count_le_length (by decide))
    (by intro i hi j hj _; rcases cases2 hi with rfl | rfl <;> rcases cases2 hj with rfl | rfl <;> rfl)
    (fun i j => -exA.val i j) 1 one_pos (by funext i j; ring)
    (by
      intro i hi
      show ∑ j ∈ Finset.range 2, _ = _
      rw [Finset.sum_range_succ, Finset.sum_range_one]
      rcases cases2 hi with rfl | rfl
      · rw [h00, h01]; norm_num
      · rw [h10, h11]; norm_num)
    (by
      intro i hi j hj hij
      rcases cases2 hi with rfl | rfl <;> rcases cases2 hj with rfl | rfl
      · exact absurd rfl hij
      · show -exA.val 0 1 ≤ 0; rw [h01]; norm_num
      · show -exA.val 1 0 ≤ 0; rw [h10]; norm_num
      · exact absurd rfl hij)
  obtain ⟨h3, h4⟩ := h2 {1} (by
      intro a ha b hb hnb
      rw [Finset.mem_singleton] at ha hnb
      subst ha
      rcases cases2 hb with rfl | rfl
      · show -exA.val 1 0 = 0; rw [h10]; norm_num
      · exact absurd rfl hnb) 0 (by decide) 1 (by decide) (by decide) (by decide)
      (by show -exA.val 0 1 < 0; rw [h01]; norm_num)
  exact ⟨M, h1, h3, h4⟩

/-- The other theorems on the same matrix, read by columns. -/
example {EMul : Nat → Mat ℝ → (Nat → ℝ) → Nat → ℝ} (hE : MulSpec EMul) :
    EqOn 2 (parallelExpm EMul none false exA).val (expm 2 exA.val) ∧
    (∃ M, subspaceExpm expm [0, 0] 1 none false exA = .ok M ∧ EqOn 2 M.val (expm 2 exA.val)) ∧
    subspaceExpmParallel expm EMul [0, 0] 1 (some 100) true ⟨.csc, exA.arr⟩ =
      subspaceExpm expm [0, 0] 1 (some 100) true ⟨.csc, exA.arr⟩ := by
  have cases2 : ∀ {i : Nat}, i < ([0, 0] : List Nat).length → i = 0 ∨ i = 1 := by
    intro i hi
    have : i < 2 := hi
    omega
  refine ⟨C96_columns hE exA 2 exA_square, ?_, ?_⟩
  · obtain ⟨M, h1, _, _, h2⟩ := C96_serial exA [0, 0] exA_square 1 (by simp)
      (by intro i hi j hj _; rcases cases2 hi with rfl | rfl <;> rcases cases2 hj with rfl | rfl <;> rfl)
    exact ⟨M, h1, h2⟩
  · have hsq : (⟨.csc, exA.arr⟩ : Sparse ℝ).Square ([0, 0] : List Nat).length := by
      obtain ⟨hw, h1, h2⟩ := exA_square
      exact ⟨hw, h1, h2⟩
    exact C96_parallel_partial hE ⟨.csc, exA.arr⟩ rfl [0, 0] hsq 1 (by simp) (some 100) true

end Verif.ExpmArrays
