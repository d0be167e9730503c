import Verif.ExpmArrays.Model
import Verif.Memory.Rebuild
import Verif.Csr.Lemmas
import Mathlib.Algebra.BigOperators.Group.Finset.Basic
import Mathlib.Algebra.BigOperators.Ring.Finset
import Mathlib.Data.List.GetD

/-!
# Lemmas on the exponentials by components
-/

set_option linter.dupNamespace false
set_option linter.unusedSectionVars false

namespace Verif.ExpmArrays

open Verif.Csr Verif.Memory Verif.Trans

variable {K : Type} [Field K] [LinearOrder K] [IsStrictOrderedRing K]

/-! ## Values -/

theorem sumAt_perm {r s : List (Nat × K)} (h : r.Perm s) (j : Nat) : sumAt r j = sumAt s j :=
  ((h.filter _).map _).sum_eq

theorem sumAt_nonzero (r : List (Nat × K)) (j : Nat) :
    sumAt (r.filter fun e => decide (e.2 ≠ 0)) j = sumAt r j := by
  induction r with
  | nil => rfl
  | cons e r ih =>
    rw [sumAt_cons]
    by_cases h : e.2 = 0
    · rw [List.filter_cons_of_neg (by simpa using h), ih, h]
      simp
    · rw [List.filter_cons_of_pos (by simpa using h), sumAt_cons, ih]

theorem map_rows (M : Csr K) (f : List (Nat × K) → List (Nat × K)) :
    M.rows.map f = (List.range M.nrows).map fun i => f (M.row i) := by
  simp [Csr.rows]

theorem val_out {M : Csr K} (h : M.WF) (i j : Nat) (hi : M.nrows ≤ i) : M.val i j = 0 := by
  unfold Csr.val
  apply sumAt_eq_zero
  intro e he
  exfalso
  unfold Csr.row at he
  have : M.indptr.getD (i + 1) 0 = 0 := by
    rw [List.getD_eq_default]
    have := h.ptrLen
    omega
  rw [this] at he
  simp at he

theorem rowsMap_val {M : Csr K} (f : List (Nat × K) → List (Nat × K)) (hf : ∀ r j, sumAt (f r) j = sumAt r j)
    (i j : Nat) (hi : i < M.nrows) : (ofRows M.ncols (M.rows.map f)).val i j = M.val i j := by
  unfold Csr.val
  rw [map_rows, row_ofRows_map _ _ _ _ hi, hf]

theorem rowsMap_wf {M : Csr K} (h : M.WF) (f : List (Nat × K) → List (Nat × K)) (hf : ∀ r, ∀ e ∈ f r, e ∈ r) :
    (ofRows M.ncols (M.rows.map f)).WF := by
  apply wf_ofRows
  intro r hr e he
  rw [map_rows] at hr
  obtain ⟨i, _, rfl⟩ := List.mem_map.1 hr
  exact h.row_lt i e (hf _ _ he)

theorem rowsMap_nrows (M : Csr K) (f : List (Nat × K) → List (Nat × K)) :
    (ofRows M.ncols (M.rows.map f)).nrows = M.nrows := by
  simp [ofRows, Build.toCsr, Csr.rows]

/-- A square matrix. -/
structure Sparse.Square (A : Sparse K) (n : Nat) : Prop where
  wf : A.arr.WF
  rows : A.arr.nrows = n
  cols : A.arr.ncols = n

theorem square_clean {A : Sparse K} {n : Nat} (h : A.Square n) : (A.eliminateZeros.sortIndices).Square n := by
  have h1 : A.eliminateZeros.arr.WF := rowsMap_wf h.wf _ fun r e he => (List.mem_filter.1 he).1
  have h2 : A.eliminateZeros.sortIndices.arr.WF := rowsMap_wf h1 _ fun r e he => (List.mergeSort_perm r _).mem_iff.1 he
  refine ⟨h2, ?_, h.cols⟩
  exact (rowsMap_nrows _ _).trans ((rowsMap_nrows _ _).trans h.rows)

theorem val_clean {A : Sparse K} {n : Nat} (h : A.Square n) (i j : Nat) (hi : i < n) (hj : j < n) :
    (A.eliminateZeros.sortIndices).val i j = A.val i j := by
  have key : ∀ i j, i < n → A.eliminateZeros.sortIndices.arr.val i j = A.arr.val i j := by
    intro i j hi
    have e1 : A.eliminateZeros.arr.nrows = n := (rowsMap_nrows _ _).trans h.rows
    refine (rowsMap_val (M := A.eliminateZeros.arr) _ (fun r j => sumAt_perm (List.mergeSort_perm r _) j) i j
      (by omega)).trans ?_
    exact rowsMap_val (M := A.arr) _ sumAt_nonzero i j (by rw [h.rows]; exact hi)
  unfold Sparse.val
  have : A.eliminateZeros.sortIndices.fmt = A.fmt := rfl
  rw [this]
  cases A.fmt with
  | csr => exact key i j hi
  | csc => exact key j i hj

/-- The values in the other order of the indices. -/
theorem val_flip (f : Fmt) (M : Csr K) (i j : Nat) (f' : Fmt) (h : f ≠ f') :
    (⟨f, M⟩ : Sparse K).val i j = (⟨f', M⟩ : Sparse K).val j i := by
  cases f <;> cases f' <;> first | exact absurd rfl h | rfl

theorem square_toCsc {A : Sparse K} {n : Nat} (h : A.Square n) : A.toCsc.Square n ∧ A.toCsc.fmt = .csc ∧
    ∀ i j, i < n → j < n → A.toCsc.val i j = A.val i j := by
  obtain ⟨f, M⟩ := A
  cases f with
  | csc => exact ⟨h, rfl, fun _ _ _ _ => rfl⟩
  | csr =>
    refine ⟨⟨wf_transpose M, ?_, ?_⟩, rfl, ?_⟩
    · exact (nrows_transpose M).trans h.cols
    · exact h.rows
    · intro i j hi hj
      exact val_transpose M i j (by have := h.rows; simp only at this; omega) (by have := h.cols; simp only at this; omega)

/-! ## Labels -/

/-- The labels as a function. -/
def labOf (lab : List Nat) (i : Nat) : Nat := lab.getD i 0

theorem cmpIndices_getD (lab : List Nat) (nComp c : Nat) (hc : c < nComp) :
    (cmpIndices lab nComp).getD c [] = compIndices lab.length (labOf lab) c := by
  unfold cmpIndices compIndices labOf
  rw [List.getD_eq_getElem _ _ (by simpa using hc)]
  simp

theorem count_filter_range (lab : List Nat) (c : Nat) :
    ((List.range lab.length).filter fun i => decide (lab.getD i 0 = c)).length = lab.count c := by
  induction lab using List.reverseRecOn with
  | nil => rfl
  | append_singleton lab x ih =>
    rw [List.length_append, List.length_singleton, List.range_succ, List.filter_append, List.length_append,
      List.count_append, ← ih]
    congr 1
    · congr 1
      apply List.filter_congr
      intro i hi
      rw [List.mem_range] at hi
      rw [List.getD_append _ _ _ _ hi]
    · by_cases h : x = c <;> simp [h]

theorem le_foldl_max (lab : List Nat) : ∀ (a c : Nat), (c ∈ lab ∨ c ≤ a) → c ≤ lab.foldl max a := by
  induction lab with
  | nil => intro a c h; simpa using h
  | cons x lab ih =>
    intro a c h
    rw [List.foldl_cons]
    apply ih
    rcases h with h | h
    · rcases List.mem_cons.1 h with rfl | h
      · right; exact le_max_right _ _
      · left; exact h
    · right; exact le_trans h (le_max_left _ _)

theorem rd_bincount (lab : List Nat) (c : Nat) (hc : c ∈ lab) : rd (bincount lab) (c : Int) = .ok (lab.count c) := by
  have hne : lab ≠ [] := List.ne_nil_of_mem hc
  have hlt : c < lab.foldl max 0 + 1 := Nat.lt_succ_of_le (le_foldl_max lab 0 c (Or.inl hc))
  unfold bincount
  rw [if_neg hne, rd_nat _ _ (by simpa using hlt)]
  simp

/-- The rows together have as many entries as the components have pairs of nodes. -/
theorem total_eq (lab : List Nat) : ((bincount lab).map (· ^ 2)).sum = (lab.map fun c => lab.count c).sum := by
  unfold bincount
  split
  · rename_i h; simp [h]
  · rename_i hne
    rw [List.map_map]
    have hb : ∀ c ∈ lab, c ∈ Finset.range (lab.foldl max 0 + 1) := fun c hc =>
      Finset.mem_range.2 (Nat.lt_succ_of_le (le_foldl_max lab 0 c (Or.inl hc)))
    have h1 : ∀ (m : Nat) (f : Nat → Nat), ((List.range m).map f).sum = ∑ c ∈ Finset.range m, f c := by
      intro m f
      induction m with
      | zero => rfl
      | succ m ih => rw [List.range_succ, List.map_append, List.sum_append, ih, Finset.sum_range_succ]; simp
    rw [h1, Finset.sum_list_map_count]
    symm
    have h2 : lab.toFinset ⊆ Finset.range (lab.foldl max 0 + 1) := fun c hc => hb c (List.mem_toFinset.1 hc)
    rw [← Finset.sum_subset h2]
    · apply Finset.sum_congr rfl
      intro c _
      simp [pow_two]
    · intro c _ hc
      have : lab.count c = 0 := List.count_eq_zero.2 fun h => hc (List.mem_toFinset.2 h)
      simp [this]

/-! ## The reconstruction -/

/-- Row `r` of the reconstructed matrix. -/
def rowOf (lab : List Nat) (S : Nat → Mat K) (r : Nat) : List (Nat × K) :=
  let ci := compIndices lab.length (labOf lab) (labOf lab r)
  (List.range ci.length).map fun b => (ci.getD b 0, S (labOf lab r) (ci.idxOf r) b)

/-- The reconstructed matrix. -/
def rebuilt (lab : List Nat) (S : Nat → Mat K) : Csr K :=
  ofRows lab.length ((List.range lab.length).map (rowOf lab S))

theorem rowOf_snd (lab : List Nat) (S : Nat → Mat K) (r : Nat) :
    (rowOf lab S r).map Prod.snd =
      (List.range (compIndices lab.length (labOf lab) (labOf lab r)).length).map fun b =>
        S (labOf lab r) ((compIndices lab.length (labOf lab) (labOf lab r)).idxOf r) b := by
  simp [rowOf]

theorem map_getD_range (l : List Nat) : (List.range l.length).map (fun b => l.getD b 0) = l := by
  apply List.ext_getElem
  · simp
  · intro i h1 h2
    simp [h2]

theorem rowOf_fst (lab : List Nat) (S : Nat → Mat K) (r : Nat) :
    (rowOf lab S r).map Prod.fst = compIndices lab.length (labOf lab) (labOf lab r) := by
  unfold rowOf
  simp only [List.map_map, Function.comp_def]
  exact map_getD_range _

theorem compIndices_length (lab : List Nat) (c : Nat) :
    (compIndices lab.length (labOf lab) c).length = lab.count c := count_filter_range lab c

theorem rowOf_length (lab : List Nat) (S : Nat → Mat K) (r : Nat) :
    (rowOf lab S r).length = lab.count (lab.getD r 0) := by
  have := congrArg List.length (rowOf_fst lab S r)
  rw [List.length_map, compIndices_length] at this
  exact this

theorem rows_take_length (lab : List Nat) (S : Nat → Mat K) (r : Nat) (hr : r ≤ lab.length) :
    (((List.range r).map (rowOf lab S)).flatten).length = ((lab.take r).map fun c => lab.count c).sum := by
  induction r with
  | zero => simp
  | succ r ih =>
    have hr' : r < lab.length := hr
    rw [List.range_succ, List.map_append, List.flatten_append, List.length_append, ih (by omega),
      List.take_succ_eq_append_getElem hr', List.map_append, List.sum_append]
    simp [rowOf_length lab S r, hr']

theorem rows_fit (lab : List Nat) (S : Nat → Mat K) (r : Nat) (hr : r ≤ lab.length) :
    (((List.range r).map (rowOf lab S)).flatten).length ≤ ((bincount lab).map (· ^ 2)).sum := by
  rw [rows_take_length lab S r hr, total_eq]
  conv_rhs => rw [← List.take_append_drop r lab]
  rw [List.map_append, List.sum_append, List.take_append_drop]
  exact Nat.le_add_right _ _

/-- The arrays after `r` rows. -/
def outAt (lab : List Nat) (S : Nat → Mat K) (r : Nat) : Out K :=
  let total := ((bincount lab).map (· ^ 2)).sum
  let E := ((List.range r).map (rowOf lab S)).flatten
  ⟨⟨padTo (lab.length + 1) 0 ((List.range r).map fun i =>
      (((((List.range i).map (rowOf lab S)).flatten).length : Nat) : Int)),
    padTo total 0 (E.map fun e => (e.1 : Int)), padTo total 0 (E.map Prod.snd)⟩, (E.length : Nat)⟩

theorem rebuildRow_ok (lab : List Nat) (nComp : Nat) (hlab : ∀ c ∈ lab, c < nComp) (S : Nat → Mat K) (r : Nat)
    (hr : r < lab.length) :
    rebuildRow lab (bincount lab) (cmpIndices lab nComp) S (outAt lab S r) (r : Int) = .ok (outAt lab S (r + 1)) := by
  have hmem : lab.getD r 0 ∈ lab := by
    rw [List.getD_eq_getElem _ _ hr]; exact List.getElem_mem hr
  have hc := hlab _ hmem
  have e1 : rd lab (r : Int) = .ok (labOf lab r) := by
    rw [rd_nat _ _ hr]; simp [labOf, hr]
  have e2 : rd (cmpIndices lab nComp) ((labOf lab r : Nat) : Int) =
      .ok (compIndices lab.length (labOf lab) (labOf lab r)) := by
    have hlt : labOf lab r < (cmpIndices lab nComp).length := by simpa [cmpIndices, labOf] using hc
    rw [rd_nat _ _ hlt, ← cmpIndices_getD lab nComp (labOf lab r) hc, List.getD_eq_getElem _ _ hlt]
  have e3 := rd_bincount lab _ hmem
  have hfit := rows_fit lab S (r + 1) hr
  have hE : ((List.range (r + 1)).map (rowOf lab S)).flatten =
      ((List.range r).map (rowOf lab S)).flatten ++ rowOf lab S r := by
    rw [List.range_succ, List.map_append, List.flatten_append]; simp
  rw [hE, List.length_append] at hfit
  have hlen := rowOf_length lab S r
  unfold rebuildRow
  rw [e1, ok_bind, e2, ok_bind]
  show (rd (bincount lab) ((lab.getD r 0 : Nat) : Int) >>= _) = _
  rw [e3, ok_bind]
  have w1 : ∀ (g : Nat × K → K), writeSlice (padTo ((bincount lab).map (· ^ 2)).sum 0
      ((((List.range r).map (rowOf lab S)).flatten).map g)) ((((List.range r).map (rowOf lab S)).flatten.length : Nat) : Int)
      ((lab.count (lab.getD r 0) : Nat) : Int) ((rowOf lab S r).map g) =
      .ok (padTo ((bincount lab).map (· ^ 2)).sum 0 (((((List.range r).map (rowOf lab S)).flatten ++ rowOf lab S r)).map g)) := by
    intro g
    have := writeSlice_pad ((bincount lab).map (· ^ 2)).sum (0 : K) ((((List.range r).map (rowOf lab S)).flatten).map g)
      ((rowOf lab S r).map g) (lab.count (lab.getD r 0)) (by simpa using hlen)
      (by rw [List.length_map, List.length_map]; exact hfit)
    rw [List.length_map] at this
    rw [this, List.map_append]
  have w2 : ∀ (g : Nat × K → Int), writeSlice (padTo ((bincount lab).map (· ^ 2)).sum 0
      ((((List.range r).map (rowOf lab S)).flatten).map g)) ((((List.range r).map (rowOf lab S)).flatten.length : Nat) : Int)
      ((lab.count (lab.getD r 0) : Nat) : Int) ((rowOf lab S r).map g) =
      .ok (padTo ((bincount lab).map (· ^ 2)).sum 0 (((((List.range r).map (rowOf lab S)).flatten ++ rowOf lab S r)).map g)) := by
    intro g
    have := writeSlice_pad ((bincount lab).map (· ^ 2)).sum (0 : Int) ((((List.range r).map (rowOf lab S)).flatten).map g)
      ((rowOf lab S r).map g) (lab.count (lab.getD r 0)) (by simpa using hlen)
      (by rw [List.length_map, List.length_map]; exact hfit)
    rw [List.length_map] at this
    rw [this, List.map_append]
  have d1 : (List.range (compIndices lab.length (labOf lab) (labOf lab r)).length).map (fun b =>
      S (labOf lab r) ((compIndices lab.length (labOf lab) (labOf lab r)).idxOf (r : Int).toNat) b) =
      (rowOf lab S r).map Prod.snd := by
    rw [rowOf_snd, Int.toNat_natCast]
  have d2 : (compIndices lab.length (labOf lab) (labOf lab r)).map (fun i : Nat => (i : Int)) =
      (rowOf lab S r).map fun e => (e.1 : Int) := by
    rw [← rowOf_fst lab S r, List.map_map]; rfl
  rw [d1, d2]
  simp only [outAt]
  rw [w1, ok_bind, w2, ok_bind]
  have w3 := wr_pad (lab.length + 1) (0 : Int) (((((List.range r).map (rowOf lab S)).flatten).length : Nat) : Int)
    ((List.range r).map fun i => (((((List.range i).map (rowOf lab S)).flatten).length : Nat) : Int))
    (by simp; omega)
  rw [List.length_map, List.length_range] at w3
  rw [w3, ok_bind, pure_ok, hE]
  congr 3
  · rw [List.range_succ (n := r), List.map_append]; rfl
  · rw [List.length_append, hlen]; push_cast; rfl

/-- The reconstruction never fails and fills its arrays exactly. -/
theorem rebuildRun_ok (lab : List Nat) (nComp : Nat) (hlab : ∀ c ∈ lab, c < nComp) (S : Nat → Mat K) :
    rebuildRun lab nComp S = .ok (arraysOf (rebuilt lab S)) := by
  have hloop : ∃ o, loop ((0 : Nat) : Int) ((lab.length : Nat) : Int) (outAt lab S 0)
      (rebuildRow lab (bincount lab) (cmpIndices lab nComp) S) = .ok o ∧ o = outAt lab S lab.length := by
    refine loop_inv 0 lab.length (Nat.zero_le _) _ (fun r o => o = outAt lab S r) ?_ _ rfl
    rintro k _ hk s rfl
    exact ⟨_, rebuildRow_ok lab nComp hlab S k hk, rfl⟩
  obtain ⟨o, h1, rfl⟩ := hloop
  have h0 : (⟨⟨List.replicate (lab.length + 1) 0, List.replicate ((bincount lab).map (· ^ 2)).sum 0,
      List.replicate ((bincount lab).map (· ^ 2)).sum 0⟩, 0⟩ : Out K) = outAt lab S 0 := by
    simp [outAt, padTo]
  unfold rebuildRun
  simp only [h0]
  rw [show (0 : Int) = ((0 : Nat) : Int) from rfl, h1, ok_bind]
  have hfull : (((List.range lab.length).map (rowOf lab S)).flatten).length = ((bincount lab).map (· ^ 2)).sum := by
    rw [rows_take_length lab S _ le_rfl, total_eq, List.take_length]
  have w3 := wr_pad (lab.length + 1) (0 : Int) (((((List.range lab.length).map (rowOf lab S)).flatten).length : Nat) : Int)
    ((List.range lab.length).map fun i => (((((List.range i).map (rowOf lab S)).flatten).length : Nat) : Int))
    (by simp)
  rw [List.length_map, List.length_range] at w3
  simp only [outAt]
  rw [w3, ok_bind, pure_ok]
  congr 1
  unfold arraysOf rebuilt ofRows Build.toCsr
  simp only [ofRows_entries, ofRows_indptr]
  congr 1
  · unfold padTo
    have hz : lab.length + 1 - ((List.range lab.length).map (fun i =>
        (((((List.range i).map (rowOf lab S)).flatten).length : Nat) : Int)) ++
        [(((((List.range lab.length).map (rowOf lab S)).flatten).length : Nat) : Int)]).length = 0 := by simp
    rw [hz, List.replicate_zero, List.append_nil]
    simp only [List.length_map, List.length_range, List.map_map, Function.comp_def]
    rw [List.range_succ (n := lab.length), List.map_append]
    congr 1
    · apply List.map_congr_left
      intro i hi
      rw [List.mem_range] at hi
      rw [← List.map_take, List.take_range, min_eq_left (by omega)]
    · simp only [List.map_cons, List.map_nil]
      rw [List.take_of_length_le (by simp)]
  · unfold padTo
    rw [List.length_map, hfull, Nat.sub_self, List.replicate_zero, List.append_nil, List.map_map]
    rfl
  · unfold padTo
    rw [List.length_map, hfull, Nat.sub_self, List.replicate_zero, List.append_nil]

theorem toCsr_arraysOf (M : Csr K) (n : Nat) (h1 : M.nrows = n) (h2 : M.ncols = n) : toCsr n (arraysOf M) = M := by
  cases M
  simp only at h1 h2
  subst h1 h2
  simp [toCsr, arraysOf, Function.comp_def]

theorem rebuilt_nrows (lab : List Nat) (S : Nat → Mat K) : (rebuilt lab S).nrows = lab.length := by
  simp [rebuilt, ofRows, Build.toCsr]

theorem rebuilt_wf (lab : List Nat) (S : Nat → Mat K) : (rebuilt lab S).WF := by
  apply wf_ofRows
  intro r hr e he
  obtain ⟨i, _, rfl⟩ := List.mem_map.1 hr
  have : e.1 ∈ (rowOf lab S i).map Prod.fst := List.mem_map_of_mem he
  rw [rowOf_fst] at this
  exact (List.mem_range.1 (List.mem_filter.1 this).1)

theorem rebuilt_val (lab : List Nat) (S : Nat → Mat K) (i j : Nat) (hi : i < lab.length) (hj : j < lab.length) :
    (rebuilt lab S).val i j = rebuild lab.length (labOf lab) S i j := by
  have hrow : (rebuilt lab S).row i = rowOf lab S i := row_ofRows_map _ _ _ _ hi
  unfold Csr.val
  rw [hrow]
  unfold rebuild
  have hnd : ((rowOf lab S i).map Prod.fst).Nodup := by
    rw [rowOf_fst]; exact List.nodup_range.filter _
  split
  · rename_i h
    have hmem : j ∈ compIndices lab.length (labOf lab) (labOf lab i) := by
      simp [compIndices, hj, h]
    have hlt := List.idxOf_lt_length_of_mem hmem
    have hin : (j, S (labOf lab i) ((compIndices lab.length (labOf lab) (labOf lab i)).idxOf i)
        ((compIndices lab.length (labOf lab) (labOf lab i)).idxOf j)) ∈ rowOf lab S i := by
      unfold rowOf
      apply List.mem_map.2
      refine ⟨_, List.mem_range.2 hlt, ?_⟩
      rw [List.getD_eq_getElem _ _ hlt, List.getElem_idxOf]
    exact sumAt_of_mem _ hnd _ hin
  · rename_i h
    apply sumAt_eq_zero
    intro e he hej
    have : e.1 ∈ (rowOf lab S i).map Prod.fst := List.mem_map_of_mem he
    rw [rowOf_fst, hej] at this
    have := (List.mem_filter.1 this).2
    exact h (of_decide_eq_true this).symm

/-! ## Columns -/

theorem rowOfVec_lt (N : Nat) (v : Nat → K) : ∀ e ∈ rowOfVec N v, e.1 < N := by
  intro e he
  unfold rowOfVec at he
  obtain ⟨i, hi, h⟩ := List.mem_filterMap.1 he
  split at h
  · cases h
  · cases h; exact List.mem_range.1 hi

theorem sumAt_rowOfVec (N : Nat) (v : Nat → K) (j : Nat) (hj : j < N) : sumAt (rowOfVec N v) j = v j := by
  have := sumAt_filterMap_range N (fun i => decide (v i ≠ 0)) v j
  have e : rowOfVec N v = (List.range N).filterMap fun i => if decide (v i ≠ 0) then some (i, v i) else none := by
    unfold rowOfVec
    congr 1
    funext i
    by_cases h : v i = 0 <;> simp [h]
  rw [e, this]
  by_cases h : v j = 0 <;> simp [h, hj]

theorem stackT_val (N : Nat) (f : Nat → Nat → K) (i j : Nat) (hi : i < N) (hj : j < N) :
    (stackT N ((List.range N).map fun c => rowOfVec N (f c))).val i j = f j i := by
  unfold stackT
  have hr : (ofRows N ((List.range N).map fun c => rowOfVec N (f c))).nrows = N := by simp [ofRows, Build.toCsr]
  rw [val_transpose _ j i (by rw [hr]; exact hj) hi]
  unfold Csr.val
  rw [row_ofRows_map _ _ _ _ hj, sumAt_rowOfVec _ _ _ hi]

/-- The arrays after the first `r` columns. -/
theorem stackCols_ok (N : Nat) (cols : List (List (Nat × K))) (hN : cols.length = N) :
    stackColsRun N cols = .ok (arraysOf (ofRows N cols)) := by
  subst hN
  have hloop : ∃ o, loop ((0 : Nat) : Int) ((cols.length : Nat) : Int)
      (outOf 0 0 cols.flatten.length (cols.length + 1) (Build.ofRows ([] : List (List (Nat × K)))))
      (fun o col => do
        let c ← rd cols col
        let data ← writeSlice o.arr.data o.pos c.length (c.map Prod.snd)
        let indices ← writeSlice o.arr.indices o.pos c.length (c.map fun e => (e.1 : Int))
        let indptr ← wr o.arr.indptr (col + 1) (o.pos + c.length)
        pure ⟨⟨indptr, indices, data⟩, o.pos + c.length⟩) = .ok o ∧
      o = outOf 0 0 cols.flatten.length (cols.length + 1) (Build.ofRows (cols.take cols.length)) := by
    refine loop_inv 0 cols.length (Nat.zero_le _) _
      (fun r o => o = outOf 0 0 cols.flatten.length (cols.length + 1) (Build.ofRows (cols.take r))) ?_ _ ?_
    · rintro k _ hk s rfl
      refine ⟨_, ?_, rfl⟩
      rw [rd_nat _ _ hk, ok_bind]
      have hsplit : cols.take (k + 1) = cols.take k ++ [cols[k]] := List.take_succ_eq_append_getElem hk
      have hfit : (cols.take k).flatten.length + cols[k].length ≤ cols.flatten.length := by
        conv_rhs => rw [← List.take_append_drop (k + 1) cols, hsplit]
        rw [List.flatten_append, List.flatten_append, List.length_append, List.length_append, List.flatten_singleton]
        exact Nat.le_add_right _ _
      simp only [outOf, ofRows_entries]
      have w1 := writeSlice_pad cols.flatten.length (0 : K) ((cols.take k).flatten.map Prod.snd)
        (cols[k].map Prod.snd) cols[k].length (by simp) (by rw [List.length_map, List.length_map]; exact hfit)
      have w2 := writeSlice_pad cols.flatten.length (0 : Int) ((cols.take k).flatten.map fun e => (e.1 : Int))
        (cols[k].map fun e => (e.1 : Int)) cols[k].length (by simp)
        (by rw [List.length_map, List.length_map]; exact hfit)
      rw [List.length_map] at w1 w2
      have hl : (Build.ofRows (cols.take k)).indptr.length = k + 1 := by
        rw [ofRows_indptr]; simp; omega
      have w3 := wr_pad (cols.length + 1) (0 : Int) ((((cols.take k).flatten.length : Nat) : Int) + cols[k].length)
        ((Build.ofRows (cols.take k)).indptr.map (fun x : Nat => (x : Int))) (by rw [List.length_map, hl]; omega)
      rw [List.length_map, hl] at w3
      rw [w1, ok_bind, w2, ok_bind, show ((k : Int) + 1) = ((k + 1 : Nat) : Int) by push_cast; rfl, w3, ok_bind, pure_ok,
        hsplit, ofRows_snoc]
      simp only [Build.push, ofRows_entries]
      congr 3
      · rw [List.map_append, List.length_append]; push_cast; rfl
      · rw [List.flatten_append, List.flatten_singleton, List.map_append]
      · rw [List.flatten_append, List.flatten_singleton, List.map_append]
      · rw [List.flatten_append, List.flatten_singleton, List.length_append]; push_cast; rfl
    · simp
  obtain ⟨o, h1, rfl⟩ := hloop
  have h0 : (⟨⟨List.replicate (cols.length + 1) 0, List.replicate (cols.map List.length).sum 0,
      List.replicate (cols.map List.length).sum 0⟩, 0⟩ : Out K) =
      outOf 0 0 cols.flatten.length (cols.length + 1) (Build.ofRows ([] : List (List (Nat × K)))) := by
    simp [outOf, Build.ofRows, Build.empty, padTo, List.replicate_succ]
  unfold stackColsRun
  simp only [h0]
  rw [show (0 : Int) = ((0 : Nat) : Int) from rfl] at *
  rw [h1, ok_bind, pure_ok]
  congr 1
  unfold arraysOf ofRows Build.toCsr outOf
  simp only [ofRows_entries, ofRows_indptr, List.take_length]
  congr 1
  · simp [padTo]
  · simp only [padTo, List.length_map, Nat.sub_self, List.replicate_zero, List.append_nil, List.map_map]
    rfl
  · simp only [padTo, List.length_map, Nat.sub_self, List.replicate_zero, List.append_nil]

/-! ## Blocks -/

theorem block_square (A : Sparse K) (idx : List Nat) :
    (A.block idx).Square idx.length := by
  refine ⟨?_, by simp [Sparse.block, ofRows, Build.toCsr], rfl⟩
  apply wf_ofRows
  intro r hr e he
  obtain ⟨a, _, rfl⟩ := List.mem_map.1 hr
  obtain ⟨e', _, h'⟩ := List.mem_filterMap.1 he
  split at h'
  · rename_i hm
    cases h'
    exact List.idxOf_lt_length_of_mem hm
  · cases h'

theorem sumAt_block (r : List (Nat × K)) (idx : List Nat) (hn : idx.Nodup) (b : Nat) (hb : b < idx.length) :
    sumAt (r.filterMap fun e => if e.1 ∈ idx then some (idx.idxOf e.1, e.2) else none) b =
      sumAt r (idx.getD b 0) := by
  induction r with
  | nil => rfl
  | cons e r ih =>
    rw [sumAt_cons]
    have hg : idx.getD b 0 = idx[b] := List.getD_eq_getElem _ _ hb
    by_cases hm : e.1 ∈ idx
    · rw [List.filterMap_cons_some (by rw [if_pos hm]), sumAt_cons, ih]
      congr 1
      have : idx.idxOf e.1 = b ↔ e.1 = idx.getD b 0 := by
        rw [hg]
        constructor
        · intro h
          subst h
          rw [List.getElem_idxOf]
        · intro h
          rw [h]
          exact List.Nodup.idxOf_getElem hn b hb
      simp only [this]
    · rw [List.filterMap_cons_none (by rw [if_neg hm]), ih]
      have : e.1 ≠ idx.getD b 0 := by
        intro h
        exact hm (h ▸ hg ▸ List.getElem_mem hb)
      rw [if_neg this, zero_add]

theorem block_val (A : Sparse K) (idx : List Nat) (hn : idx.Nodup) (a b : Nat)
    (ha : a < idx.length) (hb : b < idx.length) : (A.block idx).val a b = sub idx A.val a b := by
  have key : ∀ a b, a < idx.length → b < idx.length → (A.block idx).arr.val a b =
      A.arr.val (idx.getD a 0) (idx.getD b 0) := by
    intro a b ha hb
    unfold Csr.val
    have : (A.block idx).arr.row a = (A.arr.row (idx.getD a 0)).filterMap fun e =>
        if e.1 ∈ idx then some (idx.idxOf e.1, e.2) else none := by
      unfold Sparse.block
      simp only
      rw [row_ofRows _ _ _ (by simpa using ha)]
      simp [ha]
    rw [this, sumAt_block _ _ hn _ hb]
  unfold sub Sparse.val
  have : (A.block idx).fmt = A.fmt := rfl
  rw [this]
  cases A.fmt with
  | csr => exact key a b ha hb
  | csc => exact key b a hb ha

end Verif.ExpmArrays
