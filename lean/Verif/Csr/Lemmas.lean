import Verif.Csr.Spec
import Mathlib.Algebra.BigOperators.Group.Finset.Basic
import Mathlib.Algebra.BigOperators.Ring.Finset
import Mathlib.Data.List.Nodup
import Mathlib.Tactic.Ring
import Mathlib.Tactic.FieldSimp

/-!
# Lemmas about compressed sparse rows
-/

namespace Verif.Csr

set_option linter.dupNamespace false
set_option linter.unusedSectionVars false

variable {K : Type} [Field K] [LinearOrder K] [IsStrictOrderedRing K]

/-! ## Values of a row -/

@[simp] theorem sumAt_nil (j : Nat) : sumAt ([] : List (Nat × K)) j = 0 := rfl

theorem sumAt_cons (e : Nat × K) (r : List (Nat × K)) (j : Nat) :
    sumAt (e :: r) j = (if e.1 = j then e.2 else 0) + sumAt r j := by
  unfold sumAt
  by_cases h : e.1 = j
  · simp [h]
  · simp [h]

theorem sumAt_append (r s : List (Nat × K)) (j : Nat) :
    sumAt (r ++ s) j = sumAt r j + sumAt s j := by
  simp [sumAt]

theorem sumAt_flatMap {α : Type} (l : List α) (f : α → List (Nat × K)) (j : Nat) :
    sumAt (l.flatMap f) j = (l.map fun a => sumAt (f a) j).sum := by
  induction l with
  | nil => rfl
  | cons a l ih => simp [sumAt_append, ih]

theorem sumAt_eq_zero (r : List (Nat × K)) (j : Nat) (h : ∀ e ∈ r, e.1 ≠ j) :
    sumAt r j = 0 := by
  induction r with
  | nil => rfl
  | cons e r ih =>
    rw [sumAt_cons, if_neg (h e (by simp)), ih (fun e' he' => h e' (by simp [he']))]
    simp

/-- Renaming columns by an injective map keeps the values. -/
theorem sumAt_map_inj (r : List (Nat × K)) (f : Nat → Nat) (j : Nat)
    (hf : ∀ e ∈ r, f e.1 = f j → e.1 = j) :
    sumAt (r.map fun e => (f e.1, e.2)) (f j) = sumAt r j := by
  induction r with
  | nil => rfl
  | cons e r ih =>
    rw [List.map_cons, sumAt_cons, sumAt_cons, ih (fun e' he' => hf e' (by simp [he']))]
    congr 1
    by_cases h : e.1 = j
    · simp [h]
    · have : f e.1 ≠ f j := fun h' => h (hf e (by simp) h')
      simp [h, this]

theorem sumAt_map_scale (r : List (Nat × K)) (g : K → K) (hg0 : g 0 = 0)
    (hg : ∀ x y, g (x + y) = g x + g y) (j : Nat) :
    sumAt (r.map fun e => (e.1, g e.2)) j = g (sumAt r j) := by
  induction r with
  | nil => simp [hg0]
  | cons e r ih =>
    rw [List.map_cons, sumAt_cons, sumAt_cons, ih, hg]
    congr 1
    by_cases h : e.1 = j <;> simp [h, hg0]

/-- A row without repeated columns: the value at a stored column is the stored value. -/
theorem sumAt_of_mem (r : List (Nat × K)) (hr : (r.map Prod.fst).Nodup) (e : Nat × K)
    (he : e ∈ r) : sumAt r e.1 = e.2 := by
  induction r with
  | nil => simp at he
  | cons f r ih =>
    rw [List.map_cons, List.nodup_cons] at hr
    rw [sumAt_cons]
    rcases List.mem_cons.1 he with rfl | he
    · rw [if_pos rfl, sumAt_eq_zero r]
      · simp
      · intro e' he' h
        exact hr.1 (h ▸ List.mem_map_of_mem he')
    · have hne : f.1 ≠ e.1 := fun h => hr.1 (h ▸ List.mem_map_of_mem he)
      rw [if_neg hne, ih hr.2 he]
      simp

/-- A row with all columns below `n` sums to the sum of its values. -/
theorem sum_sumAt (r : List (Nat × K)) (n : Nat) (h : ∀ e ∈ r, e.1 < n) :
    ∑ j ∈ Finset.range n, sumAt r j = (r.map Prod.snd).sum := by
  induction r with
  | nil => simp
  | cons e r ih =>
    simp only [sumAt_cons, Finset.sum_add_distrib, List.map_cons, List.sum_cons]
    rw [ih (fun e' he' => h e' (by simp [he']))]
    congr 1
    rw [Finset.sum_ite_eq]
    simp [h e (by simp)]

theorem sumAt_filterMap_range (n : Nat) (p : Nat → Bool) (v : Nat → K) (j : Nat) :
    sumAt ((List.range n).filterMap fun i => if p i then some (i, v i) else none) j =
      if j < n ∧ p j = true then v j else 0 := by
  induction n with
  | zero => simp
  | succ n ih =>
    rw [List.range_succ, List.filterMap_append, sumAt_append, ih]
    by_cases hp : p n = true
    · simp only [List.filterMap_cons, hp, if_true, List.filterMap_nil, sumAt_cons, sumAt_nil,
        add_zero]
      by_cases hj : n = j
      · subst hj; simp [hp]
      · by_cases hjn : j < n
        · simp [hj, hjn, Nat.lt_succ_of_lt hjn]
        · have : ¬ j < n + 1 := by omega
          simp [hj, hjn, this]
    · simp only [List.filterMap_cons, hp, if_false, List.filterMap_nil, sumAt_nil, add_zero,
        Bool.false_eq_true]
      by_cases hj : j = n
      · subst hj; simp [hp]
      · by_cases hjn : j < n
        · simp [hjn, Nat.lt_succ_of_lt hjn]
        · have : ¬ j < n + 1 := by omega
          simp [hjn, this]

theorem sumAt_canonRow (n : Nat) (b : Bool) (r : List (Nat × K)) (j : Nat) (hj : j < n) :
    sumAt (canonRow n b r) j = sumAt r j := by
  unfold canonRow
  rw [sumAt_filterMap_range]
  split
  · rfl
  · rename_i h
    simp only [hj, true_and, Bool.and_eq_true, Bool.not_eq_true'] at h
    by_cases hany : r.any (fun e => e.1 == j) = true
    · have h2 : ¬ (b && decide (sumAt r j = 0)) = false := fun h' => h ⟨hany, h'⟩
      simp only [Bool.not_eq_false, Bool.and_eq_true, decide_eq_true_eq] at h2
      exact h2.2.symm
    · symm
      apply sumAt_eq_zero
      intro e he h'
      exact hany (List.any_eq_true.2 ⟨e, he, by simp [h']⟩)

theorem mem_canonRow_lt (n : Nat) (b : Bool) (r : List (Nat × K)) :
    ∀ e ∈ canonRow n b r, e.1 < n := by
  intro e he
  unfold canonRow at he
  rw [List.mem_filterMap] at he
  obtain ⟨j, hj, h⟩ := he
  split at h
  · cases h; exact List.mem_range.1 hj
  · cases h

/-! ## Building row by row -/

section

omit [Field K] [LinearOrder K] [IsStrictOrderedRing K]

theorem ofRows_snoc (rows : List (List (Nat × K))) (r : List (Nat × K)) :
    Build.ofRows (rows ++ [r]) = (Build.ofRows rows).push r := by
  simp [Build.ofRows]

theorem ofRows_entries (rows : List (List (Nat × K))) :
    (Build.ofRows rows).entries = rows.flatten := by
  induction rows using List.reverseRecOn with
  | nil => rfl
  | append_singleton l r ih => rw [ofRows_snoc]; simp [Build.push, ih]

theorem ofRows_indptr (rows : List (List (Nat × K))) :
    (Build.ofRows rows).indptr =
      (List.range (rows.length + 1)).map fun i => ((rows.take i).flatten).length := by
  induction rows using List.reverseRecOn with
  | nil => rfl
  | append_singleton l r ih =>
    rw [ofRows_snoc]
    simp only [Build.push, ih, ofRows_entries]
    have hlen : (l ++ [r]).length = l.length + 1 := by simp
    rw [hlen, List.range_succ (n := l.length + 1), List.map_append]
    congr 1
    · apply List.map_congr_left
      intro i hi
      rw [List.mem_range] at hi
      rw [List.take_append_of_le_length (by omega)]
    · simp only [List.map_cons, List.map_nil]
      rw [← hlen, List.take_length]
      simp

theorem ofRows_indptr_getD (rows : List (List (Nat × K))) (i : Nat) (hi : i ≤ rows.length) :
    (Build.ofRows rows).indptr.getD i 0 = ((rows.take i).flatten).length := by
  rw [ofRows_indptr, List.getD_eq_getElem?_getD, List.getElem?_map, List.getElem?_range (by omega)]
  rfl

theorem slice_flatten {α : Type} (rows : List (List α)) (i : Nat) (hi : i < rows.length) :
    (rows.flatten.drop ((rows.take i).flatten).length).take
      (((rows.take (i + 1)).flatten).length - ((rows.take i).flatten).length) = rows[i] := by
  have h1 : rows.flatten = (rows.take i).flatten ++ (rows[i] ++ (rows.drop (i + 1)).flatten) := by
    conv_lhs => rw [← List.take_append_drop i rows, List.drop_eq_getElem_cons hi]
    simp only [List.flatten_append, List.flatten_cons]
  have h2 : (rows.take (i + 1)).flatten = (rows.take i).flatten ++ rows[i] := by
    rw [List.take_succ_eq_append_getElem hi, List.flatten_append]; simp
  rw [h2, h1, List.drop_left, List.length_append, Nat.add_sub_cancel_left, List.take_left]

theorem zip_fst_snd {α β : Type} (l : List (α × β)) :
    (l.map Prod.fst).zip (l.map Prod.snd) = l := by
  induction l with
  | nil => rfl
  | cons a l ih => simp [ih]

theorem row_toCsr_ofRows (rows : List (List (Nat × K))) (m n i : Nat) (hi : i < rows.length) :
    ((Build.ofRows rows).toCsr m n).row i = rows[i] := by
  unfold Csr.row Build.toCsr
  dsimp only
  rw [zip_fst_snd, ofRows_indptr_getD _ _ (by omega), ofRows_indptr_getD _ _ (by omega),
    ofRows_entries, slice_flatten]

theorem row_ofRows (n : Nat) (rows : List (List (Nat × K))) (i : Nat) (hi : i < rows.length) :
    (ofRows n rows).row i = rows[i] := row_toCsr_ofRows rows _ n i hi

theorem row_ofRows_map (n m : Nat) (f : Nat → List (Nat × K)) (i : Nat) (hi : i < m) :
    (ofRows n ((List.range m).map f)).row i = f i := by
  rw [row_ofRows _ _ _ (by simpa using hi)]
  simp

theorem wf_ofRows (n : Nat) (rows : List (List (Nat × K)))
    (h : ∀ r ∈ rows, ∀ e ∈ r, e.1 < n) : (ofRows n rows).WF := by
  constructor
  · simp [ofRows, Build.toCsr, ofRows_indptr]
  · simp only [ofRows, Build.toCsr]
    rw [ofRows_indptr_getD _ _ (by omega)]; simp
  · intro i hi
    simp only [ofRows, Build.toCsr] at hi ⊢
    rw [ofRows_indptr_getD _ _ (by omega), ofRows_indptr_getD _ _ (by omega),
      List.take_succ_eq_append_getElem hi, List.flatten_append, List.length_append]
    omega
  · simp only [ofRows, Build.toCsr]
    rw [ofRows_indptr_getD _ _ (by omega), ofRows_entries, List.take_length, List.length_map]
  · simp [ofRows, Build.toCsr]
  · intro c hc
    simp only [ofRows, Build.toCsr, ofRows_entries, List.mem_map, List.mem_flatten] at hc
    obtain ⟨e, ⟨r, hr, he⟩, rfl⟩ := hc
    exact h r hr e he

@[simp] theorem nrows_ofRows (n : Nat) (rows : List (List (Nat × K))) :
    (ofRows n rows).nrows = rows.length := rfl

@[simp] theorem ncols_ofRows (n : Nat) (rows : List (List (Nat × K))) :
    (ofRows n rows).ncols = n := rfl

/-! ## Well-formed matrices -/

theorem row_sub (M : Csr K) (i : Nat) : ∀ e ∈ M.row i, e.1 ∈ M.indices ∧ e.2 ∈ M.data := by
  intro e he
  have := List.mem_of_mem_drop (List.mem_of_mem_take he)
  exact ⟨(List.of_mem_zip this).1, (List.of_mem_zip this).2⟩

theorem Csr.WF.row_lt {M : Csr K} (h : M.WF) (i : Nat) : ∀ e ∈ M.row i, e.1 < M.ncols :=
  fun e he => h.bound _ (row_sub M i e he).1

theorem Csr.WF.ptr_le {M : Csr K} (h : M.WF) (i j : Nat) (hij : i ≤ j) (hj : j ≤ M.nrows) :
    M.indptr.getD i 0 ≤ M.indptr.getD j 0 := by
  induction j with
  | zero => simp [Nat.le_zero.1 hij]
  | succ j ih =>
    rcases Nat.lt_or_ge i (j + 1) with h1 | h1
    · exact Nat.le_trans (ih (by omega) (by omega)) (h.mono j (by omega))
    · have : i = j + 1 := by omega
      rw [this]

theorem Csr.WF.row_length {M : Csr K} (h : M.WF) (i : Nat) (hi : i < M.nrows) :
    (M.row i).length = M.indptr.getD (i + 1) 0 - M.indptr.getD i 0 := by
  unfold Csr.row
  have h1 := h.ptr_le (i + 1) M.nrows (by omega) (by omega)
  have h2 := h.mono i hi
  have h3 := h.last
  have h4 := h.lens
  rw [List.length_take, List.length_drop, List.length_zip]
  omega

/-- The rows, one after the other, are the stored entries up to the row pointer. -/
theorem Csr.WF.flatten_take {M : Csr K} (h : M.WF) (k : Nat) (hk : k ≤ M.nrows) :
    ((List.range k).map M.row).flatten = (M.indices.zip M.data).take (M.indptr.getD k 0) := by
  induction k with
  | zero => rw [h.ptrZero]; simp
  | succ k ih =>
    rw [List.range_succ, List.map_append, List.flatten_append, ih (by omega)]
    simp only [List.map_cons, List.map_nil, List.flatten_cons, List.flatten_nil, List.append_nil]
    unfold Csr.row
    have h2 := h.mono k (by omega)
    conv_rhs => rw [show M.indptr.getD (k + 1) 0 = M.indptr.getD k 0 +
      (M.indptr.getD (k + 1) 0 - M.indptr.getD k 0) by omega, List.take_add]

theorem Csr.WF.flatten_rows {M : Csr K} (h : M.WF) :
    M.rows.flatten = M.indices.zip M.data := by
  unfold Csr.rows
  rw [h.flatten_take _ (le_refl _), h.last, List.take_of_length_le]
  rw [List.length_zip]; omega

theorem Csr.WF.flatten_length {M : Csr K} (h : M.WF) (k : Nat) (hk : k ≤ M.nrows) :
    (((List.range k).map M.row).flatten).length = M.indptr.getD k 0 := by
  rw [h.flatten_take k hk, List.length_take, List.length_zip]
  have h1 := h.ptr_le k M.nrows hk (le_refl _)
  have h3 := h.last
  have h4 := h.lens
  omega

/-- A well-formed matrix is rebuilt from its rows. -/
theorem Csr.WF.eq_ofRows {M : Csr K} (h : M.WF) : ofRows M.ncols M.rows = M := by
  have hz := h.flatten_rows
  have h1 : ((M.indices.zip M.data).map Prod.fst) = M.indices :=
    List.map_fst_zip (by rw [h.lens])
  have h2 : ((M.indices.zip M.data).map Prod.snd) = M.data :=
    List.map_snd_zip (by rw [h.lens])
  have h3 : (Build.ofRows M.rows).indptr = M.indptr := by
    rw [ofRows_indptr]
    apply List.ext_getElem
    · simp [Csr.rows, h.ptrLen]
    · intro i h4 h5
      simp only [List.getElem_map, List.getElem_range]
      have hi : i ≤ M.nrows := by have := h.ptrLen; omega
      have : M.rows.take i = (List.range i).map M.row := by
        unfold Csr.rows
        rw [← List.map_take, List.take_range, Nat.min_eq_left hi]
      rw [this, h.flatten_length i hi]
      simp [List.getD_eq_getElem?_getD, h5]
  unfold ofRows Build.toCsr
  rw [h3, ofRows_entries, hz, h1, h2]
  simp [Csr.rows]

end

/-! ## Arithmetic -/

theorem wf_addEye (M : Csr K) (d : K) : (M.addEye d).WF := by
  apply wf_ofRows
  intro r hr e he
  rw [List.mem_map] at hr
  obtain ⟨i, _, rfl⟩ := hr
  exact mem_canonRow_lt _ _ _ e he

theorem nrows_addEye (M : Csr K) (d : K) : (M.addEye d).nrows = M.nrows := by
  simp [Csr.addEye]

theorem ncols_addEye (M : Csr K) (d : K) : (M.addEye d).ncols = M.ncols := rfl

theorem val_addEye (M : Csr K) (d : K) (i j : Nat) (hi : i < M.nrows) (hj : j < M.ncols) :
    (M.addEye d).val i j = M.val i j + if i = j then d else 0 := by
  unfold Csr.val Csr.addEye
  rw [row_ofRows_map _ _ _ _ hi, sumAt_canonRow _ _ _ _ hj, sumAt_append, sumAt_cons, sumAt_nil]
  simp

theorem wf_matmul (A B : Csr K) : (A.matmul B).WF := by
  apply wf_ofRows
  intro r hr e he
  rw [List.mem_map] at hr
  obtain ⟨i, _, rfl⟩ := hr
  exact mem_canonRow_lt _ _ _ e he

theorem nrows_matmul (A B : Csr K) : (A.matmul B).nrows = A.nrows := by
  simp [Csr.matmul]

theorem ncols_matmul (A B : Csr K) : (A.matmul B).ncols = B.ncols := rfl

theorem sum_row_mul (r : List (Nat × K)) (n : Nat) (h : ∀ e ∈ r, e.1 < n) (f : Nat → K) :
    (r.map fun e => e.2 * f e.1).sum = ∑ k ∈ Finset.range n, sumAt r k * f k := by
  induction r with
  | nil => simp
  | cons e r ih =>
    rw [List.map_cons, List.sum_cons, ih (fun e' he' => h e' (by simp [he']))]
    simp only [sumAt_cons, add_mul, Finset.sum_add_distrib]
    congr 1
    have : ∀ k, (if e.1 = k then e.2 else 0) * f k = if e.1 = k then e.2 * f e.1 else 0 := by
      intro k; by_cases hk : e.1 = k <;> simp [hk]
    simp only [this]
    rw [Finset.sum_ite_eq]
    simp [h e (by simp)]

theorem val_matmul (A B : Csr K) (hA : A.WF) (i j : Nat) (hi : i < A.nrows) (hj : j < B.ncols) :
    (A.matmul B).val i j = ∑ k ∈ Finset.range A.ncols, A.val i k * B.val k j := by
  unfold Csr.val Csr.matmul
  rw [row_ofRows_map _ _ _ _ hi, sumAt_canonRow _ _ _ _ hj, sumAt_flatMap]
  have : ∀ e : Nat × K, sumAt ((B.row e.1).map fun f => (f.1, e.2 * f.2)) j =
      e.2 * sumAt (B.row e.1) j := by
    intro e
    exact sumAt_map_scale (B.row e.1) (fun x => e.2 * x) (by simp) (by intros; ring) j
  simp only [this]
  exact sum_row_mul (A.row i) A.ncols (hA.row_lt i) fun k => sumAt (B.row k) j

omit [Field K] [LinearOrder K] [IsStrictOrderedRing K] in
theorem nrows_transpose (M : Csr K) : M.transpose.nrows = M.ncols := by simp [Csr.transpose]

omit [Field K] [LinearOrder K] [IsStrictOrderedRing K] in
theorem ncols_transpose (M : Csr K) : M.transpose.ncols = M.nrows := rfl

omit [Field K] [LinearOrder K] [IsStrictOrderedRing K] in
theorem wf_transpose (M : Csr K) : M.transpose.WF := by
  apply wf_ofRows
  intro r hr e he
  rw [List.mem_map] at hr
  obtain ⟨j, _, rfl⟩ := hr
  rw [List.mem_flatMap] at he
  obtain ⟨i, hi, he⟩ := he
  rw [List.mem_map] at he
  obtain ⟨f, _, rfl⟩ := he
  exact List.mem_range.1 hi

theorem sumAt_const_row (r : List (Nat × K)) (a i j : Nat) :
    sumAt ((r.filter fun e => e.1 == j).map fun e => (a, e.2)) i =
      if a = i then sumAt r j else 0 := by
  induction r with
  | nil => simp
  | cons e r ih =>
    rw [sumAt_cons]
    by_cases h : e.1 = j
    · rw [List.filter_cons_of_pos (by simp [h]), List.map_cons, sumAt_cons, ih]
      by_cases ha : a = i <;> simp [h, ha]
    · rw [List.filter_cons_of_neg (by simp [h]), ih]
      simp [h]

theorem sum_range_ite (n i : Nat) (f : Nat → K) (hi : i < n) :
    ((List.range n).map fun a => if a = i then f a else 0).sum = f i := by
  induction n with
  | zero => omega
  | succ n ih =>
    rw [List.range_succ, List.map_append, List.sum_append]
    simp only [List.map_cons, List.map_nil, List.sum_cons, List.sum_nil, add_zero]
    rcases Nat.lt_or_ge i n with h | h
    · rw [ih h, if_neg (by omega), add_zero]
    · have : i = n := by omega
      subst this
      rw [if_pos rfl]
      have : ((List.range i).map fun a => if a = i then f a else 0) =
          (List.range i).map fun _ => (0 : K) := by
        apply List.map_congr_left
        intro a ha
        rw [List.mem_range] at ha
        rw [if_neg (by omega)]
      rw [this]; simp

theorem val_transpose (M : Csr K) (i j : Nat) (hi : i < M.nrows) (hj : j < M.ncols) :
    M.transpose.val j i = M.val i j := by
  unfold Csr.val Csr.transpose
  rw [row_ofRows_map _ _ _ _ hj, sumAt_flatMap]
  simp only [sumAt_const_row]
  exact sum_range_ite M.nrows i (fun a => sumAt (M.row a) j) hi

theorem row_scale (M : Csr K) (o : K) (i : Nat) :
    (M.scale o).row i = (M.row i).map fun e => (e.1, e.2 * o) := by
  unfold Csr.row Csr.scale
  dsimp only
  have : M.indices.zip (M.data.map (· * o)) =
      (M.indices.zip M.data).map fun e => (e.1, e.2 * o) := by
    rw [List.zip_map_right]; rfl
  rw [this, ← List.map_drop, ← List.map_take]

theorem val_scale (M : Csr K) (o : K) (i j : Nat) : (M.scale o).val i j = M.val i j * o := by
  unfold Csr.val
  rw [row_scale]
  exact sumAt_map_scale (M.row i) (fun x => x * o) (by simp) (by intros; ring) j

theorem wf_scale {M : Csr K} (h : M.WF) (o : K) : (M.scale o).WF := by
  constructor
  · exact h.ptrLen
  · exact h.ptrZero
  · exact h.mono
  · simp only [Csr.scale, List.length_map]; exact h.last
  · simp only [Csr.scale, List.length_map]; exact h.lens
  · exact h.bound

end Verif.Csr
