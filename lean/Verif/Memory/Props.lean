import Verif.Memory.Sums
import Verif.Memory.Agg
import Verif.Memory.Norm
import Verif.Memory.FromFull
import Verif.Memory.Rebuild
import Verif.Memory.Add
import Verif.Autocov.Props
import Verif.SparseStoch.Props

/-!
# Memory accesses of the compiled sparse routines: property C93
-/

set_option linter.dupNamespace false
set_option linter.unusedSectionVars false

namespace Verif.Memory

open Verif.Csr Verif.SparseStoch

variable {K : Type} [Field K] [LinearOrder K] [IsStrictOrderedRing K]

/-! ## Vocabulary -/

/-- The run made no access outside an array. -/
def StaysInside {α : Type} (r : Run α) : Prop := r ≠ .error .read ∧ r ≠ .error .write

/-- A list of indices as the routine receives it. -/
abbrev ints (l : List Nat) : List Int := l.map fun x : Nat => (x : Int)

/-- The first `n` values of a vector as the routine receives it. -/
abbrev vec (n : Nat) (p : Nat → K) : List K := (List.range n).map p

/-- The matrix in row, column, value form: repeated entries add up. -/
def Coo.val (B : Coo K) (a b : Nat) : K :=
  ((B.rows.zip (B.cols.zip B.data)).map fun e =>
    if e.1 = (a : Int) ∧ e.2.1 = (b : Int) then e.2.2 else 0).sum

/-- A well-formed matrix in row, column, value form, with `n` rows and columns. -/
structure Coo.WF (n : Nat) (B : Coo K) : Prop where
  rowsLen : B.rows.length = B.data.length
  colsLen : B.cols.length = B.data.length
  rowsIn : ∀ r ∈ B.rows, 0 ≤ r ∧ r < n
  colsIn : ∀ c ∈ B.cols, 0 ≤ c ∧ c < n

theorem inside_ok {α : Type} (x : α) : StaysInside (.ok x : Run α) :=
  ⟨nofun, nofun⟩

/-! ## Block sums -/

/-- **C93** (block sum).  The routine stays inside the arrays exactly when every requested row
exists, and then returns the sum of the entries; columns are not used as positions. -/
theorem C93_block (M : Csr K) (h : M.WF) (rows cols : List Nat) :
    (StaysInside (submatRun (arraysOf M) (ints rows) (ints cols)) ↔ ∀ r ∈ rows, r < M.nrows) ∧
    ((∀ r ∈ rows, r < M.nrows) → cols.Nodup →
      submatRun (arraysOf M) (ints rows) (ints cols) =
        .ok ((rows.map fun i => (cols.map fun j => M.val i j).sum).sum)) := by
  refine ⟨⟨?_, ?_⟩, ?_⟩
  · intro hin
    by_contra hcon
    push Not at hcon
    exact hin.1 (submatRun_fault h rows cols hcon)
  · intro hr
    rw [submatRun_ok h rows cols hr]
    exact inside_ok _
  · intro hr hn
    rw [submatRun_ok h rows cols hr, Autocov.submat_eq M rows cols hn]

/-! ## Aggregation -/

theorem coo_val_cooOf (L : List (Int × Int × K)) (a b : Nat) :
    (cooOf L).val a b =
      (L.map fun e => if e.1 = (a : Int) ∧ e.2.1 = (b : Int) then e.2.2 else 0).sum := by
  unfold Coo.val cooOf
  congr 1
  induction L with
  | nil => rfl
  | cons e L ih => simp only [List.map_cons, List.zip_cons_cons] at ih ⊢; rw [ih]

theorem sum_map_flatMap {α β : Type} (l : List α) (f : α → List β) (g : β → K) :
    ((l.flatMap f).map g).sum = (l.map fun a => ((f a).map g).sum).sum := by
  induction l with
  | nil => rfl
  | cons a l ih => simp [ih]

theorem sum_range_single (n : Nat) (f : Nat → K) (a : Nat) (ha : a < n)
    (hf : ∀ x < n, x ≠ a → f x = 0) : ((List.range n).map f).sum = f a := by
  rw [Autocov.sum_range_list, Finset.sum_eq_single a]
  · intro x hx hne
    exact hf x (Finset.mem_range.1 hx) hne
  · intro h
    exact absurd (Finset.mem_range.2 ha) h

theorem sum_map_zero {α : Type} (l : List α) (f : α → K) (h : ∀ x ∈ l, f x = 0) :
    (l.map f).sum = 0 := by
  induction l with
  | nil => rfl
  | cons x l ih =>
    rw [List.map_cons, List.sum_cons, h x (by simp), ih (fun y hy => h y (by simp [hy])), add_zero]

theorem sum_filter_ite {α : Type} (l : List α) (p : α → Bool) (f : α → K) :
    ((l.filter p).map f).sum = (l.map fun x => if p x then f x else 0).sum := by
  induction l with
  | nil => rfl
  | cons x l ih =>
    by_cases hx : p x = true
    · simp [hx, ih]
    · simp [hx, ih]

theorem agg1List_val (M : Csr K) (groups : List (List Nat)) (a b : Nat) (ha : a < groups.length)
    (hb : b < groups.length) :
    (cooOf (agg1List M groups)).val a b =
      if 0 < Autocov.submat M (groups.getD a []) (groups.getD b []) then
        Autocov.submat M (groups.getD a []) (groups.getD b []) else 0 := by
  rw [coo_val_cooOf]
  unfold agg1List
  rw [sum_map_flatMap, sum_range_single _ _ a ha, sum_map_flatMap, sum_range_single _ _ b hb]
  · split <;> simp
  · intro x _ hne
    split
    · simp [hne]
    · rfl
  · intro x _ hne
    rw [sum_map_flatMap]
    apply sum_map_zero
    intro y _
    split
    · simp [hne]
    · rfl

theorem agg2List_val (M : Csr K) (groups : List (List Nat)) (a b : Nat) (ha : a < groups.length)
    (hb : b < groups.length) :
    (cooOf (agg2List M groups)).val a b = (Autocov.aggregate2 M groups).val a b := by
  rw [coo_val_cooOf]
  unfold Csr.val Autocov.aggregate2
  rw [row_ofRows_map _ _ _ _ ha, sumAt_canonRow _ _ _ _ hb, sumAt_flatMap, sum_filter_ite]
  unfold agg2List
  rw [sum_map_flatMap]
  congr 1
  apply List.map_congr_left
  intro i _
  rw [List.map_map]
  by_cases hi : Autocov.groupOf groups i = a
  · simp only [hi, beq_self_eq_true, if_true]
    unfold sumAt
    induction M.row i with
    | nil => rfl
    | cons e r ih =>
      by_cases he : Autocov.groupOf groups e.1 = b
      · simp [he, ih]
      · simp [he, ih]
  · rw [if_neg (by simpa using hi)]
    apply sum_map_zero
    intro e _
    simp [hi]

theorem cooOf_wf (n : Nat) (L : List (Int × Int × K))
    (h : ∀ e ∈ L, (0 ≤ e.1 ∧ e.1 < n) ∧ 0 ≤ e.2.1 ∧ e.2.1 < n) : (cooOf L).WF n := by
  refine ⟨by simp [cooOf], by simp [cooOf], ?_, ?_⟩
  · intro r hr
    obtain ⟨e, he, rfl⟩ := List.mem_map.1 hr
    exact (h e he).1
  · intro r hr
    obtain ⟨e, he, rfl⟩ := List.mem_map.1 hr
    exact (h e he).2

theorem groupOf_lt (groups : List (List Nat)) (hne : groups ≠ []) (i : Nat) :
    Autocov.groupOf groups i < groups.length := by
  unfold Autocov.groupOf
  cases h : (List.range groups.length).reverse.find? fun a => decide (i ∈ groups.getD a []) with
  | none => exact List.length_pos_iff.2 hne
  | some a =>
    have := List.mem_of_find?_eq_some h
    simpa using this

/-- **C93** (aggregation).  Both versions stay inside their arrays; the result is well formed, and
holds the sum of the entries of each pair of groups — the first version only where it is positive. -/
theorem C93_aggregate (M : Csr K) (h : M.WF) (hsq : M.ncols = M.nrows) (groups : List (List Nat))
    (hg : Autocov.IsGrouping M.nrows groups) (hn : 0 < M.nrows) :
    (∃ B, aggregateRun (arraysOf M) (idxsOf groups) (idxptrOf groups) = .ok B ∧ B.WF groups.length ∧
      ∀ a b, a < groups.length → b < groups.length → B.val a b =
        max 0 ((groups.getD a []).map fun i => ((groups.getD b []).map fun j => M.val i j).sum).sum) ∧
    (∃ B, aggregate2Run (arraysOf M) (idxsOf groups) (idxptrOf groups) = .ok B ∧ B.WF groups.length ∧
      ∀ a b, a < groups.length → b < groups.length → B.val a b =
        ((groups.getD a []).map fun i => ((groups.getD b []).map fun j => M.val i j).sum).sum) := by
  have hin : ∀ g ∈ groups, ∀ i ∈ g, i < M.nrows := by
    intro g hgm i hi
    have : i ∈ groups.flatten := List.mem_flatten.2 ⟨g, hgm, hi⟩
    exact List.mem_range.1 (hg.mem_iff.1 this)
  have hne : groups ≠ [] := by
    rintro rfl
    have := hg.length_eq
    simp at this
    omega
  refine ⟨⟨_, aggregateRun_ok h groups hin, cooOf_wf _ _ ?_, ?_⟩,
    ⟨_, aggregate2Run_ok h groups, cooOf_wf _ _ ?_, ?_⟩⟩
  · intro e he
    unfold agg1List at he
    obtain ⟨a, ha, he⟩ := List.mem_flatMap.1 he
    obtain ⟨b, hb, he⟩ := List.mem_flatMap.1 he
    rw [List.mem_range] at ha hb
    split at he
    · rw [List.mem_singleton] at he
      subst he
      refine ⟨⟨?_, ?_⟩, ?_, ?_⟩ <;> dsimp only <;> omega
    · cases he
  · intro a b ha hb
    rw [agg1List_val M groups a b ha hb, Autocov.submat_eq M _ _ (Autocov.group_nodup hg b)]
    split
    · rename_i hpos
      rw [max_eq_right hpos.le]
    · rename_i hpos
      rw [max_eq_left (not_lt.1 hpos)]
  · intro e he
    unfold agg2List at he
    obtain ⟨i, _, he⟩ := List.mem_flatMap.1 he
    obtain ⟨e', _, rfl⟩ := List.mem_map.1 he
    have h1 := groupOf_lt groups hne i
    have h2 := groupOf_lt groups hne e'.1
    refine ⟨⟨?_, ?_⟩, ?_, ?_⟩ <;> dsimp only <;> omega
  · intro a b ha hb
    rw [agg2List_val M groups a b ha hb, Autocov.val_aggregate2 h rfl hsq hg a b ha hb]
    rfl

example : Autocov.exT.WF ∧ Autocov.exT.ncols = Autocov.exT.nrows ∧
    Autocov.IsGrouping Autocov.exT.nrows [[2, 0], [1]] ∧ 0 < Autocov.exT.nrows :=
  ⟨Autocov.exT_wf, rfl, by unfold Autocov.IsGrouping; decide +kernel, by decide⟩

/-! ## Gains -/

theorem scanDiag_total (k : Nat) : ∀ (m : Nat) (L : List (Nat × K)), m < L.length →
    ∃ d, Autocov.scanDiag k m L = .ok d := by
  intro m
  induction m with
  | zero =>
    intro L hL
    match L, hL with
    | e :: rest, _ =>
      rw [Autocov.scanDiag, if_neg (by omega)]
      split
      · exact ⟨_, rfl⟩
      · exact ⟨_, rfl⟩
  | succ m ih =>
    intro L hL
    match L, hL with
    | e :: rest, hL =>
      rw [Autocov.scanDiag]
      split
      · exact ih rest (by simpa using hL)
      · split
        · exact ⟨_, rfl⟩
        · exact ⟨_, rfl⟩

theorem ptr_const {M : Csr K} (h : M.WF) (k : Nat)
    (hrows : ∀ i, k ≤ i → i < M.nrows → M.row i = []) :
    ∀ m, k ≤ m → m ≤ M.nrows → M.indptr.getD m 0 = M.indptr.getD k 0 := by
  intro m hkm
  induction m with
  | zero => intro _; rw [Nat.le_zero.1 hkm]
  | succ m ih =>
    intro hm
    rcases Nat.lt_or_ge m k with h1 | h1
    · have : m + 1 = k := by omega
      rw [this]
    · have h2 := h.row_length m (by omega)
      rw [hrows m h1 (by omega), List.length_nil] at h2
      have h3 := h.mono m (by omega)
      have h4 := ih h1 (by omega)
      omega

theorem readDiag_total {M : Csr K} (h : M.WF) (k : Nat) (hk : k < M.nrows) :
    (∃ d, Autocov.readDiag M k = .ok d) ↔ ∃ i, k ≤ i ∧ i < M.nrows ∧ M.row i ≠ [] := by
  constructor
  · rintro ⟨d, hd⟩
    by_contra hcon
    push Not at hcon
    have h1 := ptr_const h k hcon M.nrows hk.le (le_refl _)
    rw [h.last] at h1
    have h2 : (M.indices.zip M.data).drop (M.indptr.getD k 0) = [] := by
      rw [List.drop_eq_nil_iff, List.length_zip, h.lens]; omega
    rw [Autocov.readDiag_empty h k hk (hcon k (le_refl _) hk), h2] at hd
    cases hd
  · rintro ⟨i, hki, hi, hne⟩
    unfold Autocov.readDiag
    apply scanDiag_total
    have h1 := h.row_length i hi
    have h2 := h.mono i hi
    have h3 : 0 < (M.row i).length := List.length_pos_iff.2 hne
    have h4 := h.ptr_le (i + 1) M.nrows (by omega) (le_refl _)
    have h5 := h.ptr_le (k + 1) M.nrows (by omega) (le_refl _)
    have h6 := h.ptr_le k i hki hi.le
    rw [h.last] at h4 h5
    rw [List.length_drop, List.length_zip, h.lens, Nat.min_self]
    omega

/-- **C93** (gain).  The routines for joining and leaving a cluster stay inside their arrays exactly
when the row of the node or a later row stores an entry. -/
theorem C93_gain_inside_iff (M Mc : Csr K) (h : M.WF) (hc : Mc.WF) (k : Nat) (hk : k < M.nrows)
    (hkc : k < Mc.nrows) (idx : List Nat) (n : Nat) (p1 p2 : Nat → K) (hkn : k < n)
    (hin : ∀ i ∈ idx, i < n) :
    (StaysInside (deltaStoRun (arraysOf M) (arraysOf Mc) k (ints idx) (vec n p1) (vec n p2)) ↔
      ∃ i, k ≤ i ∧ i < M.nrows ∧ M.row i ≠ []) ∧
    (StaysInside (deltaSoutRun (arraysOf M) (arraysOf Mc) k (ints idx) (vec n p1) (vec n p2)) ↔
      ∃ i, k ≤ i ∧ i < M.nrows ∧ M.row i ≠ []) := by
  rw [← readDiag_total h k hk]
  unfold deltaStoRun deltaSoutRun
  rw [deltaRun_eq (· + ·) h hc k hk hkc idx, deltaRun_eq (· - ·) h hc k hk hkc idx]
  cases hd : Autocov.readDiag M k with
  | error e =>
    simp only [err_bind]
    constructor
    · exact ⟨fun h => absurd rfl h.1, fun ⟨d, h⟩ => by cases h⟩
    · exact ⟨fun h => absurd rfl h.1, fun ⟨d, h⟩ => by cases h⟩
  | ok d =>
    simp only [ok_bind]
    rw [probRun_ok (· - ·) n p1 p2 k hkn idx hin, probRun_ok (· + ·) n p1 p2 k hkn idx hin]
    exact ⟨⟨fun _ => ⟨d, rfl⟩, fun _ => inside_ok _⟩, ⟨fun _ => ⟨d, rfl⟩, fun _ => inside_ok _⟩⟩

example : ∃ (M : Csr ℚ), M.WF ∧ (∃ i, 1 ≤ i ∧ i < M.nrows ∧ M.row i ≠ []) ∧
    ¬ ∃ i, 2 ≤ i ∧ i < M.nrows ∧ M.row i ≠ [] := by
  refine ⟨⟨3, 3, [0, 1, 2, 2], [1, 0], [1/2, 1/2]⟩, ⟨by decide, by decide, by decide, by decide,
    by decide, by decide⟩, ⟨1, by decide, by decide, by decide +kernel⟩, ?_⟩
  rintro ⟨i, h1, h2, h3⟩
  have : i = 2 := by
    have : i < 3 := h2
    omega
  subst this
  exact h3 (by decide +kernel)

/-- **C93** (gain): what is returned for a matrix whose row stores an entry. -/
theorem C93_gain_value_partial (A : Autocov.Autocov K) (h : Autocov.Good A) (hc : A.PTcsc.WF)
    (hcr : A.PTcsc.nrows = A.PT.nrows) (p1 p2 : Nat → K) (hw : A.w = .vectors p1 p2) (k : Nat)
    (hk : k < A.PT.nrows) (hrow : A.PT.row k ≠ []) (idx : List Nat) (hn : idx.Nodup)
    (hin : ∀ i ∈ idx, i < A.PT.nrows) :
    (k ∉ idx → deltaStoRun (arraysOf A.PT) (arraysOf A.PTcsc) k (ints idx) (vec A.PT.nrows p1)
        (vec A.PT.nrows p2) =
      .ok (Autocov.block A.toarray (insert k idx.toFinset) (insert k idx.toFinset) -
        Autocov.block A.toarray idx.toFinset idx.toFinset)) ∧
    (k ∈ idx → deltaSoutRun (arraysOf A.PT) (arraysOf A.PTcsc) k (ints idx) (vec A.PT.nrows p1)
        (vec A.PT.nrows p2) =
      .ok (Autocov.block A.toarray (idx.toFinset.erase k) (idx.toFinset.erase k) -
        Autocov.block A.toarray idx.toFinset idx.toFinset)) := by
  constructor
  · intro hout
    have h1 := Autocov.C19_join_exact_partial A h k hk hrow idx hn hin hout
    unfold Autocov.Autocov.deltaTo Autocov.deltaPTto at h1
    unfold deltaStoRun
    rw [deltaRun_eq (· + ·) h.wf hc k hk (hcr ▸ hk) idx]
    cases hd : Autocov.readDiag A.PT k with
    | error e => simp only [hd] at h1; cases h1
    | ok d =>
      simp only [hd, hw] at h1
      simp only [ok_bind]
      rw [probRun_ok (· - ·) A.PT.nrows p1 p2 k hk idx hin]
      exact congrArg _ (Except.ok.inj h1)
  · intro hmem
    have h1 := Autocov.C19_leave_exact_partial A h k hk hrow idx hn hin hmem
    unfold Autocov.Autocov.deltaOut Autocov.deltaPTout at h1
    unfold deltaSoutRun
    rw [deltaRun_eq (· - ·) h.wf hc k hk (hcr ▸ hk) idx]
    cases hd : Autocov.readDiag A.PT k with
    | error e => simp only [hd] at h1; cases h1
    | ok d =>
      simp only [hd, hw] at h1
      simp only [ok_bind]
      rw [probRun_ok (· + ·) A.PT.nrows p1 p2 k hk idx hin]
      exact congrArg _ (Except.ok.inj h1)

example : Autocov.Good Autocov.exA ∧ Autocov.exA.PTcsc.WF ∧
    Autocov.exA.PTcsc.nrows = Autocov.exA.PT.nrows ∧ Autocov.exA.PT.row 1 ≠ [] :=
  ⟨Autocov.exA_good, ⟨by decide +kernel, by decide +kernel, by decide +kernel, by decide +kernel,
    by decide +kernel, by decide +kernel⟩, by decide +kernel, by decide +kernel⟩

/-! ## Row normalisation -/

/-- **C93** (row normalisation).  Both routines stay inside the arrays, keep the number of stored
values, and give every row with a non-zero sum its target. -/
theorem C93_normalize (M : Csr K) (h : M.WF) (s : K) (t : List K) (ht : t.length = M.nrows) :
    (∃ d, normalizeRun M.data (arraysOf M).indptr M.nrows s = .ok d ∧ d.length = M.data.length ∧
      ∀ i < M.nrows, (rowTotal M i ≠ 0 → rowTotal { M with data := d } i = s) ∧
        (rowTotal M i = 0 → ∀ j, ({ M with data := d } : Csr K).val i j = M.val i j)) ∧
    (∃ d, normalizeArrayRun M.data (arraysOf M).indptr M.nrows t = .ok d ∧
      d.length = M.data.length ∧
      ∀ i < M.nrows, (rowTotal M i ≠ 0 → rowTotal { M with data := d } i = t.getD i 0) ∧
        (rowTotal M i = 0 → ∀ j, ({ M with data := d } : Csr K).val i j = M.val i j)) := by
  refine ⟨⟨_, normalizeRun_ok h s, ?_, ?_⟩, ⟨_, normalizeArrayRun_ok h t ht, ?_, ?_⟩⟩
  · have := (normalize_spec .compiled (fun _ => s) M h).1
    exact this.lens.symm.trans h.lens
  · intro i hi
    exact ⟨(C15_rows_sum_to_target .compiled s M h i hi).1,
      (C15_rows_sum_to_target .compiled s M h i hi).2.2⟩
  · have := (normalize_spec .compiled (fun i => t.getD i 0) M h).1
    exact this.lens.symm.trans h.lens
  · intro i hi
    exact ⟨(C15_rows_sum_to_targets (fun i => t.getD i 0) M h i hi).1,
      (C15_rows_sum_to_targets (fun i => t.getD i 0) M h i hi).2.2⟩

example : SparseStoch.exT.WF ∧ rowTotal SparseStoch.exT 0 ≠ 0 ∧
    [1, 2, (3 : ℚ)].length = SparseStoch.exT.nrows :=
  ⟨SparseStoch.exT_wf, by unfold rowTotal; decide +kernel, rfl⟩

/-! ## Restoring the full matrix -/

/-- **C93** (restoring).  The routine stays inside its arrays for every well-formed compressed
matrix, and its arrays are those of the matrix it stands for. -/
theorem C93_rebuild (A : SSM K) (h : A.WF) :
    ∃ M : Csr K, M.WF ∧ M.nrows = A.size ∧ M.ncols = A.size ∧
      rebuildRun (arraysOf A.small) (ints A.nz) A.size A.diag = .ok (arraysOf M) ∧
      ∀ i j, i < A.size → M.val i j = A.dense i j := by
  obtain ⟨M, h1, h2⟩ := rebuildRun_ok h.block A.nz A.size A.diag (nodup_of_sorted h.sorted) h.inside
    h.rows h.cols
  obtain ⟨M', h3, h4, h5, h6, _, _, h7⟩ := C11_expansion A h
  have : M' = M := by
    unfold SSM.toFull at h3
    rw [h1] at h3
    exact (Except.ok.inj h3).symm
  subst this
  exact ⟨M', h4, h5, h6, h2, h7⟩

example : SparseStoch.exB.WF ∧ 0 ∉ SparseStoch.exB.nz ∧ SparseStoch.exB.diag = 2 :=
  ⟨SparseStoch.exB_wf, by decide, rfl⟩

/-! ## Sum and difference -/

theorem addWith_diag (g : K → K) {A B C : SSM K} (h : addWith g A B = .ok C) :
    C.diag = A.diag + g B.diag := by
  unfold addWith at h
  dsimp only at h
  split at h
  · cases h
  · cases h
  · split at h
    · cases h
    · unfold mkSSM at h
      split at h
      · cases h
      · split at h
        · cases h
        · split at h
          · cases h
          · rw [← Except.ok.inj h]

/-- **C93** (sum and difference).  The routines stay inside their arrays for all well-formed
compressed matrices of the same size; the arrays they return start with those of the matrix that
stands for the sum or the difference. -/
theorem C93_add_sub (A B : SSM K) (hA : A.WF) (hB : B.WF) (hsize : A.size = B.size)
    (cnz : List Nat) (hs : cnz.Pairwise (· < ·)) (hm : ∀ i, i ∈ cnz ↔ i ∈ A.nz ∨ i ∈ B.nz) :
    (∃ (C : SSM K) (arr : Arrays K), addRun id (arraysOf A.small) (arraysOf B.small) (ints A.nz)
        (ints B.nz) (ints cnz) A.diag B.diag = .ok arr ∧ C.WF ∧ C.size = A.size ∧ C.nz = cnz ∧
      C.diag = A.diag + B.diag ∧
      arr.indptr = ints C.small.indptr ∧ ints C.small.indices <+: arr.indices ∧
      C.small.data <+: arr.data ∧ ∀ i j, C.dense i j = A.dense i j + B.dense i j) ∧
    (∃ (C : SSM K) (arr : Arrays K), addRun (fun x => -1 * x) (arraysOf A.small) (arraysOf B.small)
        (ints A.nz) (ints B.nz) (ints cnz) A.diag B.diag = .ok arr ∧ C.WF ∧ C.size = A.size ∧
      C.nz = cnz ∧ C.diag = A.diag - B.diag ∧
      arr.indptr = ints C.small.indptr ∧ ints C.small.indices <+: arr.indices ∧
      C.small.data <+: arr.data ∧ ∀ i j, C.dense i j = A.dense i j - B.dense i j) := by
  have hu : cnz = unique (A.nz ++ B.nz) := by
    apply List.Perm.eq_of_pairwise (le := (· < ·))
    · intro a b _ _ h1 h2; omega
    · exact hs
    · exact sorted_unique _
    · rw [List.perm_ext_iff_of_nodup (nodup_of_sorted hs) (nodup_of_sorted (sorted_unique _))]
      intro i
      rw [hm, mem_unique, List.mem_append]
  subst hu
  constructor
  · obtain ⟨C, arr, h1, h2, h3, h4, h5⟩ := addRun_ok id hA hB
    obtain ⟨C', h6, h7, h8, h9, h10⟩ := addWith_ok id rfl (fun _ _ => rfl) hA hB hsize
    rw [h1] at h6
    have := Except.ok.inj h6
    subst this
    refine ⟨C, arr, h2, h7, h8, h9, ?_, h3, h4, h5, h10⟩
    exact addWith_diag id h1
  · obtain ⟨C, arr, h1, h2, h3, h4, h5⟩ := addRun_ok (fun x : K => -1 * x) hA hB
    obtain ⟨C', h6, h7, h8, h9, h10⟩ := addWith_ok (fun x : K => -1 * x) (by simp)
      (by intros; ring) hA hB hsize
    rw [h1] at h6
    have := Except.ok.inj h6
    subst this
    refine ⟨C, arr, h2, h7, h8, h9, ?_, h3, h4, h5, ?_⟩
    · rw [addWith_diag (fun x : K => -1 * x) h1]; ring
    · intro i j; rw [h10]; ring

example : SparseStoch.exA.WF ∧ SparseStoch.exB.WF ∧ SparseStoch.exA.size = SparseStoch.exB.size ∧
    [0, 1, 2].Pairwise (· < ·) ∧
    ∀ i, i ∈ [0, 1, 2] ↔ i ∈ SparseStoch.exA.nz ∨ i ∈ SparseStoch.exB.nz := by
  refine ⟨SparseStoch.exA_wf, SparseStoch.exB_wf, rfl, by decide, ?_⟩
  intro i
  simp only [SparseStoch.exA, SparseStoch.exB, List.mem_cons, List.not_mem_nil, or_false]
  omega

/-! ## Extraction of the kept rows and columns -/

/-- Number of rows that are left out. -/
def leftOut (T : Csr K) (nz : List Nat) : Nat := ((Finset.range T.nrows).filter (· ∉ nz)).card

/-- Number of entries stored in the rows that are left out. -/
def leftOutEntries (T : Csr K) (nz : List Nat) : Nat :=
  ∑ i ∈ (Finset.range T.nrows).filter (· ∉ nz), (T.row i).length

/-- Number of entries stored in the rows that are kept. -/
def keptEntries (T : Csr K) (nz : List Nat) : Nat := (nz.map fun i => (T.row i).length).sum

theorem alloc_eq {T : Csr K} (hT : T.WF) (nz : List Nat) (hn : nz.Nodup)
    (hin : ∀ i ∈ nz, i < T.nrows) :
    fromFullAlloc T nz = (keptEntries T nz + leftOutEntries T nz : Int) - leftOut T nz := by
  have h1 := nnz_split hT nz hn hin
  have h2 := card_out T.nrows nz hn hin
  have h3 := hT.ptrLen
  unfold fromFullAlloc keptEntries leftOutEntries leftOut
  omega

/-- **C93** (extraction).  Exactly when the routine stays inside its arrays: the rows that are left
out store at least as many entries as there are such rows, or they are so many that numpy refuses the
negative size.  Between the two it writes outside. -/
theorem C93_from_full_inside_iff (T : Csr K) (hT : T.WF) (nz : List Nat) (hn : nz.Nodup)
    (hin : ∀ i ∈ nz, i < T.nrows) :
    (StaysInside (fromFullRun (ints nz) (arraysOf T)) ↔
      leftOut T nz ≤ leftOutEntries T nz ∨
        keptEntries T nz + leftOutEntries T nz < leftOut T nz) ∧
    (leftOutEntries T nz < leftOut T nz → leftOut T nz ≤ keptEntries T nz + leftOutEntries T nz →
      fromFullRun (ints nz) (arraysOf T) = .error .write) ∧
    (keptEntries T nz + leftOutEntries T nz < leftOut T nz →
      fromFullRun (ints nz) (arraysOf T) = .error .valueError) := by
  have hrun := fromFullRun_eq hT nz hin
  have hal := alloc_eq hT nz hn hin
  have hneed : need T nz = keptEntries T nz := rfl
  have hw : leftOutEntries T nz < leftOut T nz →
      leftOut T nz ≤ keptEntries T nz + leftOutEntries T nz →
      fromFullRun (ints nz) (arraysOf T) = .error .write := by
    intro h1 h2
    rw [hrun, if_neg (by omega), if_pos (by omega)]
  have hv : keptEntries T nz + leftOutEntries T nz < leftOut T nz →
      fromFullRun (ints nz) (arraysOf T) = .error .valueError := by
    intro h1
    rw [hrun, if_pos (by omega)]
  refine ⟨⟨?_, ?_⟩, hw, hv⟩
  · intro h
    by_contra hcon
    push Not at hcon
    exact h.2 (hw hcon.1 hcon.2)
  · rintro (h | h)
    · rw [hrun, if_neg (by omega), if_neg (by omega)]
      exact inside_ok _
    · rw [hv h]
      exact ⟨nofun, nofun⟩

/-- Rows that hold one entry on the diagonal. -/
theorem left_row {T : Csr K} (hT : T.WF) (hsq : T.ncols = T.nrows) (hrep : T.NoRepeats)
    (hz : T.NoZeros) (nz : List Nat) (d : K) (hid : IdentityOutside T nz d) (i : Nat)
    (hi : i < T.nrows) (hni : i ∉ nz) : ∀ e ∈ T.row i, e = (i, d) ∧ d ≠ 0 := by
  intro e he
  have h1 : T.val i e.1 = e.2 := sumAt_of_mem _ (hrep i hi) e he
  have h2 := hid i hi e.1 (hsq ▸ hT.row_lt i e he) (Or.inl hni)
  have h3 : e.2 ≠ 0 := hz i hi e he
  rw [h1] at h2
  by_cases hie : i = e.1
  · rw [if_pos hie] at h2
    exact ⟨by rw [hie, ← h2], h2 ▸ h3⟩
  · rw [if_neg hie] at h2
    exact absurd h2 h3

theorem kept_small {T : Csr K} (nz : List Nat) (hn : nz.Nodup)
    (hr : ∀ i ∈ nz, ∀ e ∈ T.row i, e.1 ∈ nz) (i : Nat) (hi : i ∈ nz) :
    smallRow T nz i = keptRow T nz i := by
  unfold smallRow keptRow
  apply List.map_congr_left
  intro e he
  rw [btos_mem hn (hr i hi e he)]
  rfl

theorem outOf_exact (R : List (List (Nat × K))) :
    (outOf (-1) (-1) R.flatten.length (R.length + 1) (Build.ofRows R)).arr =
      arraysOf (ofRows R.length R) := by
  unfold outOf arraysOf ofRows Build.toCsr padTo
  rw [ofRows_entries, ofRows_indptr]
  generalize R.flatten = E
  simp [Function.comp_def]

/-- **C93** (extraction), non-zero diagonal value: for every matrix that is `d` times the identity
outside the kept rows and columns, the routine stays inside its arrays, fills them exactly, and they
are the arrays of the block on the kept indices. -/
theorem C93_from_full_partial (T : Csr K) (nz : List Nat) (d : K) (hT : T.WF)
    (hsq : T.ncols = T.nrows) (hrep : T.NoRepeats) (hz : T.NoZeros) (hd : d ≠ 0)
    (hn : nz.Nodup) (hin : ∀ i ∈ nz, i < T.nrows) (hid : IdentityOutside T nz d) :
    ∃ M : Csr K, M.WF ∧ M.nrows = nz.length ∧ M.ncols = nz.length ∧
      fromFullRun (ints nz) (arraysOf T) = .ok (arraysOf M) ∧
      ∀ a b (ha : a < nz.length) (hb : b < nz.length), M.val a b = T.val nz[a] nz[b] := by
  have hr := cover_rows hT hsq hrep hz nz d hin hid
  have hrest := rest_rows nz d hd hid
  obtain ⟨hb1, hb2⟩ := keptBlock nz hr
  have hout : leftOutEntries T nz = leftOut T nz := by
    unfold leftOutEntries leftOut
    rw [Finset.card_eq_sum_ones]
    apply Finset.sum_congr rfl
    intro i hi
    rw [Finset.mem_filter, Finset.mem_range] at hi
    have h1 := left_row hT hsq hrep hz nz d hid i hi.1 hi.2
    have h2 := List.length_pos_iff.2 (hrest i hi.1 hi.2)
    have h3 := hrep i hi.1
    match hrow : T.row i with
    | [] => rw [hrow] at h2; simp at h2
    | [e] => rfl
    | e :: e' :: r =>
      rw [hrow] at h1 h3
      have h4 := (h1 e (by simp)).1
      have h5 := (h1 e' (by simp)).1
      rw [h4, h5] at h3
      simp at h3
  have hal := alloc_eq hT nz hn hin
  have hneed : need T nz = keptEntries T nz := rfl
  refine ⟨ofRows nz.length (nz.map (keptRow T nz)), hb1, ?_, rfl, ?_,
    fun a b ha hb => hb2 a b ha hb hn⟩
  · simp [ofRows, Build.toCsr]
  · rw [fromFullRun_eq hT nz hin, if_neg (by omega), if_neg (by omega)]
    have hm : nz.map (smallRow T nz) = nz.map (keptRow T nz) :=
      List.map_congr_left fun i hi => kept_small nz hn hr i hi
    have hlen := flatten_smallRows T nz nz
    have ha : (fromFullAlloc T nz).toNat = ((nz.map (smallRow T nz)).flatten).length := by
      rw [hlen]; omega
    rw [ha, hm]
    congr 1
    have := outOf_exact (nz.map (keptRow T nz))
    rw [List.length_map] at this
    exact this

example : SparseStoch.exT.WF ∧ SparseStoch.exT.ncols = SparseStoch.exT.nrows ∧
    SparseStoch.exT.NoRepeats ∧ SparseStoch.exT.NoZeros ∧ [2, 0].Nodup ∧
    IdentityOutside SparseStoch.exT [2, 0] 1 :=
  ⟨SparseStoch.exT_wf, rfl, SparseStoch.exT_noRepeats, SparseStoch.exT_noZeros, by decide,
    by unfold IdentityOutside; decide +kernel⟩

/-- **C93** is violated for the diagonal value 0: for every matrix with a zero row and column that
stores at least as many entries as it has such rows, the extraction with the indices the program
detects writes outside its arrays. -/
theorem C93_from_full_violated (T : Csr K) (hT : T.WF) (hsq : T.ncols = T.nrows)
    (hrep : T.NoRepeats) (hz : T.NoZeros) (i : Nat) (hi : i < T.nrows)
    (hzero : ∀ j < T.nrows, T.val i j = 0 ∧ T.val j i = 0)
    (hmany : T.nrows ≤ T.data.length) :
    fromFullRun (ints (detect T 0)) (arraysOf T) = .error .write := by
  have hs := detect_sorted T 0
  have hn := nodup_of_sorted hs
  have hin : ∀ i ∈ detect T 0, i < T.nrows := fun i h => ((mem_detect T 0 i).1 h).1
  have hid := identityOutside_detect T 0
  have hni : i ∉ detect T 0 := by
    intro h
    obtain ⟨_, j, hj, h2⟩ := (mem_detect T 0 i).1 h
    obtain ⟨h3, h4⟩ := hzero j hj
    rcases h2 with h2 | h2
    · apply h2; rw [h3]; simp
    · apply h2; rw [h4]; simp
  have hentries : leftOutEntries T (detect T 0) = 0 := by
    unfold leftOutEntries
    apply Finset.sum_eq_zero
    intro k hk
    rw [Finset.mem_filter, Finset.mem_range] at hk
    match hrow : T.row k with
    | [] => rfl
    | e :: r =>
      have := left_row hT hsq hrep hz _ 0 hid k hk.1 hk.2 e (by rw [hrow]; simp)
      exact absurd rfl this.2
  have hcard : 0 < leftOut T (detect T 0) := by
    unfold leftOut
    apply Finset.card_pos.2
    exact ⟨i, Finset.mem_filter.2 ⟨Finset.mem_range.2 hi, hni⟩⟩
  have hle : leftOut T (detect T 0) ≤ T.nrows := by
    unfold leftOut
    exact (Finset.card_filter_le _ _).trans (by simp)
  have hsplit := nnz_split hT _ hn hin
  have hk : T.data.length = keptEntries T (detect T 0) + leftOutEntries T (detect T 0) := hsplit
  exact (C93_from_full_inside_iff T hT _ hn hin).2.1 (by omega) (by omega)

example : ∃ T : Csr ℚ, T.WF ∧ T.ncols = T.nrows ∧ T.NoRepeats ∧ T.NoZeros ∧
    (∀ j < T.nrows, T.val 2 j = 0 ∧ T.val j 2 = 0) ∧ T.nrows ≤ T.data.length :=
  ⟨⟨3, 3, [0, 2, 4, 4], [0, 1, 0, 1], [1/2, 1/2, 1/3, 2/3]⟩, ⟨by decide, by decide, by decide,
    by decide, by decide, by decide⟩, rfl, by unfold Csr.NoRepeats; decide +kernel,
    by unfold Csr.NoZeros; decide +kernel, by decide +kernel, by decide⟩

end Verif.Memory
