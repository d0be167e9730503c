import Verif.Memory.Fill

/-!
# Runs of the restoration of the full matrix
-/

set_option linter.dupNamespace false
set_option linter.unusedSectionVars false

namespace Verif.Memory

open Verif.Csr Verif.SparseStoch

variable {K : Type} [Field K] [LinearOrder K] [IsStrictOrderedRing K]

theorem writeSlice_pad {α : Type} (n : Nat) (z : α) (L xs : List α) (num : Nat)
    (hx : xs.length = num) (h : L.length + xs.length ≤ n) :
    writeSlice (padTo n z L) (L.length : Int) (num : Int) xs = .ok (padTo n z (L ++ xs)) := by
  unfold writeSlice slice padTo
  have h1 : ((L.length : Int) + (num : Int)).toNat = L.length + num := by omega
  rw [h1, Int.toNat_natCast, Nat.add_sub_cancel_left, List.drop_left, if_neg]
  · rw [List.take_left, List.drop_length_add_append, List.drop_replicate, List.length_append,
      Nat.sub_sub]
  · simp only [List.length_take, List.length_replicate]
    omega

theorem slice_map {α β : Type} (f : α → β) (l : List α) (lo hi : Int) :
    slice (l.map f) lo hi = (slice l lo hi).map f := by
  simp [slice, List.map_drop, List.map_take]

theorem slice_data {T : Csr K} (h : T.WF) (i : Nat) :
    slice T.data ((T.indptr.getD i 0 : Nat) : Int) ((T.indptr.getD (i + 1) 0 : Nat) : Int) =
      (T.row i).map Prod.snd := by
  unfold slice Csr.row
  simp only [Int.toNat_natCast]
  rw [List.map_take, List.map_drop, List.map_snd_zip (by rw [h.lens])]

theorem slice_indices {T : Csr K} (h : T.WF) (i : Nat) :
    slice T.indices ((T.indptr.getD i 0 : Nat) : Int) ((T.indptr.getD (i + 1) 0 : Nat) : Int) =
      (T.row i).map Prod.fst := by
  unfold slice Csr.row
  simp only [Int.toNat_natCast]
  rw [List.map_take, List.map_drop, List.map_fst_zip (by rw [h.lens])]

/-- The columns of the full matrix. -/
def bigCols (T : Csr K) (nz : List Nat) : List Int := T.indices.map fun c => ((nz.getD c 0 : Nat) : Int)

theorem bigCols_run {T : Csr K} (h : T.WF) (nz : List Nat) (hc : T.ncols = nz.length) :
    (loop 0 (((arraysOf T).data.length : Nat) : Int)
      (List.replicate (arraysOf T).data.length (0 : Int)) fun cols k => do
        let c ← rd (arraysOf T).indices k
        let v ← rd (nz.map (fun x : Nat => (x : Int))) c
        wr cols k v) = .ok (bigCols T nz) := by
  have hl := h.lens
  obtain ⟨m, h1, h2⟩ := loop_inv 0 T.data.length (Nat.zero_le _)
    (fun (cols : List Int) k => do
        let c ← rd (arraysOf T).indices k
        let v ← rd (nz.map (fun x : Nat => (x : Int))) c
        wr cols k v) (fun k cols => cols = padTo T.data.length 0 ((bigCols T nz).take k))
    (by
      intro k _ hk cols hcols
      refine ⟨_, ?_, rfl⟩
      have hb : T.indices[k]'(by omega) < nz.length := by
        rw [← hc]; exact h.bound _ (List.getElem_mem _)
      have h3 : rd (arraysOf T).indices (k : Int) = .ok ((T.indices[k]'(by omega) : Nat) : Int) := by
        have := rd_cast T.indices k (by omega)
        rw [List.getD_eq_getElem?_getD, List.getElem?_eq_getElem (by omega)] at this
        exact this
      have h4 : ((bigCols T nz).take k).length = k := by
        simp [bigCols]; omega
      have h5 := wr_pad T.data.length (0 : Int) ((nz.getD (T.indices[k]'(by omega)) 0 : Nat) : Int)
        ((bigCols T nz).take k) (by omega)
      rw [h4] at h5
      rw [h3, ok_bind, rd_cast _ _ hb, ok_bind, hcols, h5]
      congr 2
      rw [List.take_succ_eq_append_getElem (by simp [bigCols]; omega)]
      simp [bigCols])
    (List.replicate T.data.length 0) (by simp [padTo])
  refine h1.trans ?_
  rw [h2, List.take_of_length_le (by simp [bigCols]; omega)]
  simp [padTo, bigCols, hl]

/-- How many rows below `r` are kept, and how many are not. -/
def kept (nz : List Nat) (r : Nat) : Nat := ((List.range r).filter fun i => decide (i ∈ nz)).length

theorem kept_succ (nz : List Nat) (r : Nat) :
    kept nz (r + 1) = kept nz r + if r ∈ nz then 1 else 0 := by
  unfold kept
  rw [List.range_succ, List.filter_append, List.length_append]
  congr 1
  by_cases h : r ∈ nz <;> simp [h]

theorem kept_le_self (nz : List Nat) (r : Nat) : kept nz r ≤ r := by
  induction r with
  | zero => simp [kept]
  | succ r ih => rw [kept_succ]; split <;> omega

theorem kept_le (nz : List Nat) (r : Nat) : kept nz r ≤ nz.length := by
  unfold kept
  apply List.Subperm.length_le
  apply List.subperm_of_subset (List.nodup_range.filter _)
  intro i hi
  simpa using (List.mem_filter.1 hi).2

theorem kept_mono (nz : List Nat) (r d : Nat) : kept nz r ≤ kept nz (r + d) ∧
    kept nz (r + d) ≤ kept nz r + d := by
  induction d with
  | zero => simp
  | succ d ih => rw [← Nat.add_assoc, kept_succ]; split <;> omega

theorem kept_all (nz : List Nat) (hn : nz.Nodup) (size : Nat) (hin : ∀ i ∈ nz, i < size) :
    kept nz size = nz.length := by
  apply le_antisymm (kept_le _ _)
  unfold kept
  apply List.Subperm.length_le
  apply List.subperm_of_subset hn
  intro i hi
  rw [List.mem_filter]
  exact ⟨List.mem_range.2 (hin i hi), by simpa using hi⟩

/-- The number of entries of the full matrix. -/
def bigNnz (T : Csr K) (nz : List Nat) (size : Nat) (diag : K) : Nat :=
  if diag = 0 then T.data.length else T.data.length + (size - nz.length)

theorem build_fold_len (T : Csr K) (nz : List Nat) (diag : K) (r : Nat) :
    ∃ rows : List (List (Nat × K)),
      ((List.range r).foldl (rebuildRow T nz diag) (0, Build.empty)) =
        (kept nz r, Build.ofRows rows) ∧ rows.length = r := by
  induction r with
  | zero => exact ⟨[], rfl, rfl⟩
  | succ r ih =>
    obtain ⟨rows, h1, h2⟩ := ih
    rw [List.range_succ, List.foldl_append, h1]
    simp only [List.foldl_cons, List.foldl_nil]
    unfold rebuildRow
    rw [kept_succ]
    split
    · exact ⟨rows ++ [_], by rw [ofRows_snoc], by simp [h2]⟩
    · split
      · exact ⟨rows ++ [[(r, diag)]], by rw [ofRows_snoc]; simp, by simp [h2]⟩
      · exact ⟨rows ++ [[]], by rw [ofRows_snoc]; simp, by simp [h2]⟩

/-- One row of the full matrix. -/
theorem rebuildRow_run {T : Csr K} (h : T.WF) (nz : List Nat) (alloc size r : Nat) (diag : K)
    (hrows : T.nrows = nz.length) (hr : r < size) (hk : r ∈ nz → kept nz r < nz.length)
    (rows : List (List (Nat × K))) (hlen : rows.length = r)
    (hfit : (rebuildRow T nz diag (kept nz r, Build.ofRows rows) r).2.entries.length ≤ alloc) :
    rebuildRowRun (arraysOf T) (nz.map (fun x : Nat => (x : Int))) (bigCols T nz) diag
      ⟨(kept nz r : Int) - 1, outOf 0 0 alloc (size + 1) (Build.ofRows rows)⟩ r =
      .ok ⟨((rebuildRow T nz diag (kept nz r, Build.ofRows rows) r).1 : Int) - 1,
        outOf 0 0 alloc (size + 1) (rebuildRow T nz diag (kept nz r, Build.ofRows rows) r).2⟩ := by
  have hp : ∀ rr : List (Nat × K), ∃ p : Int,
      rd (outOf 0 0 alloc (size + 1) (Build.ofRows rows)).arr.indptr (r : Int) = .ok p ∧
      wr (outOf 0 0 alloc (size + 1) (Build.ofRows rows)).arr.indptr ((r : Int) + 1)
        (p + (rr.length : Int)) =
        .ok (outOf 0 0 alloc (size + 1) (Build.ofRows (rows ++ [rr]))).arr.indptr := by
    intro rr
    have := pointer_run 0 0 alloc (size + 1) rows rr (by omega)
    rw [hlen] at this
    cases h1 : rd (outOf 0 0 alloc (size + 1) (Build.ofRows rows)).arr.indptr (r : Int) with
    | error e =>
      have h2 : rd (outOf 0 0 alloc (size + 1) ⟨(Build.ofRows rows).entries ++ rr,
        (Build.ofRows rows).indptr⟩).arr.indptr (r : Int) = .error e := h1
      simp only [h2, err_bind] at this
      cases this
    | ok p =>
      refine ⟨p, rfl, ?_⟩
      have h2 : rd (outOf 0 0 alloc (size + 1) ⟨(Build.ofRows rows).entries ++ rr,
        (Build.ofRows rows).indptr⟩).arr.indptr (r : Int) = .ok p := h1
      simp only [h2, ok_bind] at this
      cases h3 : wr (outOf 0 0 alloc (size + 1) (Build.ofRows rows)).arr.indptr ((r : Int) + 1)
          (p + (rr.length : Int)) with
      | error e =>
        have h4 : wr (outOf 0 0 alloc (size + 1) ⟨(Build.ofRows rows).entries ++ rr,
          (Build.ofRows rows).indptr⟩).arr.indptr ((r : Int) + 1) (p + (rr.length : Int)) = .error e := h3
        simp only [h4, err_bind] at this
        cases this
      | ok w =>
        have h4 : wr (outOf 0 0 alloc (size + 1) ⟨(Build.ofRows rows).entries ++ rr,
          (Build.ofRows rows).indptr⟩).arr.indptr ((r : Int) + 1) (p + (rr.length : Int)) = .ok w := h3
        simp only [h4, ok_bind, pure_ok] at this
        have := Except.ok.inj this
        rw [← this]
  unfold rebuildRowRun
  unfold rebuildRow at hfit ⊢
  by_cases hm : r ∈ nz
  · rw [if_pos hm] at hfit ⊢
    dsimp only at hfit ⊢
    rw [if_neg (by rw [cast_mem]; exact not_not.2 hm)]
    have hlt := hk hm
    rw [show (kept nz r : Int) - 1 + 1 = (kept nz r : Int) by ring]
    rw [rd_indptr h _ (by omega), ok_bind, rd_indptr_succ h _ (by omega), ok_bind]
    have hlen2 := h.row_length (kept nz r) (by omega)
    have hmono := h.mono (kept nz r) (by omega)
    rw [← Nat.cast_sub hmono, ← hlen2]
    obtain ⟨p, hp1, hp2⟩ := hp ((T.row (kept nz r)).map fun e => (nz.getD e.1 0, e.2))
    have hs1 : slice (arraysOf T).data ((T.indptr.getD (kept nz r) 0 : Nat) : Int)
        ((T.indptr.getD (kept nz r + 1) 0 : Nat) : Int) = (T.row (kept nz r)).map Prod.snd :=
      slice_data h _
    have hs2 : slice (bigCols T nz) ((T.indptr.getD (kept nz r) 0 : Nat) : Int)
        ((T.indptr.getD (kept nz r + 1) 0 : Nat) : Int) =
        (T.row (kept nz r)).map fun e => ((nz.getD e.1 0 : Nat) : Int) := by
      unfold bigCols
      rw [slice_map, slice_indices h, List.map_map]
      rfl
    simp only [Build.push, List.length_append, List.length_map] at hfit
    have hw1 := writeSlice_pad alloc (0 : K) ((Build.ofRows rows).entries.map Prod.snd)
      ((T.row (kept nz r)).map Prod.snd) (T.row (kept nz r)).length (by simp)
      (by simp only [List.length_map]; exact hfit)
    have hw2 := writeSlice_pad alloc (0 : Int) ((Build.ofRows rows).entries.map fun e => (e.1 : Int))
      ((T.row (kept nz r)).map fun e => ((nz.getD e.1 0 : Nat) : Int)) (T.row (kept nz r)).length
      (by simp) (by simp only [List.length_map]; exact hfit)
    rw [List.length_map] at hw1 hw2
    have hw1' : writeSlice (outOf 0 0 alloc (size + 1) (Build.ofRows rows)).arr.data
        (outOf 0 0 alloc (size + 1) (Build.ofRows rows)).pos ((T.row (kept nz r)).length : Int)
        ((T.row (kept nz r)).map Prod.snd) = _ := hw1
    have hw2' : writeSlice (outOf 0 0 alloc (size + 1) (Build.ofRows rows)).arr.indices
        (outOf 0 0 alloc (size + 1) (Build.ofRows rows)).pos ((T.row (kept nz r)).length : Int)
        ((T.row (kept nz r)).map fun e => ((nz.getD e.1 0 : Nat) : Int)) = _ := hw2
    rw [List.length_map] at hp2
    rw [hs1, hs2, hw1', ok_bind, hw2', ok_bind, hp1, ok_bind, hp2, ok_bind, ofRows_snoc]
    simp [outOf, Build.push, pure_ok, Function.comp_def]
  · rw [if_neg hm] at hfit ⊢
    rw [if_pos (by rw [cast_mem]; exact hm)]
    by_cases hd : diag = 0
    · rw [if_neg (not_not.2 hd)] at hfit ⊢
      obtain ⟨p, hp1, hp2⟩ := hp []
      simp only [List.length_nil, Nat.cast_zero, add_zero] at hp2
      dsimp only
      rw [hp1, ok_bind, if_pos hd, hp2, ok_bind, ofRows_snoc]
      simp [outOf, Build.push, pure_ok]
    · rw [if_pos hd] at hfit ⊢
      obtain ⟨p, hp1, hp2⟩ := hp [(r, diag)]
      simp only [List.length_cons, List.length_nil, Nat.cast_one, zero_add] at hp2
      simp only [Build.push, List.length_append, List.length_cons, List.length_nil] at hfit
      have hw1 := wr_pad alloc (0 : K) diag ((Build.ofRows rows).entries.map Prod.snd)
        (by rw [List.length_map]; omega)
      have hw2 := wr_pad alloc (0 : Int) (r : Int) ((Build.ofRows rows).entries.map fun e => (e.1 : Int))
        (by rw [List.length_map]; omega)
      rw [List.length_map] at hw1 hw2
      have hw1' : wr (outOf 0 0 alloc (size + 1) (Build.ofRows rows)).arr.data
        (outOf 0 0 alloc (size + 1) (Build.ofRows rows)).pos diag = _ := hw1
      have hw2' : wr (outOf 0 0 alloc (size + 1) (Build.ofRows rows)).arr.indices
        (outOf 0 0 alloc (size + 1) (Build.ofRows rows)).pos (r : Int) = _ := hw2
      dsimp only
      rw [hp1, ok_bind, if_neg hd, hw1', ok_bind, hw2', ok_bind, hp2, ok_bind, ofRows_snoc]
      simp [outOf, Build.push, pure_ok]

/-- The number of entries written for the rows below `r`. -/
theorem fold_entries {T : Csr K} (h : T.WF) (nz : List Nat) (diag : K) (hrows : T.nrows = nz.length) (r : Nat) :
    ((List.range r).foldl (rebuildRow T nz diag) (0, Build.empty)).2.entries.length =
      T.indptr.getD (kept nz r) 0 + if diag = 0 then 0 else r - kept nz r := by
  induction r with
  | zero =>
    show _ = T.indptr.getD 0 0 + _
    rw [h.ptrZero]; simp [Build.empty]
  | succ r ih =>
    obtain ⟨rows, h1, h2⟩ := build_fold_len T nz diag r
    rw [List.range_succ, List.foldl_append, h1]
    rw [h1] at ih
    simp only [List.foldl_cons, List.foldl_nil] at ih ⊢
    have hks := kept_succ nz r
    have hle := kept_le_self nz r
    unfold rebuildRow
    by_cases hm : r ∈ nz
    · rw [if_pos hm]
      rw [if_pos hm] at hks
      have hk := kept_le nz (r + 1)
      have hlt : kept nz r < T.nrows := by omega
      simp only [Build.push, List.length_append, List.length_map, ih, hks]
      rw [h.row_length _ hlt]
      have := h.mono _ hlt
      split <;> omega
    · rw [if_neg hm]
      replace hks : kept nz (r + 1) = kept nz r := by rw [hks, if_neg hm, Nat.add_zero]
      by_cases hd : diag = 0
      · simp only [hd, if_true] at ih
        rw [if_neg (not_not.2 hd)]
        simp [Build.push, ih, hks, hd]
      · simp only [if_neg hd] at ih
        rw [if_pos hd]
        simp only [Build.push, List.length_append, List.length_cons, List.length_nil, ih, hks, if_neg hd]
        omega

/-- The restoration stays inside the arrays and returns the full matrix. -/
theorem rebuildRun_ok {T : Csr K} (h : T.WF) (nz : List Nat) (size : Nat) (diag : K)
    (hn : nz.Nodup) (hin : ∀ i ∈ nz, i < size) (hrows : T.nrows = nz.length)
    (hcols : T.ncols = nz.length) :
    ∃ M, rebuild T nz size diag = .ok M ∧
      rebuildRun (arraysOf T) (nz.map (fun x : Nat => (x : Int))) size diag = .ok (arraysOf M) := by
  have hind : T.indices.any (fun c => decide (nz.length ≤ c)) = false := by
    rw [List.any_eq_false]
    intro c hc
    have := h.bound c hc
    simp only [decide_eq_true_eq]; omega
  refine ⟨_, by unfold rebuild; rw [hind]; rfl, ?_⟩
  have hall := kept_all nz hn size hin
  have hlesz : nz.length ≤ size := by rw [← hall]; exact kept_le_self _ _
  have hnnz : (if diag = 0 then (((arraysOf T).data.length : Nat) : Int)
      else (((arraysOf T).data.length : Nat) : Int) + (size : Int) -
        (((nz.map (fun x : Nat => (x : Int))).length : Nat) : Int)) = (bigNnz T nz size diag : Nat) := by
    unfold bigNnz arraysOf
    rw [List.length_map]
    split
    · rfl
    · push_cast [hlesz]; ring
  unfold rebuildRun
  simp only [hnnz]
  have hz : ∀ {α : Type} (n : Nat) (x : α), zeros (n : Int) x = .ok (List.replicate n x) := by
    intro α n x
    unfold zeros
    rw [if_neg (by omega), Int.toNat_natCast]
  have hz2 : zeros ((size : Int) + 1) (0 : Int) = .ok (List.replicate (size + 1) 0) := hz (size + 1) 0
  rw [hz, ok_bind, hz, ok_bind, hz2, ok_bind, bigCols_run h nz hcols, ok_bind]
  obtain ⟨st, h1, h2⟩ := loop_inv 0 size (Nat.zero_le _)
    (rebuildRowRun (arraysOf T) (nz.map (fun x : Nat => (x : Int))) (bigCols T nz) diag)
    (fun r st => st = ⟨((kept nz r : Nat) : Int) - 1, outOf 0 0 (bigNnz T nz size diag) (size + 1)
      ((List.range r).foldl (rebuildRow T nz diag) (0, Build.empty)).2⟩)
    (by
      intro r _ hr st hst
      obtain ⟨rows, hb1, hb2⟩ := build_fold_len T nz diag r
      have hfe := fold_entries h nz diag hrows (r + 1)
      have hkm := kept_mono nz (r + 1) (size - (r + 1))
      rw [show r + 1 + (size - (r + 1)) = size by omega, hall] at hkm
      have hpt := h.ptr_le (kept nz (r + 1)) T.nrows (by omega) (le_refl _)
      have hlast := h.last
      have hself := kept_le_self nz (r + 1)
      have hnext : (List.range (r + 1)).foldl (rebuildRow T nz diag) (0, Build.empty) =
          rebuildRow T nz diag (kept nz r, Build.ofRows rows) r := by
        rw [List.range_succ, List.foldl_append, hb1]; rfl
      obtain ⟨rows', hb3, _⟩ := build_fold_len T nz diag (r + 1)
      refine ⟨_, ?_, rfl⟩
      rw [hst, hb1]
      rw [rebuildRow_run h nz (bigNnz T nz size diag) size r diag hrows hr ?_ rows hb2 ?_]
      · rw [← hnext, hb3]
      · intro hm
        have := kept_succ nz r
        rw [if_pos hm] at this
        have := kept_le nz (r + 1)
        omega
      · rw [← hnext, hfe]
        unfold bigNnz
        split <;> omega)
    ⟨-1, ⟨⟨List.replicate (size + 1) 0, List.replicate (bigNnz T nz size diag) 0,
      List.replicate (bigNnz T nz size diag) 0⟩, 0⟩⟩
    (by simp [kept, outOf, Build.empty, padTo, List.replicate_succ])
  rw [show ((0 : Nat) : Int) = 0 from rfl] at h1
  rw [h1, ok_bind, h2, pure_ok]
  obtain ⟨rows, hb1, hb2⟩ := build_fold_len T nz diag size
  have hfe := fold_entries h nz diag hrows size
  rw [hb1] at hfe ⊢
  have hlen : (Build.ofRows rows).entries.length = bigNnz T nz size diag := by
    rw [hfe, hall, ← hrows, h.last]
    unfold bigNnz
    rw [hrows]
    split <;> omega
  have hptr : (Build.ofRows rows).indptr.length = size + 1 := by
    rw [ofRows_indptr]; simp [hb2]
  simp [outOf, padTo, hlen, hptr, arraysOf, Build.toCsr, Function.comp_def]

end Verif.Memory
