import Verif.Memory.Lemmas

/-!
# Runs of the routines that compute sums and gains
-/

set_option linter.dupNamespace false
set_option linter.unusedSectionVars false

namespace Verif.Memory

open Verif.Csr

variable {K : Type} [Field K] [LinearOrder K] [IsStrictOrderedRing K]

/-! ## Block sums -/

/-- One turn of `get_submat_sum`. -/
theorem submat_row {M : Csr K} (h : M.WF) (cols : List Nat) (row : Nat) (hr : row < M.nrows)
    (s : K) :
    (loop ((M.indptr.getD row 0 : Nat) : Int) ((M.indptr.getD (row + 1) 0 : Nat) : Int) s fun s j => do
      let c ← rd (arraysOf M).indices j
      if c ∈ cols.map (fun x : Nat => (x : Int)) then
        let x ← rd (arraysOf M).data j
        pure (s + x)
      else pure s) =
    .ok ((M.row row).foldl (fun s e => if e.1 ∈ cols then s + e.2 else s) s) := by
  rw [loop_row h row hr s _ (fun s e => .ok (if e.1 ∈ cols then s + e.2 else s)), foldlM_pure]
  intro k c x s hc hx _
  simp only [hc, hx, ok_bind, pure_ok, cast_mem]
  split <;> rfl

theorem submatRun_ok {M : Csr K} (h : M.WF) (rows cols : List Nat) (hr : ∀ r ∈ rows, r < M.nrows) :
    submatRun (arraysOf M) (rows.map (fun x : Nat => (x : Int))) (cols.map (fun x : Nat => (x : Int))) =
      .ok (Autocov.submat M rows cols) := by
  unfold submatRun
  rw [loop_zero]
  rw [foldlM_range (rows.map (fun x : Nat => (x : Int))) _
    (fun s (row : Int) => do
      let lo ← rd (arraysOf M).indptr row
      let hi ← rd (arraysOf M).indptr (row + 1)
      loop lo hi s fun s j => do
        let c ← rd (arraysOf M).indices j
        if c ∈ cols.map (fun x : Nat => (x : Int)) then
          let x ← rd (arraysOf M).data j
          pure (s + x)
        else pure s)]
  · rw [List.foldlM_map, foldlM_congr_mem _ _ (fun s row =>
      .ok ((M.row row).foldl (fun s e => if e.1 ∈ cols then s + e.2 else s) s)), foldlM_pure]
    · rfl
    · intro row hrow s
      have hlt := hr row hrow
      rw [rd_indptr h row (by omega), ok_bind, rd_indptr_succ h row hlt, ok_bind]
      exact submat_row h cols row hlt s
  · intro d hd s
    rw [rd_nat _ d hd, ok_bind]

/-- An index outside the matrix makes the routine read outside `indptr`. -/
theorem submatRun_fault {M : Csr K} (h : M.WF) (rows cols : List Nat)
    (hr : ∃ r ∈ rows, M.nrows ≤ r) :
    submatRun (arraysOf M) (rows.map (fun x : Nat => (x : Int))) (cols.map (fun x : Nat => (x : Int))) =
      .error .read := by
  unfold submatRun
  rw [loop_zero]
  rw [foldlM_range (rows.map (fun x : Nat => (x : Int))) _
    (fun s (row : Int) => do
      let lo ← rd (arraysOf M).indptr row
      let hi ← rd (arraysOf M).indptr (row + 1)
      loop lo hi s fun s j => do
        let c ← rd (arraysOf M).indices j
        if c ∈ cols.map (fun x : Nat => (x : Int)) then
          let x ← rd (arraysOf M).data j
          pure (s + x)
        else pure s)]
  · rw [List.foldlM_map]
    suffices key : ∀ (rows : List Nat) (s : K), (∃ r ∈ rows, M.nrows ≤ r) →
        rows.foldlM (fun s (row : Nat) => do
          let lo ← rd (arraysOf M).indptr (row : Int)
          let hi ← rd (arraysOf M).indptr ((row : Int) + 1)
          loop lo hi s fun s j => do
            let c ← rd (arraysOf M).indices j
            if c ∈ cols.map (fun x : Nat => (x : Int)) then
              let x ← rd (arraysOf M).data j
              pure (s + x)
            else pure s) s = (.error .read : Run K) from key rows 0 hr
    intro rows
    induction rows with
    | nil => intro s ⟨r, hr, _⟩; cases hr
    | cons a rows ih =>
      intro s hex
      rw [List.foldlM_cons]
      by_cases ha : a < M.nrows
      · rw [rd_indptr h a (by omega), ok_bind, rd_indptr_succ h a ha, ok_bind,
          submat_row h cols a ha s, ok_bind]
        apply ih
        obtain ⟨r, hr1, hr2⟩ := hex
        rcases List.mem_cons.1 hr1 with rfl | hr1
        · omega
        · exact ⟨r, hr1, hr2⟩
      · have hl : (arraysOf M).indptr.length ≤ a + 1 := by
          have := h.ptrLen
          simp only [arraysOf, List.length_map]; omega
        have h2 : rd (arraysOf M).indptr ((a : Int) + 1) = .error .read := rd_nat_err _ (a + 1) hl
        by_cases hb : a < (arraysOf M).indptr.length
        · rw [rd_nat _ a hb, ok_bind, h2]; rfl
        · rw [rd_nat_err _ a (by omega)]; rfl
  · intro d hd s
    rw [rd_nat _ d hd, ok_bind]

/-! ## Gains -/

theorem lineRun_ok (g : K → K → K) {M : Csr K} (h : M.WF) (k : Nat) (hk : k < M.nrows)
    (idx : List Nat) (s : K) :
    lineRun g (arraysOf M) k (idx.map (fun x : Nat => (x : Int))) s =
      .ok ((M.row k).foldl (fun s e => if e.1 ∈ idx then g s e.2 else s) s) := by
  unfold lineRun
  rw [rd_indptr h k (by omega), ok_bind, rd_indptr_succ h k hk, ok_bind]
  rw [loop_row h k hk s _ (fun s e => .ok (if e.1 ∈ idx then g s e.2 else s)), foldlM_pure]
  intro j c x s hc hx _
  simp only [hc, hx, ok_bind, pure_ok, cast_mem]
  split <;> rfl

/-- The search for the diagonal entry, from a position inside the arrays. -/
theorem scanRun_eq {M : Csr K} (hl : M.indices.length = M.data.length) (k : Nat) (s : K) :
    ∀ (m j : Nat) (hj : j < M.data.length), j + m < M.data.length →
      (do let (j, l) ← scanRun (arraysOf M).indices k ((j + m + 1 : Nat) : Int) m j
            ((M.indices[j]'(by omega) : Nat) : Int)
          if l = k then
            let x ← rd (arraysOf M).data j
            pure (s + x)
          else pure s) =
      match Autocov.scanDiag k m ((M.indices.zip M.data).drop j) with
      | .error _ => (.error .read : Run K)
      | .ok d => .ok (s + d) := by
  intro m
  induction m with
  | zero =>
    intro j hj _
    rw [scanRun, ok_bind, List.drop_eq_getElem_cons (by rw [List.length_zip]; omega), Autocov.scanDiag,
      if_neg (by simp)]
    simp only [List.getElem_zip]
    by_cases hd : M.indices[j]'(by omega) = k
    · rw [if_pos (by exact_mod_cast hd), if_pos hd]
      show (rd M.data (j : Int) >>= _) = _
      rw [rd_nat _ j hj]; rfl
    · rw [if_neg (by exact_mod_cast hd), if_neg hd]
      simp [pure_ok]
  | succ m ih =>
    intro j hj hjm
    rw [scanRun, List.drop_eq_getElem_cons (by rw [List.length_zip]; omega), Autocov.scanDiag]
    simp only [List.getElem_zip]
    by_cases hlt : M.indices[j]'(by omega) < k
    · rw [if_pos ⟨by exact_mod_cast hlt, by push_cast; omega⟩, if_pos ⟨hlt, by omega⟩]
      have hrd : rd (arraysOf M).indices ((j : Int) + 1) =
          .ok ((M.indices[j + 1]'(by omega) : Nat) : Int) := by
        have := rd_cast M.indices (j + 1) (by omega)
        rw [List.getD_eq_getElem?_getD, List.getElem?_eq_getElem (by omega)] at this
        exact this
      rw [hrd]
      have := ih (j + 1) (by omega) (by omega)
      rw [show j + 1 + m + 1 = j + (m + 1) + 1 by omega] at this
      simpa using this
    · rw [if_neg (fun hc => hlt (by exact_mod_cast hc.1)), if_neg (fun hc => hlt hc.1), ok_bind]
      dsimp only
      by_cases hd : M.indices[j]'(by omega) = k
      · rw [if_pos (by exact_mod_cast hd), if_pos hd]
        show (rd M.data (j : Int) >>= _) = _
        rw [rd_nat _ j hj]; rfl
      · rw [if_neg (by exact_mod_cast hd), if_neg hd]
        simp [pure_ok]

/-- The gain routines read the diagonal entry as the model of the clustering says, and make a stray
access exactly when that model fails. -/
theorem deltaRun_eq (g : K → K → K) {M Mc : Csr K} (h : M.WF) (hc : Mc.WF)
    (k : Nat) (hk : k < M.nrows) (hkc : k < Mc.nrows) (idx : List Nat) :
    deltaRun g (arraysOf M) (arraysOf Mc) k (idx.map (fun x : Nat => (x : Int))) =
      match Autocov.readDiag M k with
      | .error _ => .error .read
      | .ok d => .ok ((Mc.row k).foldl (fun s e => if e.1 ∈ idx then g s e.2 else s)
          ((M.row k).foldl (fun s e => if e.1 ∈ idx then g s e.2 else s) 0) + d) := by
  unfold deltaRun
  rw [lineRun_ok g h k hk idx, ok_bind, lineRun_ok g hc k hkc idx, ok_bind,
    rd_indptr h k (by omega), ok_bind]
  generalize (Mc.row k).foldl (fun s e => if e.1 ∈ idx then g s e.2 else s) _ = s
  unfold Autocov.readDiag
  have h1 := h.ptr_le (k + 1) M.nrows (by omega) (le_refl _)
  have h2 := h.mono k hk
  have h4 := h.last
  have h5 := h.lens
  by_cases hin : M.indptr.getD k 0 < M.data.length
  · have hrd : rd (arraysOf M).indices ((M.indptr.getD k 0 : Nat) : Int) =
        .ok ((M.indices[M.indptr.getD k 0]'(by omega) : Nat) : Int) := by
      have := rd_cast M.indices (M.indptr.getD k 0) (by omega)
      rw [List.getD_eq_getElem?_getD (l := M.indices), List.getElem?_eq_getElem (by omega)] at this
      exact this
    rw [hrd, ok_bind, rd_indptr_succ h k hk, ok_bind]
    rcases Nat.lt_or_ge (M.indptr.getD k 0) (M.indptr.getD (k + 1) 0) with hlt | hge
    · have := scanRun_eq (M := M) h5 k s (M.indptr.getD (k + 1) 0 - M.indptr.getD k 0 - 1)
        (M.indptr.getD k 0) hin (by omega)
      rw [show M.indptr.getD k 0 + (M.indptr.getD (k + 1) 0 - M.indptr.getD k 0 - 1) + 1 =
        M.indptr.getD (k + 1) 0 by omega] at this
      rw [← this]
      congr 2
      omega
    · have heq : M.indptr.getD (k + 1) 0 = M.indptr.getD k 0 := by omega
      have := scanRun_eq (M := M) h5 k s 0 (M.indptr.getD k 0) hin (by omega)
      rw [heq, show ((M.indptr.getD k 0 : Nat) : Int) - 1 - ((M.indptr.getD k 0 : Nat) : Int) = -1 by omega,
        show M.indptr.getD k 0 - M.indptr.getD k 0 - 1 = 0 by omega, ← this]
      rfl
  · have hrd : rd (arraysOf M).indices ((M.indptr.getD k 0 : Nat) : Int) = .error .read :=
      rd_nat_err _ _ (by simp only [arraysOf, List.length_map]; omega)
    rw [hrd, err_bind, List.drop_eq_nil_of_le (by rw [List.length_zip]; omega)]
    simp [Autocov.scanDiag]

theorem rd_vec (n : Nat) (p : Nat → K) (k : Nat) (hk : k < n) :
    rd ((List.range n).map p) (k : Int) = .ok (p k) := by
  rw [rd_nat _ k (by simpa using hk)]
  simp

theorem probRun_ok (g : K → K → K) (n : Nat) (p1 p2 : Nat → K) (k : Nat) (hk : k < n)
    (idx : List Nat) (hin : ∀ i ∈ idx, i < n) (s : K) :
    probRun g ((List.range n).map p1) ((List.range n).map p2) k (idx.map (fun x : Nat => (x : Int))) s =
      .ok (idx.foldl (fun s i => g (g s (p1 k * p2 i)) (p1 i * p2 k)) s - p1 k * p2 k) := by
  unfold probRun
  have hloop : ∀ f : K → Int → Run K, (∀ s (d : Nat) (v : Nat), d < idx.length →
      idx[d]? = some v → f s (d : Int) = .ok (g (g s (p1 k * p2 v)) (p1 v * p2 k))) →
      loop 0 ((idx.map (fun x : Nat => (x : Int))).length : Int) s f =
        .ok (idx.foldl (fun s i => g (g s (p1 k * p2 i)) (p1 i * p2 k)) s) := by
    intro f hf
    rw [loop_zero, List.length_map,
      foldlM_range idx _ (fun s i => .ok (g (g s (p1 k * p2 i)) (p1 i * p2 k))), foldlM_pure]
    intro d hd s
    exact hf s d idx[d] hd (List.getElem?_eq_getElem hd)
  rw [hloop, ok_bind, rd_vec n p1 k hk, ok_bind, rd_vec n p2 k hk]
  · rfl
  · intro s d v hd hv
    have hvn : v < n := hin v (List.mem_of_getElem? hv)
    have h1 : rd (idx.map (fun x : Nat => (x : Int))) (d : Int) = .ok (v : Int) := by
      rw [rd_nat _ d (by simpa using hd), List.getElem_map]
      have := List.getElem?_eq_getElem hd
      rw [hv] at this
      rw [Option.some.inj this]
    rw [h1, ok_bind, rd_vec n p1 k hk, ok_bind, rd_vec n p2 v hvn, ok_bind, rd_vec n p1 v hvn, ok_bind,
      rd_vec n p2 k hk]
    rfl

end Verif.Memory
