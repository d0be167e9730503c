import Verif.Memory.Sums

/-!
# Runs of the two aggregation routines
-/

set_option linter.dupNamespace false
set_option linter.unusedSectionVars false

namespace Verif.Memory

open Verif.Csr

variable {K : Type} [Field K] [LinearOrder K] [IsStrictOrderedRing K]

/-- The three vectors of a list of entries (row, column, value). -/
def cooOf (L : List (Int × Int × K)) : Coo K := ⟨L.map (·.2.2), L.map (·.1), L.map (·.2.1)⟩

theorem cooOf_push (L : List (Int × Int × K)) (x : K) (r c : Int) :
    (cooOf L).push x r c = cooOf (L ++ [(r, c, x)]) := by
  simp [cooOf, Coo.push]

/-- A loop that appends to the vectors. -/
theorem foldlM_coo {β : Type} (l : List β) (f : Coo K → β → Run (Coo K))
    (h : β → List (Int × Int × K)) (hf : ∀ b ∈ l, ∀ L, f (cooOf L) b = .ok (cooOf (L ++ h b))) :
    ∀ L, l.foldlM f (cooOf L) = .ok (cooOf (L ++ l.flatMap h)) := by
  induction l with
  | nil => intro L; simp [pure_ok]
  | cons b l ih =>
    intro L
    rw [List.foldlM_cons, hf b (by simp), ok_bind, ih (fun b' hb' => hf b' (by simp [hb']))]
    simp

theorem lengths_sum {α : Type} (groups : List (List α)) :
    (groups.map List.length).sum = groups.flatten.length := by
  rw [List.length_flatten]

theorem rd_idxptr (groups : List (List Nat)) (a : Nat) (ha : a ≤ groups.length) :
    rd (idxptrOf groups) (a : Int) = .ok (((groups.take a).flatten.length : Nat) : Int) := by
  unfold idxptrOf
  rw [rd_nat _ a (by simp; omega)]
  simp [lengths_sum]

theorem rd_idxptr_succ (groups : List (List Nat)) (a : Nat) (ha : a < groups.length) :
    rd (idxptrOf groups) ((a : Int) + 1) = .ok (((groups.take (a + 1)).flatten.length : Nat) : Int) :=
  rd_idxptr groups (a + 1) ha

theorem idxptr_length (groups : List (List Nat)) :
    (((idxptrOf groups).length : Nat) : Int) - 1 = ((groups.length : Nat) : Int) := by
  simp [idxptrOf]

theorem slice_group (groups : List (List Nat)) (a : Nat) (ha : a < groups.length) :
    slice (idxsOf groups) (((groups.take a).flatten.length : Nat) : Int)
      (((groups.take (a + 1)).flatten.length : Nat) : Int) =
      (groups.getD a []).map (fun x : Nat => (x : Int)) := by
  unfold slice idxsOf
  rw [← List.map_drop, ← List.map_take]
  congr 1
  simp only [Int.toNat_natCast]
  rw [slice_flatten groups a ha]
  simp [ha]

/-- The entries `aggregate_csr_mat` appends. -/
def agg1List (M : Csr K) (groups : List (List Nat)) : List (Int × Int × K) :=
  (List.range groups.length).flatMap fun (a : Nat) => (List.range groups.length).flatMap fun (b : Nat) =>
    if 0 < Autocov.submat M (groups.getD a []) (groups.getD b []) then
      [((a : Int), (b : Int), Autocov.submat M (groups.getD a []) (groups.getD b []))]
    else []

theorem aggregateRun_ok {M : Csr K} (h : M.WF) (groups : List (List Nat))
    (hg : ∀ g ∈ groups, ∀ i ∈ g, i < M.nrows) :
    aggregateRun (arraysOf M) (idxsOf groups) (idxptrOf groups) =
      .ok (cooOf (agg1List M groups)) := by
  unfold aggregateRun
  rw [idxptr_length, loop_zero]
  have h0 : (⟨[], [], []⟩ : Coo K) = cooOf [] := rfl
  rw [h0]
  have := foldlM_coo (List.range groups.length) (fun B (row : Nat) =>
    loop 0 (((groups.length : Nat) : Int)) B fun B col => do
      let r0 ← rd (idxptrOf groups) (row : Int)
      let r1 ← rd (idxptrOf groups) ((row : Int) + 1)
      let c0 ← rd (idxptrOf groups) col
      let c1 ← rd (idxptrOf groups) (col + 1)
      let pt ← submatRun (arraysOf M) (slice (idxsOf groups) r0 r1) (slice (idxsOf groups) c0 c1)
      if 0 < pt then pure (B.push pt row col) else pure B)
    (fun (a : Nat) => (List.range groups.length).flatMap fun (b : Nat) =>
      if 0 < Autocov.submat M (groups.getD a []) (groups.getD b []) then
        [((a : Int), (b : Int), Autocov.submat M (groups.getD a []) (groups.getD b []))]
      else []) ?_ []
  · rw [this]; rfl
  · intro a ha L
    rw [List.mem_range] at ha
    rw [loop_zero]
    apply foldlM_coo
    intro b hb L
    rw [List.mem_range] at hb
    rw [rd_idxptr _ _ (by omega), ok_bind, rd_idxptr_succ _ _ ha, ok_bind, rd_idxptr _ _ (by omega),
      ok_bind, rd_idxptr_succ _ _ hb, ok_bind, slice_group _ _ ha, slice_group _ _ hb,
      submatRun_ok h, ok_bind]
    · split
      · rw [cooOf_push]; rfl
      · simp [pure_ok]
    · intro r hr
      refine hg (groups.getD a []) ?_ r hr
      rw [List.getD_eq_getElem?_getD, List.getElem?_eq_getElem ha]
      exact List.getElem_mem _

/-! ## The second version -/

/-- The map after the groups up to the given one. -/
def umapOf (groups : List (List Nat)) (m : Nat) : UMap :=
  ((List.range m).flatMap fun (a : Nat) =>
    (groups.getD a []).map fun i : Nat => ((i : Int), (a : Int))).reverse

theorem foldlM_umap (l : List Int) (kb : Int) : ∀ m : UMap,
    l.foldlM (fun m a => (.ok ((a, kb) :: m) : Run UMap)) m =
      .ok ((l.map fun a => (a, kb)).reverse ++ m) := by
  induction l with
  | nil => intro m; rfl
  | cons a l ih =>
    intro m
    rw [List.foldlM_cons, ok_bind, ih]
    simp

theorem umapRun_ok (groups : List (List Nat)) :
    (loop 0 (((groups.length : Nat) : Int)) ([] : UMap) fun m kb => do
      let lo ← rd (idxptrOf groups) kb
      let hi ← rd (idxptrOf groups) (kb + 1)
      loop lo hi m fun m ka => do
        let a ← rd (idxsOf groups) ka
        pure ((a, kb) :: m)) = .ok (umapOf groups groups.length) := by
  have := loop_inv 0 groups.length (Nat.zero_le _)
    (fun (m : UMap) kb => do
      let lo ← rd (idxptrOf groups) kb
      let hi ← rd (idxptrOf groups) (kb + 1)
      loop lo hi m fun m ka => do
        let a ← rd (idxsOf groups) ka
        pure ((a, kb) :: m)) (fun k m => m = umapOf groups k) ?_ [] (by rfl)
  · obtain ⟨m, h1, h2⟩ := this
    rw [← h2]
    exact h1
  · intro k _ hk m hm
    refine ⟨_, ?_, rfl⟩
    rw [rd_idxptr _ _ (by omega), ok_bind, rd_idxptr_succ _ _ hk, ok_bind, loop_nat]
    have hlen : (groups.take (k + 1)).flatten.length - (groups.take k).flatten.length =
        (groups[k].map (fun x : Nat => (x : Int))).length := by
      rw [List.take_succ_eq_append_getElem hk, List.flatten_append]
      simp
    rw [hlen, foldlM_range (groups[k].map (fun x : Nat => (x : Int))) _
      (fun m a => .ok ((a, (k : Int)) :: m)), foldlM_umap, hm]
    · congr 1
      unfold umapOf
      rw [List.range_succ, List.flatMap_append, List.reverse_append]
      congr 1
      simp [hk, Function.comp_def]
    · intro d hd s
      rw [List.length_map] at hd
      have hl : (groups.take (k + 1)).flatten.length ≤ groups.flatten.length := by
        conv_rhs => rw [← List.take_append_drop (k + 1) groups, List.flatten_append,
          List.length_append]
        omega
      have hlt : (groups.take k).flatten.length + d < groups.flatten.length := by
        rw [List.length_map] at hlen
        omega
      have : rd (idxsOf groups) (((groups.take k).flatten.length + d : Nat) : Int) =
          .ok ((groups[k][d] : Nat) : Int) := by
        unfold idxsOf
        rw [rd_nat _ _ (by rw [List.length_map]; exact hlt)]
        congr 1
        rw [List.getElem_map]
        have h3 := slice_flatten groups k hk
        have h4 : groups.flatten[(groups.take k).flatten.length + d]'hlt = groups[k][d] := by
          have h5 : (groups.flatten[(groups.take k).flatten.length + d]?) = groups[k][d]? := by
            rw [← h3, List.getElem?_take_of_lt (by rw [List.length_map] at hlen; omega),
              List.getElem?_drop]
          rw [List.getElem?_eq_getElem hlt, List.getElem?_eq_getElem hd] at h5
          exact Option.some.inj h5
        rw [h4]
      rw [this]
      simp [ok_bind, pure_ok]

theorem umapOf_succ (groups : List (List Nat)) (n : Nat) :
    umapOf groups (n + 1) =
      ((groups.getD n []).map fun i : Nat => ((i : Int), (n : Int))).reverse ++ umapOf groups n := by
  unfold umapOf
  rw [List.range_succ, List.flatMap_append, List.reverse_append]
  simp

/-- The C++ map is the group of the model. -/
theorem mapAt_umapOf (groups : List (List Nat)) (i : Nat) :
    mapAt (umapOf groups groups.length) i = ((Autocov.groupOf groups i : Nat) : Int) := by
  unfold mapAt Autocov.groupOf
  suffices key : ∀ n,
      ((umapOf groups n).find? fun e => e.1 == (i : Int)) =
        ((List.range n).reverse.find? fun a => decide (i ∈ groups.getD a [])).map
          fun a => ((i : Int), (a : Int)) by
    rw [key]
    cases (List.range groups.length).reverse.find? fun a => decide (i ∈ groups.getD a []) <;> simp
  intro n
  induction n with
  | zero => rfl
  | succ n ih =>
    rw [umapOf_succ, List.range_succ, List.reverse_append, List.find?_append, List.reverse_singleton,
      List.singleton_append, List.find?_cons, ih]
    by_cases hm : i ∈ groups.getD n []
    · simp only [hm, decide_true]
      have : (((groups.getD n []).map fun i : Nat => ((i : Int), (n : Int))).reverse.find?
          fun e => e.1 == (i : Int)) = some ((i : Int), (n : Int)) := by
        cases hf : (((groups.getD n []).map fun i : Nat => ((i : Int), (n : Int))).reverse.find?
            fun e => e.1 == (i : Int)) with
        | none =>
          rw [List.find?_eq_none] at hf
          exact absurd (by simp) (hf ((i : Int), (n : Int))
            (by rw [List.mem_reverse, List.mem_map]; exact ⟨i, hm, rfl⟩))
        | some e =>
          have h1 := List.find?_some hf
          have h2 := List.mem_of_find?_eq_some hf
          rw [List.mem_reverse, List.mem_map] at h2
          obtain ⟨j, _, rfl⟩ := h2
          have : (j : Int) = i := by simpa using h1
          rw [this]
      rw [this]; rfl
    · simp only [hm, decide_false]
      have : (((groups.getD n []).map fun i : Nat => ((i : Int), (n : Int))).reverse.find?
          fun e => e.1 == (i : Int)) = none := by
        rw [List.find?_eq_none]
        intro e he
        rw [List.mem_reverse, List.mem_map] at he
        obtain ⟨j, hj, rfl⟩ := he
        intro hc
        have : j = i := by simpa using hc
        exact hm (this ▸ hj)
      rw [this]; rfl

/-- The entries `aggregate_csr_mat_2` appends. -/
def agg2List (M : Csr K) (groups : List (List Nat)) : List (Int × Int × K) :=
  (List.range M.nrows).flatMap fun i => (M.row i).map fun e =>
    (((Autocov.groupOf groups i : Nat) : Int), ((Autocov.groupOf groups e.1 : Nat) : Int), e.2)

theorem aggregate2Run_ok {M : Csr K} (h : M.WF) (groups : List (List Nat)) :
    aggregate2Run (arraysOf M) (idxsOf groups) (idxptrOf groups) =
      .ok (cooOf (agg2List M groups)) := by
  unfold aggregate2Run
  rw [idxptr_length, umapRun_ok, ok_bind]
  have hl : (((arraysOf M).indptr.length : Nat) : Int) - 1 = ((M.nrows : Nat) : Int) := by
    have := h.ptrLen
    simp only [arraysOf, List.length_map]; omega
  rw [hl, loop_zero]
  have h0 : (⟨[], [], []⟩ : Coo K) = cooOf [] := rfl
  rw [h0, foldlM_coo _ _ (fun i => (M.row i).map fun e =>
    (((Autocov.groupOf groups i : Nat) : Int), ((Autocov.groupOf groups e.1 : Nat) : Int), e.2))]
  · rfl
  · intro i hi L
    rw [List.mem_range] at hi
    rw [rd_indptr h i (by omega), ok_bind, rd_indptr_succ h i hi, ok_bind,
      loop_row h i hi _ _ (fun B e => .ok (B.push e.2 (Autocov.groupOf groups i : Nat)
        (Autocov.groupOf groups e.1 : Nat))),
      foldlM_coo _ _ (fun e => [(((Autocov.groupOf groups i : Nat) : Int),
        ((Autocov.groupOf groups e.1 : Nat) : Int), e.2)])]
    · rw [← List.map_eq_flatMap]
    · intro e _ L
      rw [cooOf_push]
    · intro k c x B hc hx _
      rw [hc, ok_bind, hx, ok_bind, mapAt_umapOf, mapAt_umapOf]
      rfl

end Verif.Memory
