import Verif.Memory.Lemmas

/-!
# Runs of the row normalisation
-/

set_option linter.dupNamespace false
set_option linter.unusedSectionVars false

namespace Verif.Memory

open Verif.Csr Verif.SparseStoch

variable {K : Type} [Field K] [LinearOrder K] [IsStrictOrderedRing K]

theorem getElem_mid {α : Type} (P R S : List α) (d : Nat) (hd : d < R.length)
    (h : P.length + d < (P ++ R ++ S).length) : (P ++ R ++ S)[P.length + d] = R[d] := by
  rw [List.getElem_append_left (by rw [List.length_append]; omega), List.getElem_append_right (by omega)]
  simp

theorem sumLoop_ok (P R S : List K) :
    (loop (P.length : Int) ((P.length + R.length : Nat) : Int) (0 : K) fun s j => do
      let x ← rd (P ++ R ++ S) j
      pure (s + x)) = .ok R.sum := by
  rw [loop_nat, Nat.add_sub_cancel_left, foldlM_range R _ (fun s x => .ok (s + x)), foldlM_pure]
  · rw [List.sum_eq_foldl]
  · intro d hd s
    rw [rd_nat _ _ (by simp only [List.length_append]; omega), getElem_mid _ _ _ _ hd]
    rfl

theorem mapLoop_ok (f : K → K) (P R S : List K) :
    (loop (P.length : Int) ((P.length + R.length : Nat) : Int) (P ++ R ++ S) fun data j => do
      let x ← rd data j
      wr data j (f x)) = .ok (P ++ R.map f ++ S) := by
  obtain ⟨d, h1, h2⟩ := loop_inv P.length (P.length + R.length) (by omega)
    (fun (data : List K) j => do
      let x ← rd data j
      wr data j (f x))
    (fun k data => data = P ++ ((R.take (k - P.length)).map f ++ R.drop (k - P.length)) ++ S)
    (by
      intro k hk1 hk2 data hdata
      refine ⟨_, ?_, rfl⟩
      obtain ⟨d, rfl⟩ : ∃ d, k = P.length + d := ⟨k - P.length, by omega⟩
      have hd : d < R.length := by omega
      rw [Nat.add_sub_cancel_left] at hdata
      have hform : data = (P ++ (R.take d).map f) ++ R[d] :: (R.drop (d + 1) ++ S) := by
        rw [hdata, List.drop_eq_getElem_cons hd]
        simp only [List.append_assoc, List.cons_append]
      have hlen : (P ++ (R.take d).map f).length = P.length + d := by
        simp [Nat.min_eq_left (le_of_lt hd)]
      have hx : rd data ((P.length + d : Nat) : Int) = .ok R[d] := by
        rw [hform, ← hlen]; exact rd_append _ _ _
      rw [hx, ok_bind, hform, ← hlen, wr_append, hlen,
        show P.length + d + 1 - P.length = d + 1 by omega, List.take_succ_eq_append_getElem hd]
      simp only [List.append_assoc, List.cons_append, List.map_append, List.map_cons, List.map_nil,
        List.nil_append])
    (P ++ R ++ S) (by simp)
  rw [h1, h2]
  simp

/-- The part of the data array that holds the row. -/
theorem data_row {M : Csr K} (h : M.WF) (i : Nat) (hi : i < M.nrows) :
    M.data.drop (M.indptr.getD i 0) =
      (M.row i).map Prod.snd ++ M.data.drop (M.indptr.getD (i + 1) 0) := by
  have h2 := h.mono i hi
  have : (M.row i).map Prod.snd =
      (M.data.drop (M.indptr.getD i 0)).take (M.indptr.getD (i + 1) 0 - M.indptr.getD i 0) := by
    unfold Csr.row
    rw [List.map_take, List.map_drop, List.map_snd_zip (by rw [h.lens])]
  rw [this]
  conv_lhs => rw [← List.take_append_drop (M.indptr.getD (i + 1) 0 - M.indptr.getD i 0)
    (M.data.drop (M.indptr.getD i 0))]
  rw [List.drop_drop, show M.indptr.getD i 0 + (M.indptr.getD (i + 1) 0 - M.indptr.getD i 0) =
    M.indptr.getD (i + 1) 0 by omega]

/-- The target is read only where the sum of the row is not zero. -/
theorem normRowRun_ok {M : Csr K} (h : M.WF) (i : Nat) (hi : i < M.nrows) (target : Run K) (t : K)
    (ht : target = .ok t) (P : List K) (hP : P.length = M.indptr.getD i 0) :
    normRowRun (arraysOf M).indptr target (P ++ M.data.drop (M.indptr.getD i 0)) i =
      .ok ((P ++ normVals .compiled t ((M.row i).map Prod.snd)) ++
        M.data.drop (M.indptr.getD (i + 1) 0)) := by
  unfold normRowRun
  have hhi : M.indptr.getD (i + 1) 0 = P.length + ((M.row i).map Prod.snd).length := by
    have h1 := h.row_length i hi
    have h2 := h.mono i hi
    rw [List.length_map]; omega
  rw [rd_indptr h i (by omega), ok_bind, rd_indptr_succ h i hi, ok_bind, data_row h i hi,
    ← List.append_assoc, hhi, ← hP, sumLoop_ok, ok_bind]
  unfold normVals
  split
  · rfl
  · rw [ht, ok_bind]
    split
    · rw [mapLoop_ok]
      congr 3
      push_cast
      simp
    · rw [mapLoop_ok]

theorem normalizeArray_gen {M : Csr K} (h : M.WF) (f : List K → Int → Run (List K)) (t : Nat → K)
    (hf : ∀ i < M.nrows, ∀ P : List K, P.length = M.indptr.getD i 0 →
      f (P ++ M.data.drop (M.indptr.getD i 0)) i =
      .ok ((P ++ normVals .compiled (t i) ((M.row i).map Prod.snd)) ++
        M.data.drop (M.indptr.getD (i + 1) 0))) :
    loop 0 (M.nrows : Int) M.data f = .ok (normData .compiled t M) := by
  obtain ⟨d, h1, h2⟩ := loop_inv 0 M.nrows (Nat.zero_le _) f
    (fun k data => ∃ P : List K, P.length = M.indptr.getD k 0 ∧
      P = ((List.range k).flatMap fun i => normVals .compiled (t i) ((M.row i).map Prod.snd)) ∧
      data = P ++ M.data.drop (M.indptr.getD k 0))
    (by
      rintro k _ hk data ⟨P, hP, hP2, rfl⟩
      refine ⟨_, hf k hk P hP, _, ?_, ?_, rfl⟩
      · rw [List.length_append, hP, normVals_length, List.length_map, h.row_length k hk]
        have := h.mono k hk
        omega
      · rw [List.range_succ, List.flatMap_append, hP2]
        simp)
    M.data ⟨[], by rw [h.ptrZero]; rfl, rfl, by rw [h.ptrZero]; rfl⟩
  rw [show ((0 : Nat) : Int) = 0 from rfl] at h1
  rw [h1]
  obtain ⟨P, _, hP2, h3⟩ := h2
  rw [h3, h.last, List.drop_length, List.append_nil, hP2]
  rfl

theorem normalizeRun_ok {M : Csr K} (h : M.WF) (t : K) :
    normalizeRun M.data (arraysOf M).indptr M.nrows t = .ok (rowNormalize .compiled t M).data :=
  normalizeArray_gen h _ (fun _ => t) fun i hi P hP => normRowRun_ok h i hi _ t rfl P hP

theorem normalizeArrayRun_ok {M : Csr K} (h : M.WF) (t : List K) (ht : t.length = M.nrows) :
    normalizeArrayRun M.data (arraysOf M).indptr M.nrows t =
      .ok (rowNormalizeArray (fun i => t.getD i 0) M).data :=
  normalizeArray_gen h _ (fun i => t.getD i 0) fun i hi P hP =>
    normRowRun_ok h i hi _ (t.getD i 0)
      (by rw [rd_nat _ i (by omega)]; simp [show i < t.length by omega]) P hP

end Verif.Memory
