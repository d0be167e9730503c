import Verif.Memory.Fill

/-!
# Runs of the extraction of kept rows and columns
-/

set_option linter.dupNamespace false
set_option linter.unusedSectionVars false

namespace Verif.Memory

open Verif.Csr Verif.SparseStoch

variable {K : Type} [Field K] [LinearOrder K] [IsStrictOrderedRing K]

/-- The C++ map from the kept indices to their positions. -/
def posMap (nz : List Nat) (n : Nat) : UMap :=
  ((List.range n).map fun (k : Nat) => (((nz.getD k 0 : Nat) : Int), (k : Int))).reverse

theorem posMap_run (nz : List Nat) :
    (loop 0 (((nz.map (fun x : Nat => (x : Int))).length : Nat) : Int) ([] : UMap) fun m k => do
      let v ← rd (nz.map (fun x : Nat => (x : Int))) k
      pure ((v, k) :: m)) = .ok (posMap nz nz.length) := by
  rw [List.length_map]
  obtain ⟨m, h1, h2⟩ := loop_inv 0 nz.length (Nat.zero_le _)
    (fun (m : UMap) k => do
      let v ← rd (nz.map (fun x : Nat => (x : Int))) k
      pure ((v, k) :: m)) (fun k m => m = posMap nz k)
    (by
      intro k _ hk m hm
      refine ⟨_, ?_, rfl⟩
      rw [rd_cast _ _ hk, ok_bind, hm, pure_ok]
      congr 1
      simp [posMap, List.range_succ])
    [] rfl
  rw [← h2]
  exact h1

/-- The position the routine stores for a column: the last one that holds it, or 0. -/
theorem mapAt_posMap (nz : List Nat) (c : Nat) :
    mapAt (posMap nz nz.length) c = (((btos nz c).getD 0 : Nat) : Int) := by
  unfold mapAt btos
  suffices key : ∀ n ≤ nz.length,
      ((posMap nz n).find? fun e => e.1 == (c : Int)) =
        ((List.range n).reverse.find? fun k => nz[k]? == some c).map
          fun (k : Nat) => ((c : Int), (k : Int)) by
    rw [key _ (le_refl _)]
    cases (List.range nz.length).reverse.find? fun k => nz[k]? == some c <;> simp
  intro n
  induction n with
  | zero => intro _; rfl
  | succ n ih =>
    intro hn
    have h1 : posMap nz (n + 1) = (((nz.getD n 0 : Nat) : Int), (n : Int)) :: posMap nz n := by
      simp [posMap, List.range_succ]
    have hget : nz[n]? = some (nz.getD n 0) := by
      rw [List.getD_eq_getElem?_getD, List.getElem?_eq_getElem (by omega)]; rfl
    rw [h1, List.range_succ, List.reverse_append, List.reverse_singleton, List.singleton_append,
      List.find?_cons, List.find?_cons, ih (by omega), hget]
    by_cases he : nz.getD n 0 = c
    · rw [he]; simp
    · have h2 : ((((nz.getD n 0 : Nat) : Int), (n : Int)).1 == (c : Int)) = false := by
        simp only [beq_eq_false_iff_ne]; exact_mod_cast he
      have h3 : (some (nz.getD n 0) == some c) = false := by simpa using he
      rw [h2, h3]

/-- The entries of a kept row with the positions of their columns. -/
def smallRow (T : Csr K) (nz : List Nat) (i : Nat) : List (Nat × K) :=
  (T.row i).map fun e => ((btos nz e.1).getD 0, e.2)

/-- One kept row. -/
theorem fromFullRow_run {T : Csr K} (h : T.WF) (nz : List Nat) (alloc : Nat)
    (rows : List (List (Nat × K))) (k : Nat) (hk : k < nz.length) (hin : nz.getD k 0 < T.nrows)
    (hrows : rows.length = k) (hle : rows.flatten.length ≤ alloc) :
    fromFullRowRun (arraysOf T) (posMap nz nz.length) (nz.map (fun x : Nat => (x : Int)))
      (outOf (-1) (-1) alloc (nz.length + 1) (Build.ofRows rows)) k =
      if rows.flatten.length + (T.row (nz.getD k 0)).length ≤ alloc then
        .ok (outOf (-1) (-1) alloc (nz.length + 1)
          (Build.ofRows (rows ++ [smallRow T nz (nz.getD k 0)])))
      else .error .write := by
  unfold fromFullRowRun
  rw [rd_cast _ _ hk, ok_bind, rd_indptr h _ (by omega), ok_bind, rd_indptr_succ h _ hin, ok_bind]
  have hg : ∀ (o : Out K × Int) (j : Int) (c : Nat) (x : K),
      rd (arraysOf T).indices j = .ok (c : Int) → rd (arraysOf T).data j = .ok x →
      (match o with
      | (o, nzr) => do
        let x ← rd (arraysOf T).data j
        let data ← wr o.arr.data o.pos x
        let c ← rd (arraysOf T).indices j
        let indices ← wr o.arr.indices o.pos (mapAt (posMap nz nz.length) c)
        pure (⟨⟨o.arr.indptr, indices, data⟩, o.pos + 1⟩, nzr + 1)) =
      (do
        let data ← wr o.1.arr.data o.1.pos x
        let indices ← wr o.1.arr.indices o.1.pos (((btos nz c).getD 0 : Nat) : Int)
        pure ((⟨⟨o.1.arr.indptr, indices, data⟩, o.1.pos + 1⟩ : Out K), o.2 + 1) : Run (Out K × Int)) := by
    intro o j c x hc hx
    obtain ⟨o, nzr⟩ := o
    simp only [hc, hx, ok_bind, mapAt_posMap]
  rw [loop_row h _ hin _ _ (fun o e => do
        let data ← wr o.1.arr.data o.1.pos e.2
        let indices ← wr o.1.arr.indices o.1.pos (((btos nz e.1).getD 0 : Nat) : Int)
        pure ((⟨⟨o.1.arr.indptr, indices, data⟩, o.1.pos + 1⟩ : Out K), o.2 + 1))
      (fun j c x o hc hx _ => hg o j c x hc hx)]
  have hes := entries_run (-1) (-1) alloc (nz.length + 1) (Build.ofRows rows).indptr
    (fun (o : Out K × Int) (e : Nat × K) => (do
        let data ← wr o.1.arr.data o.1.pos e.2
        let indices ← wr o.1.arr.indices o.1.pos (((btos nz e.1).getD 0 : Nat) : Int)
        pure ((⟨⟨o.1.arr.indptr, indices, data⟩, o.1.pos + 1⟩ : Out K), o.2 + 1) : Run (Out K × Int)))
    (fun e => ((btos nz e.1).getD 0, e.2)) (T.row (nz.getD k 0)) (by
      intro e _ es nzr
      simp only [outOf]
      by_cases hlt : es.length < alloc
      · rw [if_pos hlt]
        have h1 := wr_pad alloc 0 e.2 (es.map Prod.snd) (by rw [List.length_map]; exact hlt)
        have h2 := wr_pad alloc (-1) (((btos nz e.1).getD 0 : Nat) : Int)
          (es.map fun e => (e.1 : Int)) (by rw [List.length_map]; exact hlt)
        rw [List.length_map] at h1 h2
        rw [h1, ok_bind, h2, ok_bind]
        simp [pure_ok]
      · rw [if_neg hlt]
        have h1 := wr_pad_err alloc 0 e.2 (es.map Prod.snd) (by rw [List.length_map]; omega)
        rw [List.length_map] at h1
        rw [h1]; rfl)
    (Build.ofRows rows).entries 0 (by rw [ofRows_entries]; exact hle)
  rw [show outOf (-1) (-1) alloc (nz.length + 1) (Build.ofRows rows) =
    outOf (-1) (-1) alloc (nz.length + 1)
      ⟨(Build.ofRows rows).entries, (Build.ofRows rows).indptr⟩ from rfl, hes, ofRows_entries]
  split
  · rw [ok_bind]
    have hp := pointer_run (-1) (-1) alloc (nz.length + 1) rows (smallRow T nz (nz.getD k 0))
      (by omega)
    rw [hrows] at hp
    rw [← hp, ofRows_entries]
    simp only [smallRow, List.length_map]
    simp
  · rfl

/-- The number of entries the kept rows need. -/
def need (T : Csr K) (nz : List Nat) : Nat := (nz.map fun i => (T.row i).length).sum

theorem flatten_smallRows (T : Csr K) (nz l : List Nat) :
    ((l.map (smallRow T nz)).flatten).length = need T l := by
  unfold need
  rw [List.length_flatten, List.map_map]
  simp [smallRow, Function.comp_def]

/-- The rows, up to the first one that does not fit. -/
theorem fromFullLoop_run {T : Csr K} (h : T.WF) (nz : List Nat) (alloc : Nat)
    (hin : ∀ i ∈ nz, i < T.nrows) : ∀ n ≤ nz.length,
    (List.range n).foldlM (fun o (k : Nat) => fromFullRowRun (arraysOf T) (posMap nz nz.length)
        (nz.map (fun x : Nat => (x : Int))) o (k : Int))
      (outOf (-1) (-1) alloc (nz.length + 1) (Build.ofRows ([] : List (List (Nat × K))))) =
      if need T (nz.take n) ≤ alloc then
        .ok (outOf (-1) (-1) alloc (nz.length + 1) (Build.ofRows ((nz.take n).map (smallRow T nz))))
      else .error .write := by
  intro n
  induction n with
  | zero => intro _; rw [if_pos (by simp [need])]; rfl
  | succ n ih =>
    intro hn
    have hlt : n < nz.length := by omega
    have hsplit : nz.take (n + 1) = nz.take n ++ [nz[n]] := List.take_succ_eq_append_getElem hlt
    have hneed : need T (nz.take (n + 1)) = need T (nz.take n) + (T.row nz[n]).length := by
      rw [hsplit]
      unfold need
      rw [List.map_append, List.sum_append]
      simp
    have hget : nz.getD n 0 = nz[n] := by simp [hlt]
    rw [List.range_succ, List.foldlM_append, ih (by omega)]
    by_cases hle : need T (nz.take n) ≤ alloc
    · rw [if_pos hle, ok_bind, List.foldlM_cons,
        fromFullRow_run h nz alloc _ n hlt (by rw [hget]; exact hin _ (List.getElem_mem hlt))
          (by simp [Nat.min_eq_left (le_of_lt hlt)]) (by rw [flatten_smallRows]; exact hle),
        flatten_smallRows, hget, hneed]
      split
      · rw [ok_bind, hsplit, List.map_append]; rfl
      · rfl
    · rw [if_neg hle, if_neg (by omega)]; rfl

/-- What the routine does, for every well-formed matrix and every list of rows of it: numpy rejects
a negative size; the run leaves the arrays when the kept rows hold more entries than were
allocated; otherwise it returns the kept rows. -/
theorem fromFullRun_eq {T : Csr K} (h : T.WF) (nz : List Nat) (hin : ∀ i ∈ nz, i < T.nrows) :
    fromFullRun (nz.map (fun x : Nat => (x : Int))) (arraysOf T) =
      if fromFullAlloc T nz < 0 then .error .valueError
      else if fromFullAlloc T nz < need T nz then .error .write
      else .ok (outOf (-1) (-1) (fromFullAlloc T nz).toNat (nz.length + 1)
        (Build.ofRows (nz.map (smallRow T nz)))).arr := by
  unfold fromFullRun
  have hal : (((arraysOf T).data.length : Nat) : Int) - (((arraysOf T).indptr.length : Nat) : Int) + 1 +
      (((nz.map (fun x : Nat => (x : Int))).length : Nat) : Int) = fromFullAlloc T nz := by
    simp [arraysOf, fromFullAlloc]
  simp only [hal]
  by_cases h0 : fromFullAlloc T nz < 0
  · rw [if_pos h0]
    simp only [zeros, if_pos h0, err_bind]
  · rw [if_neg h0]
    have hz : ∀ {α : Type} (x : α), zeros (fromFullAlloc T nz) x =
        .ok (List.replicate (fromFullAlloc T nz).toNat x) := by
      intro α x; simp only [zeros, if_neg h0]
    have hz2 : zeros (((nz.map (fun x : Nat => (x : Int))).length : Int) + 1) (-1 : Int) =
        .ok (List.replicate (nz.length + 1) (-1)) := by
      unfold zeros
      rw [if_neg (by omega), List.length_map]
      congr 2
    rw [hz, ok_bind, hz, ok_bind, hz2, ok_bind, posMap_run, ok_bind]
    have hw : wr (List.replicate (nz.length + 1) (-1 : Int)) 0 0 =
        .ok (padTo (nz.length + 1) (-1) [(0 : Int)]) := by
      have := wr_pad (nz.length + 1) (-1 : Int) 0 [] (by simp)
      simpa [padTo] using this
    rw [hw, ok_bind, List.length_map, loop_zero]
    have hstart : (⟨⟨padTo (nz.length + 1) (-1) [(0 : Int)],
        List.replicate (fromFullAlloc T nz).toNat (-1),
        List.replicate (fromFullAlloc T nz).toNat (0 : K)⟩, 0⟩ : Out K) =
        outOf (-1) (-1) (fromFullAlloc T nz).toNat (nz.length + 1)
          (Build.ofRows ([] : List (List (Nat × K)))) := by
      simp [outOf, Build.ofRows, Build.empty, padTo]
    rw [hstart, fromFullLoop_run h nz _ hin _ (le_refl _), List.take_length]
    by_cases hle : need T nz ≤ (fromFullAlloc T nz).toNat
    · rw [if_pos hle, if_neg (by omega)]; rfl
    · rw [if_neg hle, if_pos (by omega)]; rfl

end Verif.Memory
