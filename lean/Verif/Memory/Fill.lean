import Verif.Memory.Lemmas

/-!
# Output arrays filled from the left
-/

set_option linter.dupNamespace false
set_option linter.unusedSectionVars false

namespace Verif.Memory

open Verif.Csr Verif.SparseStoch

variable {K : Type} [Field K] [LinearOrder K] [IsStrictOrderedRing K]

/-- A list followed by a filler up to a given length. -/
def padTo {α : Type} (n : Nat) (z : α) (L : List α) : List α := L ++ List.replicate (n - L.length) z

theorem padTo_length {α : Type} (n : Nat) (z : α) (L : List α) (h : L.length ≤ n) :
    (padTo n z L).length = n := by
  simp [padTo]; omega

theorem wr_pad {α : Type} (n : Nat) (z x : α) (L : List α) (h : L.length < n) :
    wr (padTo n z L) (L.length : Int) x = .ok (padTo n z (L ++ [x])) := by
  unfold padTo
  rw [show n - L.length = (n - (L ++ [x]).length) + 1 by simp; omega, List.replicate_succ, wr_append]
  simp

theorem wr_pad_err {α : Type} (n : Nat) (z x : α) (L : List α) (h : n ≤ L.length) :
    wr (padTo n z L) (L.length : Int) x = .error .write :=
  wr_nat_err _ _ _ (by simp [padTo]; omega)

theorem rd_pad {α : Type} (n : Nat) (z : α) (L : List α) (i : Nat) (h : i < L.length) :
    rd (padTo n z L) (i : Int) = .ok L[i] := by
  unfold padTo
  rw [rd_nat _ _ (by rw [List.length_append]; omega), List.getElem_append_left h]

/-- The output arrays that hold the entries and row pointers written so far; `z` fills `indices`,
`y` fills `indptr`. -/
def outOf (z y : Int) (alloc nptr : Nat) (b : Build K) : Out K :=
  ⟨⟨padTo nptr y (b.indptr.map (fun x : Nat => (x : Int))),
    padTo alloc z (b.entries.map fun e => (e.1 : Int)), padTo alloc 0 (b.entries.map Prod.snd)⟩,
    b.entries.length⟩

/-- A loop that writes the entries of a row one after the other: it stays inside the arrays exactly
when they are long enough. -/
theorem entries_run {β : Type} (z y : Int) (alloc nptr : Nat) (ptr : List Nat)
    (g : Out K × Int → β → Run (Out K × Int)) (h : β → Nat × K) (l : List β)
    (hg : ∀ b ∈ l, ∀ es nzr, g (outOf z y alloc nptr ⟨es, ptr⟩, nzr) b =
      if es.length < alloc then .ok (outOf z y alloc nptr ⟨es ++ [h b], ptr⟩, nzr + 1)
      else .error .write) :
    ∀ (es : List (Nat × K)) (nzr : Int), es.length ≤ alloc →
      l.foldlM g (outOf z y alloc nptr ⟨es, ptr⟩, nzr) =
        if es.length + l.length ≤ alloc then
          .ok (outOf z y alloc nptr ⟨es ++ l.map h, ptr⟩, nzr + l.length)
        else .error .write := by
  induction l with
  | nil =>
    intro es nzr hes
    rw [if_pos (by simpa using hes)]
    simp [pure_ok]
  | cons b l ih =>
    intro es nzr hes
    rw [List.foldlM_cons, hg b (by simp)]
    by_cases h1 : es.length < alloc
    · rw [if_pos h1, ok_bind, ih (fun b' hb' => hg b' (by simp [hb'])) _ _ (by simp; omega)]
      simp only [List.length_append, List.length_cons, List.length_nil]
      rw [show es.length + (0 + 1) + l.length = es.length + (l.length + 1) by omega]
      split
      · congr 2
        · simp
        · push_cast; ring
      · rfl
    · rw [if_neg h1, err_bind, if_neg (by simp; omega)]

/-- The last row pointer is the number of entries, and the next one is written behind it. -/
theorem pointer_run (z y : Int) (alloc nptr : Nat) (rows : List (List (Nat × K))) (r : List (Nat × K))
    (hn : rows.length + 1 < nptr) :
    (do let o := outOf z y alloc nptr ⟨(Build.ofRows rows).entries ++ r, (Build.ofRows rows).indptr⟩
        let p ← rd o.arr.indptr (rows.length : Int)
        let indptr ← wr o.arr.indptr ((rows.length : Int) + 1) (p + (r.length : Int))
        pure (⟨{ o.arr with indptr := indptr }, o.pos⟩ : Out K)) =
      .ok (outOf z y alloc nptr (Build.ofRows (rows ++ [r]))) := by
  have hlen : (Build.ofRows rows).indptr.length = rows.length + 1 := by
    rw [ofRows_indptr]; simp
  have h1 : rd (padTo nptr y ((Build.ofRows rows).indptr.map (fun x : Nat => (x : Int))))
      (rows.length : Int) = .ok (((rows.flatten).length : Nat) : Int) := by
    rw [rd_pad _ _ _ _ (by rw [List.length_map]; omega)]
    simp only [ofRows_indptr, List.getElem_map, List.getElem_range, List.take_length]
  have h2 := wr_pad nptr y (((rows.flatten).length : Nat) + (r.length : Int))
    ((Build.ofRows rows).indptr.map (fun x : Nat => (x : Int)))
    (by rw [List.length_map, hlen]; exact hn)
  rw [List.length_map, hlen] at h2
  simp only [outOf]
  rw [h1, ok_bind, show ((rows.length : Int) + 1) = ((rows.length + 1 : Nat) : Int) by push_cast; rfl, h2,
    ok_bind, ofRows_snoc]
  simp only [Build.push, pure_ok, ofRows_entries]
  simp

end Verif.Memory
