import Verif.Memory.Model
import Verif.Csr.Lemmas
import Verif.Autocov.Lemmas
import Verif.SparseStoch.FullLemmas
import Verif.SparseStoch.AddLemmas

/-!
# Lemmas about checked memory accesses
-/

set_option linter.dupNamespace false
set_option linter.unusedSectionVars false

namespace Verif.Memory

open Verif.Csr

variable {K : Type} [Field K] [LinearOrder K] [IsStrictOrderedRing K]

section access
variable {α σ : Type}

theorem ok_bind {β : Type} (x : α) (f : α → Run β) : ((.ok x : Run α) >>= f) = f x := rfl

theorem err_bind {β : Type} (e : Fault) (f : α → Run β) :
    ((.error e : Run α) >>= f) = .error e := rfl

theorem pure_ok (x : α) : (pure x : Run α) = .ok x := rfl

theorem rd_nat (a : List α) (n : Nat) (h : n < a.length) : rd a (n : Int) = .ok a[n] := by
  unfold rd
  rw [if_pos (Int.natCast_nonneg n)]
  simp [h]

theorem rd_nat_err (a : List α) (n : Nat) (h : a.length ≤ n) : rd a (n : Int) = .error .read := by
  unfold rd
  rw [if_pos (Int.natCast_nonneg n)]
  simp [h]

theorem rd_cast (l : List Nat) (n : Nat) (h : n < l.length) :
    rd (l.map (fun x : Nat => (x : Int))) (n : Int) = .ok ((l.getD n 0 : Nat) : Int) := by
  rw [rd_nat _ n (by simpa using h)]
  simp [h]

theorem rd_cast_succ (l : List Nat) (n : Nat) (h : n + 1 < l.length) :
    rd (l.map (fun x : Nat => (x : Int))) ((n : Int) + 1) = .ok ((l.getD (n + 1) 0 : Nat) : Int) :=
  rd_cast l (n + 1) h

theorem wr_nat (a : List α) (n : Nat) (x : α) (h : n < a.length) :
    wr a (n : Int) x = .ok (a.set n x) := by
  unfold wr
  rw [if_pos ⟨Int.natCast_nonneg n, by simpa using h⟩]
  simp

theorem wr_nat_err (a : List α) (n : Nat) (x : α) (h : a.length ≤ n) :
    wr a (n : Int) x = .error .write := by
  unfold wr
  rw [if_neg]
  rintro ⟨_, h2⟩
  simp at h2
  omega

theorem rd_append (a b : List α) (x : α) : rd (a ++ x :: b) (a.length : Int) = .ok x := by
  rw [rd_nat _ _ (by simp)]
  simp

theorem wr_append (a b : List α) (x y : α) :
    wr (a ++ x :: b) (a.length : Int) y = .ok (a ++ y :: b) := by
  rw [wr_nat _ _ _ (by simp)]
  simp

theorem loop_nat (p q : Nat) (s : σ) (f : σ → Int → Run σ) :
    loop (p : Int) (q : Int) s f = (List.range (q - p)).foldlM (fun s d => f s ((p + d : Nat) : Int)) s := by
  unfold loop
  have : ((q : Int) - (p : Int)).toNat = q - p := by omega
  rw [this]
  simp

theorem loop_zero (q : Nat) (s : σ) (f : σ → Int → Run σ) :
    loop 0 (q : Int) s f = (List.range q).foldlM (fun s (d : Nat) => f s (d : Int)) s := by
  have := loop_nat 0 q s f
  simpa using this

theorem foldlM_congr_mem {β : Type} (l : List β) (f g : σ → β → Run σ) :
    ∀ s : σ, (∀ x ∈ l, ∀ s, f s x = g s x) → l.foldlM f s = l.foldlM g s := by
  induction l with
  | nil => intro s _; rfl
  | cons x l ih =>
    intro s h
    rw [List.foldlM_cons, List.foldlM_cons, h x (by simp)]
    congr 1
    funext s'
    exact ih s' fun y hy => h y (by simp [hy])

/-- A loop over the positions of a list is a loop over its elements. -/
theorem foldlM_range (l : List α) (f : σ → Nat → Run σ) (g : σ → α → Run σ) (s : σ)
    (h : ∀ d (hd : d < l.length) s, f s d = g s l[d]) :
    (List.range l.length).foldlM f s = l.foldlM g s := by
  have key : ∀ (l' : List α) (off : Nat) (s : σ),
      (∀ d (hd : d < l'.length) s, f s (off + d) = g s l'[d]) →
      (List.range' off l'.length).foldlM f s = l'.foldlM g s := by
    intro l'
    induction l' with
    | nil => intro off s _; rfl
    | cons a l' ih =>
      intro off s h'
      rw [List.length_cons, List.range'_succ, List.foldlM_cons, List.foldlM_cons]
      have h0 := h' 0 (by simp) s
      simp only [Nat.add_zero, List.getElem_cons_zero] at h0
      rw [h0]
      congr 1
      funext s'
      apply ih
      intro d hd s
      have := h' (d + 1) (by simpa using hd) s
      rw [show off + 1 + d = off + (d + 1) by omega, this]
      simp
  rw [List.range_eq_range']
  apply key
  intro d hd s
  simpa using h d hd s

theorem foldlM_pure (l : List α) (g : σ → α → σ) : ∀ s : σ,
    l.foldlM (fun s x => (Except.ok (g s x) : Run σ)) s = .ok (l.foldl g s) := by
  induction l with
  | nil => intro s; rfl
  | cons a l ih => intro s; rw [List.foldlM_cons]; exact ih _

/-- Invariants of a loop: the run does not end early. -/
theorem loop_inv (p q : Nat) (hpq : p ≤ q) (f : σ → Int → Run σ) (I : Nat → σ → Prop)
    (step : ∀ k, p ≤ k → k < q → ∀ s, I k s → ∃ s', f s (k : Int) = .ok s' ∧ I (k + 1) s')
    (s : σ) (h0 : I p s) : ∃ s', loop (p : Int) (q : Int) s f = .ok s' ∧ I q s' := by
  rw [loop_nat]
  have key : ∀ n, p + n ≤ q → ∃ s', (List.range n).foldlM (fun s d => f s ((p + d : Nat) : Int)) s =
      .ok s' ∧ I (p + n) s' := by
    intro n
    induction n with
    | zero => intro _; exact ⟨s, rfl, h0⟩
    | succ n ih =>
      intro hn
      obtain ⟨s1, h1, h2⟩ := ih (by omega)
      obtain ⟨s2, h3, h4⟩ := step (p + n) (by omega) (by omega) s1 h2
      refine ⟨s2, ?_, h4⟩
      rw [List.range_succ, List.foldlM_append, h1]
      rw [ok_bind, List.foldlM_cons, h3]
      rfl
  have := key (q - p) (by omega)
  rwa [show p + (q - p) = q by omega] at this

end access

/-! ## Loops over a row -/

theorem rd_indptr {M : Csr K} (h : M.WF) (i : Nat) (hi : i ≤ M.nrows) :
    rd (arraysOf M).indptr (i : Int) = .ok ((M.indptr.getD i 0 : Nat) : Int) :=
  rd_cast _ _ (by have := h.ptrLen; omega)

theorem rd_indptr_succ {M : Csr K} (h : M.WF) (i : Nat) (hi : i < M.nrows) :
    rd (arraysOf M).indptr ((i : Int) + 1) = .ok ((M.indptr.getD (i + 1) 0 : Nat) : Int) :=
  rd_indptr h (i + 1) hi

/-- The loop `for k in range(indptr[i], indptr[i+1])` over `indices[k]`, `data[k]` runs through the
stored entries of the row and makes no stray access. -/
theorem loop_row {σ : Type} {M : Csr K} (h : M.WF) (i : Nat) (hi : i < M.nrows) (s : σ)
    (f : σ → Int → Run σ) (g : σ → Nat × K → Run σ)
    (hf : ∀ (k : Int) (c : Nat) (x : K) (s : σ), rd (arraysOf M).indices k = .ok (c : Int) →
      rd (arraysOf M).data k = .ok x → (c, x) ∈ M.row i → f s k = g s (c, x)) :
    loop ((M.indptr.getD i 0 : Nat) : Int) ((M.indptr.getD (i + 1) 0 : Nat) : Int) s f =
      (M.row i).foldlM g s := by
  rw [loop_nat, ← h.row_length i hi]
  apply foldlM_range
  intro d hd s
  have h1 := h.ptr_le (i + 1) M.nrows (by omega) (le_refl _)
  have h2 := h.mono i hi
  have h3 := h.row_length i hi
  have h4 := h.last
  have h5 := h.lens
  have hlt : M.indptr.getD i 0 + d < M.data.length := by omega
  have hent : (M.row i)[d] = (M.indices[M.indptr.getD i 0 + d]'(by omega),
      M.data[M.indptr.getD i 0 + d]'hlt) := by
    simp [Csr.row]
  rw [hent]
  apply hf
  · unfold arraysOf
    rw [rd_cast _ _ (by omega), List.getD_eq_getElem?_getD, List.getElem?_eq_getElem (by omega)]
    rfl
  · exact rd_nat _ _ hlt
  · rw [← hent]; exact List.getElem_mem _

theorem cast_mem (c : Nat) (l : List Nat) :
    ((c : Int) ∈ l.map (fun x : Nat => (x : Int))) ↔ c ∈ l := by
  simp

end Verif.Memory
