import Verif.Triu.Model
import Mathlib.Tactic.FieldSimp
import Mathlib.Data.Rat.Cast.Order
import Mathlib.Algebra.Order.Ring.Rat

/-!
# C77: normalisation of a symmetric matrix stored as its upper triangle
-/

set_option linter.dupNamespace false
set_option linter.unusedSectionVars false

namespace Verif.Triu

open Verif.Csr

variable {K : Type} [Field K] [LinearOrder K] [IsStrictOrderedRing K]

/-- The matrix that the upper triangle stands for: `T + T.T - diag(T)`. -/
def full (R : Rows K) (i j : Nat) : K :=
  sumAt (R i) j + sumAt (R j) i - if i = j then sumAt (R i) i else 0

/-- Only entries on and above the diagonal are stored, within the matrix. -/
def Upper (n : Nat) (R : Rows K) : Prop := ∀ i, ∀ e ∈ R i, i ≤ e.1 ∧ e.1 < n

/-- Row sum of the upper triangle alone. -/
def rowSum (R : Rows K) (i : Nat) : K := ((R i).map Prod.snd).sum

/-- Row `k` has a target other than zero, or neither row nor column `k` has entries and its target
is zero. -/
def Targeted (n : Nat) (r : Nat → K) (R : Rows K) (k : Nat) : Prop :=
  r k ≠ 0 ∨ (r k = 0 ∧ ∀ i < n, ∀ e ∈ R i, e.1 ≠ k ∧ i ≠ k)

theorem pass_low (n : Nat) (r : Nat → K) {k i : Nat} (R : Rows K) (h : i < k ∨ n ≤ i) :
    pass n r k R i = R i := by
  unfold pass
  rw [if_neg (by omega)]

theorem pass_cols (n : Nat) (r : Nat → K) (k : Nat) (R : Rows K) (i : Nat) :
    (pass n r k R i).map Prod.fst = (R i).map Prod.fst := by
  unfold pass
  split
  · dsimp only
    split
    · rfl
    · rw [List.map_map]
      rfl
  · rfl

theorem passes_succ (n : Nat) (r : Nat → K) (m : Nat) (R : Rows K) :
    passes n r (m + 1) R = if r m ≠ 0 then pass n r m (passes n r m R) else passes n r m R := by
  unfold passes
  rw [List.range_succ, List.foldl_append]
  rfl

theorem passes_cols (n : Nat) (r : Nat → K) (R : Rows K) (i : Nat) : ∀ m,
    (passes n r m R i).map Prod.fst = (R i).map Prod.fst
  | 0 => rfl
  | m + 1 => by
    rw [passes_succ]
    split
    · rw [pass_cols, passes_cols n r R i m]
    · exact passes_cols n r R i m

theorem passes_later (n : Nat) (r : Nat → K) (R : Rows K) {i m : Nat} (hi : i < m) : ∀ d,
    passes n r (m + d) R i = passes n r m R i
  | 0 => rfl
  | d + 1 => by
    rw [← Nat.add_assoc, passes_succ]
    split
    · rw [pass_low n r _ (Or.inl (by omega))]
      exact passes_later n r R hi d
    · exact passes_later n r R hi d

theorem upper_passes {n : Nat} (r : Nat → K) {R : Rows K} (h : Upper n R) (m : Nat) :
    Upper n (passes n r m R) := by
  intro i e he
  have h1 : e.1 ∈ (passes n r m R i).map Prod.fst := List.mem_map.mpr ⟨e, he, rfl⟩
  rw [passes_cols] at h1
  obtain ⟨f, hf, hfe⟩ := List.mem_map.mp h1
  rw [← hfe]
  exact h i f hf

/-- Entries below the diagonal are zero. -/
theorem upper_zero {n : Nat} {R : Rows K} (h : Upper n R) {i j : Nat} (hij : j < i) :
    sumAt (R i) j = 0 :=
  sumAt_eq_zero _ _ fun e he => by
    have := (h i e he).1
    omega

theorem colSum_eq {n : Nat} {R : Rows K} (h : Upper n R) {k : Nat} (hk : k < n) :
    colSum n R k = ∑ j ∈ Finset.range k, sumAt (R j) k + diagOf R k := by
  unfold colSum diagOf
  obtain ⟨d, rfl⟩ : ∃ d, n = (k + 1) + d := ⟨n - (k + 1), by omega⟩
  rw [Finset.sum_range_add, Finset.sum_range_succ, add_eq_left]
  refine Finset.sum_eq_zero fun j _ => upper_zero h (by omega)

/-- The row sum of the symmetric matrix. -/
theorem full_sum {n : Nat} {R : Rows K} (h : Upper n R) {k : Nat} (hk : k < n) :
    ∑ j ∈ Finset.range n, full R k j = rowSum R k + ∑ j ∈ Finset.range k, sumAt (R j) k := by
  unfold full
  rw [Finset.sum_sub_distrib, Finset.sum_add_distrib, sum_sumAt (R k) n fun e he => (h k e he).2]
  have h1 := colSum_eq h hk
  unfold colSum at h1
  rw [h1, Finset.sum_ite_eq, if_pos (Finset.mem_range.mpr hk)]
  unfold rowSum diagOf
  ring

theorem scaled_sum (l : List (Nat × K)) (t : K) (h : (l.map Prod.snd).sum ≠ 0) :
    ((l.map fun e => (e.1, e.2 / ((l.map Prod.snd).sum / t))).map Prod.snd).sum = t := by
  have h1 : ∀ (c : K) (l : List (Nat × K)),
      ((l.map fun e => (e.1, e.2 / c)).map Prod.snd).sum = (l.map Prod.snd).sum / c := by
    intro c l
    induction l with
    | nil => simp
    | cons a l ih =>
      simp only [List.map_cons, List.sum_cons] at ih ⊢
      rw [ih]
      ring
  rw [h1]
  by_cases ht : t = 0
  · subst ht
    simp
  · field_simp

/-- The row of the upper triangle right after its own pass. -/
theorem rowSum_pass {n : Nat} (r : Nat → K) {R : Rows K} (h : Upper n R) {k : Nat} (hk : k < n)
    (hs : rowSum R k ≠ 0) :
    rowSum (pass n r k R) k = r k - ∑ j ∈ Finset.range k, sumAt (R j) k := by
  unfold rowSum at hs ⊢
  unfold pass
  rw [if_pos ⟨le_refl k, hk⟩]
  dsimp only
  rw [if_neg hs, scaled_sum _ _ hs, colSum_eq h hk]
  ring

theorem passes_final (n : Nat) (r : Nat → K) (R : Rows K) {i m : Nat} (hi : i < m) (hm : m ≤ n) :
    passes n r n R i = passes n r m R i := by
  obtain ⟨d, rfl⟩ : ∃ d, n = m + d := ⟨n - m, by omega⟩
  exact passes_later _ r R hi d

/-- **C77**, exactly: after normalisation, a row of the symmetric matrix with a target other than
zero has the target as its sum if the row of the upper triangle does not sum to zero when its turn
comes, and otherwise keeps whatever the rows above give it. -/
theorem C77_row (n : Nat) (r : Nat → K) (R R' : Rows K) (hU : Upper n R)
    (h : normalizeTriu n n r R = some R') {k : Nat} (hk : k < n) (hr : r k ≠ 0) :
    (rowSum (passes n r k R) k ≠ 0 → ∑ j ∈ Finset.range n, full R' k j = r k) ∧
    (rowSum (passes n r k R) k = 0 →
      ∑ j ∈ Finset.range n, full R' k j = ∑ j ∈ Finset.range k, full R' k j) := by
  unfold normalizeTriu at h
  rw [if_pos rfl] at h
  cases h
  have hU' := upper_passes r hU n
  have hUk := upper_passes r hU k
  rw [full_sum hU' hk]
  have e1 : ∀ j < k, passes n r n R j = passes n r k R j := fun j hj =>
    passes_final n r R hj (by omega)
  have e2 : passes n r n R k = pass n r k (passes n r k R) k := by
    rw [passes_final n r R (Nat.lt_succ_self k) hk, passes_succ, if_pos hr]
  have e3 : ∑ j ∈ Finset.range k, sumAt (passes n r n R j) k =
      ∑ j ∈ Finset.range k, sumAt (passes n r k R j) k :=
    Finset.sum_congr rfl fun j hj => by rw [e1 j (Finset.mem_range.mp hj)]
  have e4 : rowSum (passes n r n R) k = rowSum (pass n r k (passes n r k R)) k := by
    unfold rowSum
    rw [e2]
  constructor
  · intro hs
    rw [e3, e4, rowSum_pass r hUk hk hs]
    ring
  · intro hs
    have e5 : rowSum (pass n r k (passes n r k R)) k = 0 := by
      unfold rowSum at hs ⊢
      unfold pass
      rw [if_pos ⟨le_refl k, hk⟩]
      dsimp only
      rw [if_pos hs, hs]
    rw [e4, e5, zero_add]
    refine Finset.sum_congr rfl fun j hj => ?_
    have hj := Finset.mem_range.mp hj
    unfold full
    rw [if_neg (by omega), upper_zero hU' hj]
    ring

/-- **C77, partial.** The symmetric matrix has the given row and column sums after normalisation,
if no row of the upper triangle sums to zero when its turn comes.  Missing: rows that do, although
they did not before normalisation, see `C77_violated`, and zero targets for rows with entries, see
`C77_zero_target_violated`. -/
theorem C77_normalised_partial (n : Nat) (r : Nat → K) (R R' : Rows K) (hU : Upper n R)
    (h : normalizeTriu n n r R = some R') (ht : ∀ k < n, Targeted n r R k)
    (hs : ∀ k < n, r k ≠ 0 → rowSum (passes n r k R) k ≠ 0) {k : Nat} (hk : k < n) :
    ∑ j ∈ Finset.range n, full R' k j = r k ∧ ∑ j ∈ Finset.range n, full R' j k = r k := by
  have h1 : ∑ j ∈ Finset.range n, full R' k j = r k := by
    rcases ht k hk with hr | ⟨hr, he⟩
    · exact (C77_row n r R R' hU h hk hr).1 (hs k hk hr)
    · unfold normalizeTriu at h
      rw [if_pos rfl] at h
      cases h
      rw [hr]
      have hcol : ∀ i < n, ∀ j < n, i = k ∨ j = k → sumAt (passes n r n R i) j = 0 := by
        intro i hi j hj hij
        refine sumAt_eq_zero _ _ fun e hm => ?_
        have h2 : e.1 ∈ (passes n r n R i).map Prod.fst := List.mem_map.mpr ⟨e, hm, rfl⟩
        rw [passes_cols] at h2
        obtain ⟨f, hf, hfe⟩ := List.mem_map.mp h2
        have h3 := he i hi f hf
        rcases hij with rfl | rfl
        · exact absurd rfl h3.2
        · rw [← hfe]
          exact h3.1
      refine Finset.sum_eq_zero fun j hj => ?_
      have hj := Finset.mem_range.mp hj
      unfold full
      rw [hcol k hk j hj (Or.inl rfl), hcol j hj k hk (Or.inr rfl), hcol k hk k hk (Or.inl rfl)]
      simp
  refine ⟨h1, ?_⟩
  rw [← h1]
  refine Finset.sum_congr rfl fun j _ => ?_
  unfold full
  by_cases hjk : j = k
  · subst hjk; rfl
  · rw [if_neg hjk, if_neg (Ne.symm hjk)]
    ring

/-- **C77**: the pattern of stored entries never changes. -/
theorem C77_pattern (n : Nat) (r : Nat → K) (R R' : Rows K) (h : normalizeTriu n n r R = some R')
    (i : Nat) : (R' i).map Prod.fst = (R i).map Prod.fst := by
  unfold normalizeTriu at h
  rw [if_pos rfl] at h
  cases h
  exact passes_cols n r R i n

theorem pass_scales (n : Nat) (r : Nat → K) (k : Nat) (R : Rows K) (i : Nat) :
    ∃ c : K, pass n r k R i = (R i).map fun e => (e.1, c * e.2) := by
  unfold pass
  split
  · dsimp only
    split
    · exact ⟨1, by simp⟩
    · refine ⟨((((R i).map Prod.snd).sum / (r i + diagOf R i - colSum n R i))⁻¹), ?_⟩
      refine List.map_congr_left fun e _ => ?_
      rw [div_eq_inv_mul]
  · exact ⟨1, by simp⟩

/-- **C77**: the entries of a row of the upper triangle keep their ratios. -/
theorem C77_ratios (n : Nat) (r : Nat → K) (R R' : Rows K) (h : normalizeTriu n n r R = some R')
    (i : Nat) : ∃ c : K, R' i = (R i).map fun e => (e.1, c * e.2) := by
  unfold normalizeTriu at h
  rw [if_pos rfl] at h
  cases h
  have : ∀ m, ∃ c : K, passes n r m R i = (R i).map fun e => (e.1, c * e.2) := by
    intro m
    induction m with
    | zero => exact ⟨1, by simp [passes]⟩
    | succ m ih =>
      obtain ⟨c, hc⟩ := ih
      rw [passes_succ]
      split
      · obtain ⟨c', hc'⟩ := pass_scales n r m (passes n r m R) i
        refine ⟨c' * c, ?_⟩
        rw [hc', hc, List.map_map]
        refine List.map_congr_left fun e _ => ?_
        simp [mul_assoc]
      · exact ⟨c, hc⟩
  exact this n

/-- **C77**: a matrix that is normalised already stays as it is. -/
theorem C77_idempotent (n : Nat) (r : Nat → K) (R R' : Rows K) (hU : Upper n R)
    (h : normalizeTriu n n r R = some R')
    (hn : ∀ k < n, ∑ j ∈ Finset.range n, full R k j = r k) : R' = R := by
  unfold normalizeTriu at h
  rw [if_pos rfl] at h
  cases h
  have hp : ∀ k, pass n r k R = R := by
    intro k
    funext i
    unfold pass
    split
    · rename_i hi
      dsimp only
      split
      · rfl
      · rename_i hs
        have h1 := hn i hi.2
        rw [full_sum hU hi.2] at h1
        have h2 : r i + diagOf R i - colSum n R i = ((R i).map Prod.snd).sum := by
          rw [colSum_eq hU hi.2, ← h1]
          unfold rowSum
          ring
        rw [h2, div_self hs]
        simp
    · rfl
  have : ∀ m, passes n r m R = R := by
    intro m
    induction m with
    | zero => rfl
    | succ m ih =>
      rw [passes_succ, ih, hp]
      simp
  exact this n

/-- A matrix that is not square is refused. -/
theorem C77_refused (nrow ncol : Nat) (r : Nat → K) (R : Rows K) :
    normalizeTriu nrow ncol r R = none ↔ nrow ≠ ncol := by
  unfold normalizeTriu
  split <;> simp_all

/-- The upper triangle of a two by two matrix of ones. -/
def exOnes : Rows ℚ := fun i => if i = 0 then [(0, 1), (1, 1)] else if i = 1 then [(1, 1)] else []

/-- **C77, violated.** The matrix of ones has no empty row and only positive entries.  Normalised to
row sums of one, its second row sums to one half: the first pass multiplies it by zero, and a
row of zeros is skipped by the second pass. -/
theorem C77_violated : Upper 2 exOnes ∧ (∀ i < 2, ∀ e ∈ exOnes i, 0 < e.2) ∧ (∀ i < 2, exOnes i ≠ []) ∧
    ∃ R', normalizeTriu 2 2 (fun _ => 1) exOnes = some R' ∧ ∑ j ∈ Finset.range 2, full R' 1 j = 1 / 2 := by
  refine ⟨?_, ?_, ?_, _, rfl, by decide +kernel⟩
  · intro i e he
    by_cases h0 : i = 0
    · subst h0
      simp [exOnes] at he
      rcases he with rfl | rfl <;> simp
    · by_cases h1 : i = 1
      · subst h1
        simp [exOnes] at he
        subst he
        simp
      · simp [exOnes, h0, h1] at he
  · decide +kernel
  · decide +kernel

/-- The upper triangle of a two by two matrix. -/
def exZero : Rows ℚ := fun i => if i = 0 then [(0, 1), (1, 1)] else if i = 1 then [(1, 2)] else []

/-- **C77, violated for a target of zero**: a row with entries and the target zero, after another row,
gets another sum. -/
theorem C77_zero_target_violated : ∃ R', normalizeTriu 2 2 (fun i => if i = 0 then 1 else 0) exZero = some R' ∧
    ∑ j ∈ Finset.range 2, full R' 1 j = -(1 / 2) := by
  exact ⟨_, rfl, by decide +kernel⟩

/-! ### The hypotheses are met -/

/-- A matrix with an empty row and column, for the targets 1, 1 and 0. -/
def exGood : Rows ℚ := fun i => if i = 0 then [(0, 3 / 2), (1, 1 / 2)] else if i = 1 then [(1, 2)] else []

example : (∀ k < 3, Targeted 3 (fun i => if i < 2 then (1 : ℚ) else 0) exGood k) ∧
    (∀ k < 3, (if k < 2 then (1 : ℚ) else 0) ≠ 0 →
      rowSum (passes 3 (fun i => if i < 2 then (1 : ℚ) else 0) k exGood) k ≠ 0) ∧
    (∀ k < 3, ∀ e ∈ exGood k, k ≤ e.1 ∧ e.1 < 3) ∧
    ∃ R', normalizeTriu 3 3 (fun i => if i < 2 then (1 : ℚ) else 0) exGood = some R' ∧
      R' 0 = [(0, 3 / 4), (1, 1 / 4)] ∧ R' 1 = [(1, 3 / 4)] := by
  refine ⟨?_, by decide +kernel, by decide +kernel, _, rfl, by decide +kernel, by decide +kernel⟩
  unfold Targeted
  decide +kernel

end Verif.Triu
