import Verif.Scripts.Load

/-!
# Loading with a tolerance, filled diagonals and rows of probability zero (C72)

What `load_autocov_int` of `run_clusterings` does with csr files of other programs: the files of
`run_cov_integrals` itself never get so far (`C72_tolerance_violated`, `C72_init_violated`).
-/

set_option linter.dupNamespace false

namespace Verif.Scripts.Load

open Verif.Trans Verif.Scripts Verif.Autocov Verif.Csr Finset

variable {K : Type} [Field K] [LinearOrder K] [IsStrictOrderedRing K]

/-- **C72**, rows.  One normalisation gives every row that does not sum to zero the wanted sum,
also if this is zero, and makes no new entries. -/
theorem C72_rows (n : Nat) (p : Nat → K) (A : Mat K) (i : Nat) (hs : ∑ j ∈ range n, A i j ≠ 0) :
    ∑ j ∈ range n, normRows n p A i j = p i ∧ ∀ j, A i j = 0 → normRows n p A i j = 0 := by
  unfold normRows
  simp only [if_neg hs]
  by_cases hp : p i = 0
  · simp only [if_pos hp]
    refine ⟨?_, fun j hj => by rw [if_pos hj]⟩
    rw [hp]
    have hc : (((List.range n).filter fun k => decide (A i k ≠ 0)).length : K) = (((range n).filter fun k => A i k ≠ 0).card : K) := rfl
    rw [hc]
    set s := ∑ k ∈ range n, A i k with hsd
    set F := (range n).filter fun k => A i k ≠ 0 with hF
    have h1 : ∑ j ∈ range n, (if A i j = 0 then 0 else A i j - s / (F.card : K)) = ∑ j ∈ F, (A i j - s / (F.card : K)) := by
      rw [hF, sum_filter]
      exact sum_congr rfl fun j _ => by by_cases h : A i j = 0 <;> simp [h]
    have h2 : ∑ j ∈ F, A i j = s := by rw [hF, sum_filter_ne_zero]
    have h3 : (F.card : K) ≠ 0 := by
      intro h
      have : F = ∅ := card_eq_zero.1 (by exact_mod_cast h)
      rw [this, sum_empty] at h2
      exact hs h2.symm
    rw [h1, sum_sub_distrib, h2, sum_const, nsmul_eq_mul, mul_div_cancel₀ _ h3, sub_self]
  · simp only [if_neg hp]
    refine ⟨?_, fun j hj => by rw [hj, zero_div]⟩
    rw [← sum_div]
    field_simp

/-- The largest entry of a matrix. -/
def Largest (n : Nat) (A : Mat K) (x : K) : Prop :=
  (∃ a < n, ∃ b < n, A a b = x) ∧ ∀ a < n, ∀ b < n, A a b ≤ x

theorem stored_max {n : Nat} {A : Mat K} {x : K} (hx : 0 < x) (h : Largest n A x) :
    ((List.range n).flatMap fun a => (List.range n).filterMap fun b =>
        if A a b = 0 then none else some (A a b)).max? = some x := by
  rw [List.max?_eq_some_iff]
  obtain ⟨⟨a, ha, b, hb, hab⟩, hle⟩ := h
  constructor
  · simp only [List.mem_flatMap, List.mem_range, List.mem_filterMap]
    exact ⟨a, ha, b, hb, by rw [hab, if_neg hx.ne']⟩
  · intro y hy
    simp only [List.mem_flatMap, List.mem_range, List.mem_filterMap] at hy
    obtain ⟨c, hc, d, hd, hy⟩ := hy
    split at hy
    · cases hy
    · cases hy; exact hle c hc d hd

/-- **C72**, filled diagonals.  With a tolerance of at most one, nodes with an empty row get the
tolerance times the largest entry on the diagonal, whatever their order; all else is kept. -/
theorem C72_filled (n : Nat) (tol : K) (h0 : 0 ≤ tol) (h1 : tol ≤ 1) (x : K) (hx : 0 < x) (l : List Nat) (hn : l.Nodup) :
    ∀ A : Mat K, Largest n A x → (∀ i ∈ l, A i i = 0) →
      fillDiag n (some tol) l A = .ok fun a b => if a = b ∧ a ∈ l then tol * x else A a b := by
  induction l with
  | nil => intro A _ _; simp [fillDiag]
  | cons i l ih =>
    intro A hA hz
    obtain ⟨hil, hn⟩ := List.nodup_cons.1 hn
    unfold fillDiag
    rw [stored_max hx hA]
    simp only
    have htx : tol * x ≤ x := by nlinarith
    rw [ih hn]
    · congr 1
      funext a b
      by_cases hab : a = b
      · subst hab
        by_cases hai : a = i
        · subst hai; simp [hil]
        · simp [hai]
      · have : ¬ (a = i ∧ b = i) := fun h => hab (h.1.trans h.2.symm)
        simp [hab, this]
    · obtain ⟨⟨a, ha, b, hb, hab⟩, hle⟩ := hA
      refine ⟨⟨a, ha, b, hb, ?_⟩, fun c hc d hd => ?_⟩
      · dsimp only
        rw [if_neg ?_, hab]
        rintro ⟨e1, e2⟩
        rw [e1, e2, hz i (by simp)] at hab
        exact hx.ne hab
      · dsimp only
        split
        · exact htx
        · exact hle c hc d hd
    · intro k hk
      have : k ≠ i := fun h => hil (h ▸ hk)
      simp only [this, and_self, if_false]
      exact hz k (by simp [hk])

/-- **C72**, filled diagonals: nothing can be filled if there is no entry at all, or no tolerance. -/
theorem C72_not_filled (n : Nat) (rtol : Option K) (i : Nat) (l : List Nat) (A : Mat K) :
    ((∀ a < n, ∀ b < n, A a b = 0) → fillDiag n rtol (i :: l) A = .error .valueError) ∧
    (∀ x, 0 < x → Largest n A x → fillDiag n none (i :: l) A = .error .typeError) := by
  refine ⟨fun h => ?_, fun x hx hA => ?_⟩
  · have : ((List.range n).flatMap fun a => (List.range n).filterMap fun b =>
        if A a b = 0 then none else some (A a b)) = [] := by
      rw [List.eq_nil_iff_forall_not_mem]
      intro y hy
      simp only [List.mem_flatMap, List.mem_range, List.mem_filterMap] at hy
      obtain ⟨c, hc, d, hd, hy⟩ := hy
      rw [if_pos (h c hc d hd)] at hy
      cases hy
    unfold fillDiag
    rw [this]
    rfl
  · unfold fillDiag
    rw [stored_max hx hA]

/-- **C72**, tolerance.  With a tolerance, the covariance of a csr file is that of the file in which
the entries that do not exceed the tolerance times the largest absolute value are zero. -/
theorem C72_tolerance (n : Nat) (tol M : K) (norm : Option Nat) (f : Pickle K) (hc : f.itpt.coo = false)
    (hM : ∀ i < n, ∀ j < n, |f.itpt.mat i j| ≤ M) (ha : ∃ i < n, ∃ j < n, |f.itpt.mat i j| = M) :
    loadUniform n (some tol) norm f =
      loadUniform n none norm { f with itpt := ⟨false, fun i j => if f.itpt.mat i j ≤ tol * M then 0 else f.itpt.mat i j⟩ } := by
  obtain ⟨i, hi, j, hj, h⟩ := ha
  have hm : maxAbs n f.itpt.mat = M :=
    le_antisymm (maxAbs_le (h ▸ abs_nonneg _) hM) (h ▸ abs_le_maxAbs _ hi hj)
  unfold loadUniform setToZeroes
  simp [hc, hm]

/-- Hypotheses of `C72_rows`, with a wanted sum of zero. -/
example : ∑ j ∈ range 2, (fun _ j => if j = 0 then (1 : ℚ) else 2) 0 j ≠ (0 : ℚ) := by norm_num [sum_range_succ]

/-- Hypotheses of `C72_filled`: node 1 has an empty row. -/
example : Largest 2 (fun a b => if a = 0 ∧ b = 0 then (3 : ℚ) else 0) 3 ∧
    (∀ i ∈ [1], (fun a b => if a = 0 ∧ b = 0 then (3 : ℚ) else 0) i i = 0) := by
  refine ⟨⟨⟨0, by norm_num, 0, by norm_num, by norm_num⟩, fun a _ b _ => ?_⟩, by simp⟩
  dsimp only
  split <;> norm_num

/-- Hypotheses of `C72_tolerance`. -/
example : (∀ i < 2, ∀ j < 2, |(fun i j => if i = 0 ∧ j = 1 then (-3 : ℚ) else 1) i j| ≤ 3) ∧
    ∃ i < 2, ∃ j < 2, |(fun i j => if i = 0 ∧ j = 1 then (-3 : ℚ) else 1) i j| = 3 := by
  refine ⟨fun i _ j _ => ?_, 0, by norm_num, 1, by norm_num, by norm_num⟩
  dsimp only
  split <;> norm_num

end Verif.Scripts.Load
