import Verif.Trans.Stationary
import Verif.TempNet.Props
import Mathlib.Analysis.Normed.Algebra.MatrixExponential
import Mathlib.Analysis.Real.Sqrt
import Mathlib.Analysis.Matrix.Normed

/-!
# The matrix exponential: second half of property C34

Over the real numbers, with Mathlib's exponential of matrices.
-/

set_option linter.dupNamespace false
set_option linter.unusedSectionVars false
set_option linter.unusedSimpArgs false

namespace Verif.Trans

open Verif.TempNet Finset NormedSpace

open scoped Nat Matrix

variable {ι : Type} [Fintype ι] [DecidableEq ι]

section
open scoped Matrix.Norms.Operator

set_option backward.isDefEq.respectTransparency false in
theorem hasSum_exp (A : Matrix ι ι ℝ) : HasSum (fun k : ℕ => ((k !)⁻¹ : ℝ) • A ^ k) (exp A) :=
  exp_series_hasSum_exp' (𝕂 := ℝ) A

theorem hasSum_exp_apply (A : Matrix ι ι ℝ) (i j : ι) :
    HasSum (fun k : ℕ => ((k !)⁻¹ : ℝ) * (A ^ k) i j) (exp A i j) := by
  have h := hasSum_exp A
  have := (Pi.hasSum.1 (Pi.hasSum.1 h i)) j
  simpa [Matrix.smul_apply] using this

end

theorem pow_nonneg_entries {B : Matrix ι ι ℝ} (hB : ∀ i j, 0 ≤ B i j) (k : ℕ) (i j : ι) :
    0 ≤ (B ^ k) i j := by
  induction k generalizing i j with
  | zero =>
    rw [pow_zero, Matrix.one_apply]
    split <;> norm_num
  | succ k ih =>
    rw [pow_succ, Matrix.mul_apply]
    exact Finset.sum_nonneg fun x _ => mul_nonneg (ih i x) (hB x j)

theorem exp_nonneg_of_nonneg {B : Matrix ι ι ℝ} (hB : ∀ i j, 0 ≤ B i j) (i j : ι) : 0 ≤ exp B i j :=
  (hasSum_exp_apply B i j).nonneg fun k => mul_nonneg (by positivity) (pow_nonneg_entries hB k i j)

/-- The exponential of a matrix without negative entries off the diagonal has no negative
entries. -/
theorem exp_nonneg_of_offdiag {A : Matrix ι ι ℝ} (hA : ∀ i j, i ≠ j → 0 ≤ A i j) (i j : ι) :
    0 ≤ exp A i j := by
  obtain ⟨c, hc⟩ : ∃ c : ℝ, ∀ i, 0 ≤ A i i + c := by
    refine ⟨∑ i, |A i i|, fun i => ?_⟩
    have h1 : |A i i| ≤ ∑ i, |A i i| := Finset.single_le_sum (f := fun i => |A i i|)
      (fun i _ => abs_nonneg _) (Finset.mem_univ i)
    have h2 := neg_abs_le (A i i)
    linarith
  let B : Matrix ι ι ℝ := A + c • (1 : Matrix ι ι ℝ)
  have hB : ∀ i j, 0 ≤ B i j := by
    intro i j
    show 0 ≤ (A + c • (1 : Matrix ι ι ℝ)) i j
    rw [Matrix.add_apply, Matrix.smul_apply, Matrix.one_apply]
    by_cases h : i = j
    · subst h; simpa using hc i
    · simpa [h] using hA i j h
  have hAB : A = (-c) • (1 : Matrix ι ι ℝ) + B := by
    show A = (-c) • (1 : Matrix ι ι ℝ) + (A + c • (1 : Matrix ι ι ℝ))
    rw [neg_smul]; abel
  have hcomm : Commute ((-c) • (1 : Matrix ι ι ℝ)) B := by
    exact (Commute.one_left B).smul_left _
  rw [hAB, Matrix.exp_add_of_commute _ _ hcomm]
  have hdiag : exp ((-c) • (1 : Matrix ι ι ℝ)) = Matrix.diagonal (exp fun _ : ι => -c) := by
    rw [← Matrix.exp_diagonal]
    congr 1
    ext a b
    rw [Matrix.smul_apply, Matrix.one_apply, Matrix.diagonal_apply]
    split <;> simp
  rw [hdiag, Matrix.diagonal_mul]
  refine mul_nonneg ?_ (exp_nonneg_of_nonneg hB i j)
  rw [← Matrix.diagonal_apply_eq (exp fun _ : ι => -c) i, ← hdiag]
  have h2 : exp (Matrix.diagonal fun _ : ι => -c) i i = exp (Matrix.diagonal fun _ : ι => -c / 2) i i *
      exp (Matrix.diagonal fun _ : ι => -c / 2) i i := by
    have : (Matrix.diagonal fun _ : ι => -c) = (Matrix.diagonal fun _ : ι => -c / 2) +
        Matrix.diagonal fun _ : ι => -c / 2 := by
      rw [Matrix.diagonal_add]; congr 1; ext; ring
    rw [this, Matrix.exp_add_of_commute _ _ (Commute.refl _), Matrix.exp_diagonal, Matrix.diagonal_mul,
      Matrix.diagonal_apply_eq]
  have h3 : ((-c) • (1 : Matrix ι ι ℝ)) = Matrix.diagonal fun _ : ι => -c := by
    ext a b
    rw [Matrix.smul_apply, Matrix.one_apply, Matrix.diagonal_apply]
    split <;> simp
  rw [h3, h2]
  exact mul_self_nonneg _

/-- The rows of the exponential of a matrix with vanishing row sums sum to one. -/
theorem exp_row_sum {A : Matrix ι ι ℝ} (hA : ∀ i, ∑ j, A i j = 0) (i : ι) : ∑ j, exp A i j = 1 := by
  have h := hasSum_sum (s := Finset.univ) fun j _ => hasSum_exp_apply A i j
  have hk : ∀ k, ∀ i, ∑ j, (A ^ (k + 1)) i j = 0 := by
    intro k
    induction k with
    | zero => simpa using hA
    | succ k ih =>
      intro i
      simp only [pow_succ _ (k + 1), Matrix.mul_apply]
      rw [Finset.sum_comm]
      simp only [← Finset.mul_sum, hA, mul_zero, Finset.sum_const_zero]
  have h0 : HasSum (fun k : ℕ => ∑ j, ((k !)⁻¹ : ℝ) * (A ^ k) i j) (∑ j, ((0 ! : ℕ) : ℝ)⁻¹ * (A ^ 0) i j) := by
    apply hasSum_single
    intro k hk0
    obtain ⟨m, rfl⟩ := Nat.exists_eq_succ_of_ne_zero hk0
    rw [← Finset.mul_sum, hk m i, mul_zero]
  rw [h.unique h0]
  simp [Matrix.one_apply]

/-- `expm` on the first `n` indices. -/
noncomputable def expm (n : Nat) (A : Mat ℝ) : Mat ℝ := fun i j =>
  if h : i < n ∧ j < n then exp (Matrix.of fun a b : Fin n => A a b) ⟨i, h.1⟩ ⟨j, h.2⟩ else 0

/-- The exponential of minus a Laplacian is stochastic, for every time that is not negative. -/
theorem expm_stoch {n : Nat} {L : Mat ℝ} (hsum : ∀ i < n, ∑ j ∈ range n, L i j = 0)
    (hoff : ∀ i < n, ∀ j < n, i ≠ j → L i j ≤ 0) {t : ℝ} (ht : 0 ≤ t) :
    Stoch n (expm n fun i j => -t * L i j) := by
  intro i hi
  constructor
  · intro j hj
    unfold expm
    rw [dif_pos ⟨hi, hj⟩]
    apply exp_nonneg_of_offdiag
    intro a b hab
    simp only [Matrix.of_apply]
    have := hoff a a.2 b b.2 (fun h => hab (Fin.ext h))
    nlinarith
  · rw [Finset.sum_range]
    have : ∀ j : Fin n, expm n (fun i j => -t * L i j) i j =
        exp (Matrix.of fun a b : Fin n => -t * L a b) ⟨i, hi⟩ j := by
      intro j
      unfold expm
      rw [dif_pos ⟨hi, j.2⟩]
    simp only [this]
    apply exp_row_sum
    intro a
    simp only [Matrix.of_apply]
    rw [← Finset.mul_sum, ← Finset.sum_range (fun b => L a b), hsum a a.2, mul_zero]

theorem expm_zero {n : Nat} {A : Mat ℝ} (h : EqOn n A fun _ _ => 0) : EqOn n (expm n A) eye := by
  intro i hi j hj
  unfold expm
  rw [dif_pos ⟨hi, hj⟩]
  have : (Matrix.of fun a b : Fin n => A a b) = 0 := by
    ext a b
    exact h a a.2 b b.2
  rw [this, exp_zero, Matrix.one_apply]
  unfold eye
  simp

theorem expm_congr {n : Nat} {A B : Mat ℝ} (h : EqOn n A B) : expm n A = expm n B := by
  have : (Matrix.of fun a b : Fin n => A a b) = Matrix.of fun a b : Fin n => B a b := by
    ext a b
    exact h a a.2 b b.2
  unfold expm
  rw [this]

/-- Inter-event matrices are the exponentials, also when the Laplacian has no entries. -/
theorem interMat_eq (n : Nat) (lamda : ℝ) (fixTau : Bool) (L : Mat ℝ) (t t' : ℝ) :
    EqOn n (interMat n (expm n) lamda fixTau L t t')
      (expm n fun i j => -((if fixTau then 1 else t' - t) * lamda) * L i j) := by
  unfold interMat
  dsimp only
  split
  · rename_i h
    refine EqOn.symm (expm_zero ?_)
    intro i hi j hj
    simp only [noEntries, List.all_eq_true, List.mem_range, decide_eq_true_eq] at h
    show _ * L i j = 0
    rw [h i hi j hj, mul_zero]
  · intro i _ j _
    congr 1
    funext a b
    ring

theorem getD_getElem {α : Type} (l : List α) (d : α) {i : Nat} (h : i < l.length) : l.getD i d = l[i] := by
  rw [List.getD_eq_getElem?_getD, List.getElem?_eq_getElem h]; rfl

/-- **C34**: for events without self-loops, overlapping or not, every window and every rate
that is not negative, all inter-event transition matrices are stochastic. -/
theorem C34_transition_stochastic {n : Nat} {evs : List (Event Nat ℝ)} (hr : InRange n evs)
    (hnl : NoSelfLoops evs) (hne : evs ≠ []) (sf : Nat → Bool) (tStart tStop : Option ℝ) :
    ∃ L, computeLaplacians n evs sf tStart tStop = .ok L ∧ ∀ (lamda : ℝ) (fixTau : Bool), 0 ≤ lamda →
      interMats n (expm n) (timesOf evs) L lamda fixTau ≠ [] ∧
      ∀ M ∈ interMats n (expm n) (timesOf evs) L lamda fixTau, Stoch n M := by
  have hsorted : (timesOf evs).Pairwise (· < ·) := uniqueSorted_lt _
  obtain ⟨k, m, hk, hm, s, hs, -, -, heq⟩ := computeLaplacians_eq hr hnl hne sf tStart tStop
  obtain ⟨L, hL, hlen, hrows⟩ := C34_laplacian_rows hr hnl hne sf tStart tStop
  refine ⟨L, hL, fun lamda fixTau hl => ⟨?_, ?_⟩⟩
  · intro hc
    have := interMats_length n (expm n) (timesOf evs) L lamda fixTau
    rw [hc] at this
    split at this <;> simp_all
  · intro M hM
    have hkm : L.kStart = k ∧ L.kStop = m := by
      rw [hL] at heq
      split at heq
      · cases heq
      · cases heq; exact ⟨rfl, rfl⟩
    unfold interMats at hM
    dsimp only at hM
    split at hM
    · simp only [List.mem_singleton] at hM
      subst hM
      exact stoch_eye n
    · obtain ⟨⟨tk, i⟩, hmem, rfl⟩ := List.mem_map.1 hM
      rw [List.mem_zipIdx_iff_getElem?] at hmem
      simp only at hmem ⊢
      obtain ⟨hi, htk⟩ := List.getElem?_eq_some_iff.1 hmem
      simp only [List.length_drop, List.length_take] at hi
      rw [List.getElem_drop, List.getElem_take] at htk
      have hlt : L.kStart + i + 1 < (timesOf evs).length := by omega
      have hi2 : i < L.laplacians.length := by omega
      refine stoch_congr (interMat_eq n lamda fixTau _ _ _) ?_
      have hmem2 : L.laplacians.getD i eye ∈ L.laplacians := by
        rw [getD_getElem _ _ hi2]; exact List.getElem_mem hi2
      obtain ⟨r1, r2, _⟩ := hrows _ hmem2
      apply expm_stoch r1 fun i _ j _ h => r2 i j h
      apply mul_nonneg _ hl
      split
      · norm_num
      · rw [getD_getElem _ _ hlt, ← htk]
        have := List.pairwise_iff_getElem.1 hsorted (L.kStart + i) (L.kStart + i + 1) (by omega) hlt (by omega)
        linarith

end Verif.Trans
