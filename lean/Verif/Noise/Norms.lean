import Verif.Noise.Spec
import Verif.Average.Contacts
import Mathlib.Analysis.SpecialFunctions.Exponential
import Mathlib.Analysis.Calculus.MeanValue

/-! # Distances of transition matrices -/

set_option linter.dupNamespace false
set_option linter.unusedSectionVars false

namespace Verif.Noise

open Verif.TempNet Verif.Trans Verif.Flow Verif.EndToEnd Verif.Decay Verif.Autocov Verif.Average Finset NormedSpace

/-- Exponentials of two generators, both of whose semigroups do not enlarge, are as close as the
generators. -/
theorem exp_close {𝔸 : Type} [NormedRing 𝔸] [NormedAlgebra ℝ 𝔸] [CompleteSpace 𝔸] {A B : 𝔸} {c s : ℝ} (hs : 0 ≤ s) (hA : ∀ t : ℝ, 0 ≤ t → ‖exp (t • A)‖ ≤ 1)
    (hB : ∀ t : ℝ, 0 ≤ t → ‖exp (t • B)‖ ≤ 1) (hc : ‖B - A‖ ≤ c) : ‖exp (s • B) - exp (s • A)‖ ≤ c * s := by
  have hf : ∀ r : ℝ, HasDerivAt (fun r : ℝ => exp ((s - r) • A) * exp (r • B))
      (exp ((s - r) • A) * (B - A) * exp (r • B)) r := by
    intro r
    have h1 : HasDerivAt (fun r : ℝ => exp ((s - r) • A)) (-(exp ((s - r) • A) * A)) r := by
      have h := (hasDerivAt_exp_smul_const (𝕂 := ℝ) A (s - r)).scomp r ((hasDerivAt_id r).const_sub s)
      simpa [Function.comp_def] using h
    have h2 : HasDerivAt (fun r : ℝ => exp (r • B)) (B * exp (r • B)) r := hasDerivAt_exp_smul_const' (𝕂 := ℝ) B r
    have e : exp ((s - r) • A) * (B - A) * exp (r • B) =
        -(exp ((s - r) • A) * A) * exp (r • B) + exp ((s - r) • A) * (B * exp (r • B)) := by
      rw [mul_sub, sub_mul, neg_mul]
      simp only [mul_assoc]
      abel
    rw [e]
    exact h1.mul h2
  have hc0 : 0 ≤ c := (norm_nonneg _).trans hc
  have hb : ∀ r ∈ Set.Ico (0 : ℝ) s, ‖exp ((s - r) • A) * (B - A) * exp (r • B)‖ ≤ c := by
    intro r hr
    have n1 := hA (s - r) (by linarith [hr.2])
    have n2 := hB r hr.1
    refine (norm_mul_le _ _).trans ?_
    refine (mul_le_of_le_one_right (norm_nonneg _) n2).trans ((norm_mul_le _ _).trans ?_)
    exact (mul_le_of_le_one_left (norm_nonneg _) n1).trans hc
  have := norm_image_sub_le_of_norm_deriv_le_segment' (fun r _ => (hf r).hasDerivWithinAt) hb s ⟨hs, le_rfl⟩
  simpa using this

section
open scoped Matrix.Norms.Operator

variable {ι : Type} [Fintype ι] [DecidableEq ι]

theorem norm_le_rows {A : Matrix ι ι ℝ} {c : ℝ} (hc : 0 ≤ c) (h : ∀ i, ∑ j, |A i j| ≤ c) : ‖A‖ ≤ c := by
  rw [Matrix.linfty_opNorm_def]
  have : (Finset.univ.sup fun i : ι => ∑ j : ι, ‖A i j‖₊) ≤ (⟨c, hc⟩ : NNReal) := by
    refine Finset.sup_le fun i _ => ?_
    refine NNReal.coe_le_coe.1 ?_
    push_cast
    exact h i
  exact_mod_cast this

theorem rows_le_norm (A : Matrix ι ι ℝ) (i : ι) : ∑ j, |A i j| ≤ ‖A‖ := by
  rw [Matrix.linfty_opNorm_def]
  have : (∑ j : ι, ‖A i j‖₊) ≤ (Finset.univ.sup fun i : ι => ∑ j : ι, ‖A i j‖₊) :=
    Finset.le_sup (f := fun i : ι => ∑ j : ι, ‖A i j‖₊) (Finset.mem_univ i)
  have h2 : ((∑ j : ι, ‖A i j‖₊ : NNReal) : ℝ) = ∑ j, |A i j| := by
    push_cast; rfl
  rw [← h2]
  exact_mod_cast this

end

variable {n : Nat}

theorem rowDist_nonneg (A B : Mat ℝ) (i : Nat) : 0 ≤ rowDist n A B i := sum_nonneg fun _ _ => abs_nonneg _

theorem rowDist_congr {A A' B B' : Mat ℝ} (h : EqOn n A A') (h' : EqOn n B B') {i : Nat} (hi : i < n) :
    rowDist n A B i = rowDist n A' B' i := by
  unfold rowDist
  refine sum_congr rfl fun j hj => ?_
  rw [h i hi j (mem_range.1 hj), h' i hi j (mem_range.1 hj)]

theorem rowDist_eq {A B : Mat ℝ} (h : EqOn n A B) {i : Nat} (hi : i < n) : rowDist n A B i = 0 := by
  unfold rowDist
  exact sum_eq_zero fun j hj => by rw [h i hi j (mem_range.1 hj), sub_self, abs_zero]

theorem rowDist_stoch {A B : Mat ℝ} (hA : Stoch n A) (hB : Stoch n B) {i : Nat} (hi : i < n) : rowDist n A B i ≤ 2 := by
  unfold rowDist
  have h : ∑ j ∈ range n, |A i j - B i j| ≤ ∑ j ∈ range n, (A i j + B i j) := by
    refine sum_le_sum fun j hj => ?_
    have a := (hA i hi).1 j (mem_range.1 hj)
    have b := (hB i hi).1 j (mem_range.1 hj)
    rw [abs_le]
    constructor <;> linarith
  rw [sum_add_distrib, (hA i hi).2, (hB i hi).2] at h
  linarith

/-- One step after another: the distances add up. -/
theorem rowDist_mul {A A' U U' : Mat ℝ} (hA : Stoch n A) (hU' : Stoch n U') {c : ℝ}
    (hc : ∀ k < n, rowDist n U U' k ≤ c) {i : Nat} (hi : i < n) :
    rowDist n (mul n A U) (mul n A' U') i ≤ rowDist n A A' i + c := by
  have key : ∀ j ∈ range n, |mul n A U i j - mul n A' U' i j| ≤
      ∑ k ∈ range n, |A i k - A' i k| * U' k j + ∑ k ∈ range n, A i k * |U k j - U' k j| := by
    intro j hj
    unfold mul
    rw [← sum_sub_distrib, ← sum_add_distrib]
    refine (abs_sum_le_sum_abs _ _).trans (sum_le_sum fun k hk => ?_)
    have hk := mem_range.1 hk
    have e : A i k * U k j - A' i k * U' k j = (A i k - A' i k) * U' k j + A i k * (U k j - U' k j) := by ring
    rw [e]
    refine (abs_add_le _ _).trans ?_
    rw [abs_mul, abs_mul, abs_of_nonneg ((hU' k hk).1 j (mem_range.1 hj)), abs_of_nonneg ((hA i hi).1 k hk)]
  unfold rowDist
  refine (sum_le_sum key).trans ?_
  rw [sum_add_distrib, sum_comm, sum_comm (s := range n) (f := fun j k => A i k * |U k j - U' k j|)]
  refine add_le_add (le_of_eq ?_) ?_
  · refine sum_congr rfl fun k hk => ?_
    rw [← mul_sum, (hU' k (mem_range.1 hk)).2, mul_one]
  · calc ∑ k ∈ range n, ∑ j ∈ range n, A i k * |U k j - U' k j|
        ≤ ∑ k ∈ range n, A i k * c := by
          refine sum_le_sum fun k hk => ?_
          rw [← mul_sum]
          exact mul_le_mul_of_nonneg_left (hc k (mem_range.1 hk)) ((hA i hi).1 k (mem_range.1 hk))
      _ = c := by rw [← sum_mul, (hA i hi).2, one_mul]

section
open scoped Matrix.Norms.Operator

theorem fin_sum_abs (f : Nat → ℝ) : ∑ j : Fin n, f j = ∑ j ∈ range n, f j := Fin.sum_univ_eq_sum_range f n

/-- Steps of equal length with two generators. -/
theorem expm_close {L L' : Mat ℝ} (hL : Lap n L) (hL' : Lap n L') {c t : ℝ} (ht : 0 ≤ t) (hc0 : 0 ≤ c)
    (hc : ∀ i < n, rowDist n L L' i ≤ c) {i : Nat} (hi : i < n) :
    rowDist n (expm n fun a b => -t * L a b) (expm n fun a b => -t * L' a b) i ≤ c * t := by
  let A : Matrix (Fin n) (Fin n) ℝ := Matrix.of fun a b => -L' a b
  let B : Matrix (Fin n) (Fin n) ℝ := Matrix.of fun a b => -L a b
  have hle : ∀ {M : Mat ℝ}, Lap n M → ∀ t : ℝ, 0 ≤ t → ‖exp (t • (Matrix.of fun a b : Fin n => -M a b))‖ ≤ 1 := by
    intro M hM t ht
    refine norm_le_rows zero_le_one fun a => ?_
    have hst := expm_stoch hM.1 hM.2 ht a a.2
    have e : ∀ b : Fin n, exp (t • (Matrix.of fun a b : Fin n => -M a b)) a b = expm n (fun i j => -t * M i j) a b := by
      intro b
      unfold expm
      rw [dif_pos ⟨a.2, b.2⟩]
      have : (t • (Matrix.of fun a b : Fin n => -M a b)) = Matrix.of fun a b : Fin n => -t * M a b := by
        ext x y
        simp [Matrix.smul_apply]
      rw [this]
    have e2 : ∑ b : Fin n, |exp (t • (Matrix.of fun a b : Fin n => -M a b)) a b| =
        ∑ b : Fin n, expm n (fun i j => -t * M i j) a b := by
      refine sum_congr rfl fun b _ => ?_
      rw [e b, abs_of_nonneg (hst.1 b b.2)]
    rw [e2, fin_sum_abs (fun b => expm n (fun i j => -t * M i j) a b), hst.2]
  have hAB : ‖B - A‖ ≤ c := by
    refine norm_le_rows hc0 fun a => ?_
    have := hc a a.2
    unfold rowDist at this
    rw [← fin_sum_abs (fun j => |L a j - L' a j|)] at this
    refine le_trans (le_of_eq ?_) this
    refine sum_congr rfl fun b _ => ?_
    show |(-L a b) - (-L' a b)| = _
    rw [neg_sub_neg, abs_sub_comm]
  have h := exp_close ht (hle hL') (hle hL) hAB
  have hr := (rows_le_norm (exp (t • B) - exp (t • A)) ⟨i, hi⟩).trans h
  refine le_trans (le_of_eq ?_) hr
  unfold rowDist
  rw [← fin_sum_abs (fun j => |expm n (fun a b => -t * L a b) i j - expm n (fun a b => -t * L' a b) i j|)]
  refine sum_congr rfl fun b _ => ?_
  have e : ∀ {M : Mat ℝ}, expm n (fun i j => -t * M i j) i b = exp (t • (Matrix.of fun a b : Fin n => -M a b)) ⟨i, hi⟩ b := by
    intro M
    unfold expm
    rw [dif_pos ⟨hi, b.2⟩]
    have : (t • (Matrix.of fun a b : Fin n => -M a b)) = Matrix.of fun a b : Fin n => -t * M a b := by
      ext x y
      simp [Matrix.smul_apply]
    rw [this]
  rw [e, e]
  rfl

end

/-- Two generators of walks at unit rate. -/
theorem walkLaplacian_close (G G' : Nat → Nat → Prop) {i : Nat} (hi : i < n) :
    rowDist n (walkLaplacian n G) (walkLaplacian n G') i ≤ 2 := by
  classical
  have hQ : ∀ G : Nat → Nat → Prop, Stoch n fun i j => (if i = j then (1 : ℝ) else 0) - walkLaplacian n G i j := by
    intro G i hi
    refine ⟨fun j _ => ?_, ?_⟩
    · simp only [walkLaplacian, sub_sub_cancel]
      split_ifs <;> positivity
    · rw [sum_sub_distrib, (walkLaplacian_lap n G).1 i hi]
      simp [hi]
  have h := rowDist_stoch (hQ G') (hQ G) hi
  unfold rowDist at h ⊢
  refine le_trans (le_of_eq ?_) h
  refine sum_congr rfl fun j _ => ?_
  congr 1
  ring

end Verif.Noise
