import Verif.Average.Contacts
import Verif.Groups.Walk
import Mathlib.Analysis.SpecialFunctions.Exponential

/-!
# Walks of short and of long duration
-/

set_option linter.dupNamespace false
set_option linter.unusedSectionVars false

namespace Verif.Scales

open Verif.TempNet Verif.Trans Verif.Flow Verif.EndToEnd Verif.Average Verif.Groups Finset NormedSpace

open scoped Nat Matrix

section exponential

variable {ι : Type} [Fintype ι] [DecidableEq ι]

theorem exp_shift (c : ℝ) (B : Matrix ι ι ℝ) (i j : ι) :
    exp ((-c) • (1 : Matrix ι ι ℝ) + B) i j = Real.exp (-c) * exp B i j := by
  have hcomm : Commute ((-c) • (1 : Matrix ι ι ℝ)) B := (Commute.one_left B).smul_left _
  have hdiag : exp ((-c) • (1 : Matrix ι ι ℝ)) = Matrix.diagonal (exp fun _ : ι => -c) := by
    rw [← Matrix.exp_diagonal]
    congr 1
    ext a b
    rw [Matrix.smul_apply, Matrix.one_apply, Matrix.diagonal_apply]
    split <;> simp
  rw [Matrix.exp_add_of_commute _ _ hcomm, hdiag, Matrix.diagonal_mul, Pi.coe_exp, Real.exp_eq_exp_ℝ]

theorem exp_ge {B : Matrix ι ι ℝ} (hB : ∀ i j, 0 ≤ B i j) (k : ℕ) (i j : ι) : ((k !)⁻¹ : ℝ) * (B ^ k) i j ≤ exp B i j :=
  le_hasSum (hasSum_exp_apply B i j) k fun m _ => mul_nonneg (by positivity) (pow_nonneg_entries hB m i j)

end exponential

/-- Transition of the walk with generator `-A` during the time `t`. -/
noncomputable def evo (n : Nat) (A : Mat ℝ) (t : ℝ) : Mat ℝ := expm n fun i j => -t * A i j

variable {n : Nat} {A : Mat ℝ}

theorem evo_stoch (h : Lap n A) {t : ℝ} (ht : 0 ≤ t) : Stoch n (evo n A t) := expm_stoch h.1 h.2 ht

theorem evo_zero (n : Nat) (A : Mat ℝ) : EqOn n (evo n A 0) eye := expm_zero fun i _ j _ => by simp

theorem evo_add (n : Nat) (A : Mat ℝ) (s t : ℝ) : EqOn n (mul n (evo n A s) (evo n A t)) (evo n A (s + t)) := by
  have h := (move_split (n := n) (rate := 1) (g := fun _ => A) (s := 0) (y := s) (u := s + t) (EqOn.refl _ _)).1
  have e : ∀ a b : ℝ, move n 1 (fun _ => A) a b = evo n A (b - a) := by
    intro a b
    unfold move evo
    rw [mul_one]
  rw [e, e, e] at h
  simpa using h

theorem evo_ge (h : Lap n A) (hd : ∀ i < n, A i i ≤ 1) {t : ℝ} (ht : 0 ≤ t) {i j : Nat} (hi : i < n) (hj : j < n) :
    (if i = j then Real.exp (-t) else 0) ≤ evo n A t i j ∧ Real.exp (-t) * (t * ((if i = j then 1 else 0) - A i j)) ≤ evo n A t i j := by
  unfold evo expm
  rw [dif_pos ⟨hi, hj⟩]
  set B : Matrix (Fin n) (Fin n) ℝ := Matrix.of fun a b => t * ((if a = b then 1 else 0) - A a b) with hB
  have hBn : ∀ a b, 0 ≤ B a b := by
    intro a b
    rw [hB, Matrix.of_apply]
    refine mul_nonneg ht ?_
    by_cases hab : a = b
    · subst hab
      rw [if_pos rfl]
      linarith [hd a a.2]
    · rw [if_neg hab]
      linarith [h.2 a a.2 b b.2 fun h => hab (Fin.ext h)]
  have e : (Matrix.of fun a b : Fin n => -t * A a b) = (-t) • (1 : Matrix (Fin n) (Fin n) ℝ) + B := by
    ext a b
    rw [Matrix.add_apply, Matrix.smul_apply, Matrix.one_apply, hB, Matrix.of_apply, Matrix.of_apply]
    split <;> simp <;> ring
  rw [e, exp_shift]
  have hpos := (Real.exp_pos (-t)).le
  constructor
  · have := mul_le_mul_of_nonneg_left (exp_ge hBn 0 ⟨i, hi⟩ ⟨j, hj⟩) hpos
    refine le_trans (le_of_eq ?_) this
    rw [pow_zero, Matrix.one_apply]
    by_cases hij : i = j <;> simp [hij]
  · have := mul_le_mul_of_nonneg_left (exp_ge hBn 1 ⟨i, hi⟩ ⟨j, hj⟩) hpos
    refine le_trans (le_of_eq ?_) this
    rw [pow_one, hB, Matrix.of_apply]
    by_cases hij : i = j <;> simp [hij]

/-- A walk that stays where it is with a probability of at least `exp (-x)`. -/
def Stay (n : Nat) (x : ℝ) (T : Mat ℝ) : Prop := Stoch n T ∧ ∀ i < n, Real.exp (-x) ≤ T i i

theorem stay_eye (n : Nat) : Stay n 0 (eye : Mat ℝ) := by
  refine ⟨stoch_eye _, fun i _ => ?_⟩
  unfold eye
  simp

theorem stay_mul {x y : ℝ} {T U : Mat ℝ} (hT : Stay n x T) (hU : Stay n y U) : Stay n (x + y) (mul n T U) := by
  refine ⟨stoch_mul hT.1 hU.1, fun i hi => ?_⟩
  rw [neg_add, Real.exp_add]
  refine (mul_le_mul (hT.2 i hi) (hU.2 i hi) (Real.exp_pos _).le ((Real.exp_pos _).le.trans (hT.2 i hi))).trans ?_
  unfold mul
  exact single_le_sum (f := fun k => T i k * U k i) (fun k hk => mul_nonneg ((hT.1 i hi).1 k (mem_range.1 hk))
    ((hU.1 k (mem_range.1 hk)).1 i hi)) (mem_range.2 hi)

theorem stay_mono {x y : ℝ} {T : Mat ℝ} (h : Stay n x T) (hxy : x ≤ y) : Stay n y T :=
  ⟨h.1, fun i hi => (Real.exp_le_exp.2 (by linarith)).trans (h.2 i hi)⟩

theorem stay_prod {α : Type} (M : α → Mat ℝ) (x : α → ℝ) (l : List α) (h : ∀ a ∈ l, Stay n (x a) (M a)) :
    Stay n (l.map x).sum (prod n (l.map M)) := by
  induction l with
  | nil => exact stay_eye n
  | cons a l ih => exact stay_mul (h a (by simp)) (ih fun b hb => h b (by simp [hb]))

/-- Covariance of two nodes for a walk that hardly moves. -/
theorem cov_stay {x : ℝ} {T : Mat ℝ} (h : Stay n x T) (h2 : 2 ≤ n) (hx : 3 * n * x ≤ 1) {i j : Nat} (hi : i < n) (hj : j < n)
    (hij : i ≠ j) : covAt n (fun _ => 1 / (n : ℝ)) T i j ≤ -(1 / 5 / (n : ℝ) ^ 2) := by
  have hn : (2 : ℝ) ≤ n := by exact_mod_cast h2
  have hn0 : (0 : ℝ) < n := by linarith
  obtain ⟨ε, hε⟩ : ∃ ε, ε = 1 - Real.exp (-x) := ⟨_, rfl⟩
  have hε1 : 3 * n * ε ≤ 1 := by
    have : ε ≤ x := by have := Real.add_one_le_exp (-x); linarith
    nlinarith
  have hd : ∀ k < n, 1 - ε ≤ T k k := fun k hk => by have := h.2 k hk; linarith
  have hε2 : ε ≤ 1 / 6 := by
    by_contra hc
    nlinarith
  have hnn : ∀ a < n, ∀ b < n, 0 ≤ T a b := fun a ha => (h.1 a ha).1
  have hoff : ∀ a < n, ∑ k ∈ (range n).erase a, T a k ≤ ε := by
    intro a ha
    have := (h.1 a ha).2
    rw [← add_sum_erase _ _ (mem_range.2 ha)] at this
    linarith [hd a ha]
  have hε0 : 0 ≤ ε := (sum_nonneg fun k hk => hnn i hi k (mem_range.1 (mem_of_mem_erase hk))).trans (hoff i hi)
  have hji : T j i ≤ ε := (single_le_sum (f := fun k => T j k) (fun k hk => hnn j hj k (mem_range.1 (mem_of_mem_erase hk)))
    (mem_erase.2 ⟨hij, mem_range.2 hi⟩)).trans (hoff j hj)
  have hcross : ∑ k ∈ range n, T i k * T j k ≤ 2 * ε := by
    rw [← add_sum_erase _ _ (mem_range.2 hi)]
    have h1 : T i i * T j i ≤ ε := (mul_le_mul (stoch_le_one h.1 hi hi) hji (hnn j hj i hi) zero_le_one).trans (by linarith)
    have h2 : ∑ k ∈ (range n).erase i, T i k * T j k ≤ ∑ k ∈ (range n).erase i, T i k := by
      refine sum_le_sum fun k hk => ?_
      have hk' := mem_range.1 (mem_of_mem_erase hk)
      exact mul_le_of_le_one_right (hnn i hi k hk') (stoch_le_one h.1 hj hk')
    linarith [hoff i hi]
  have hafter : ∀ k < n, (1 - ε) / n ≤ after n (fun _ => 1 / (n : ℝ)) T k := by
    intro k hk
    unfold after
    refine le_trans ?_ (single_le_sum (f := fun a => 1 / (n : ℝ) * T a k) (fun a ha => mul_nonneg (by positivity)
      (hnn a (mem_range.1 ha) k hk)) (mem_range.2 hk))
    rw [div_eq_mul_inv, mul_comm, one_div]
    exact mul_le_mul_of_nonneg_left (hd k hk) (by positivity)
  have hone : 0 < 1 - ε := by linarith
  have hterm : ∀ k ∈ range n, (if after n (fun _ => 1 / (n : ℝ)) T k = 0 then 0 else
      (1 / (n : ℝ) * T i k) * (1 / (n : ℝ) * T j k) / after n (fun _ => 1 / (n : ℝ)) T k) ≤ T i k * T j k * (1 / n / (1 - ε)) := by
    intro k hk
    have hk' := mem_range.1 hk
    have ha := hafter k hk'
    have hp : 0 < (1 - ε) / n := div_pos hone hn0
    rw [if_neg (hp.trans_le ha).ne', div_le_iff₀ (hp.trans_le ha)]
    have h0 : 0 ≤ T i k * T j k := mul_nonneg (hnn i hi k hk') (hnn j hj k hk')
    have : (1 / (n : ℝ) * T i k) * (1 / (n : ℝ) * T j k) = T i k * T j k * (1 / n / (1 - ε)) * ((1 - ε) / n) := by
      field_simp
    rw [this]
    exact mul_le_mul_of_nonneg_left ha (mul_nonneg h0 (by positivity))
  unfold covAt
  have hs := sum_le_sum hterm
  rw [← sum_mul] at hs
  have hb : (∑ k ∈ range n, T i k * T j k) * (1 / n / (1 - ε)) ≤ 2 * ε * (1 / n / (1 - ε)) :=
    mul_le_mul_of_nonneg_right hcross (by positivity)
  have hf : 2 * ε * (1 / n / (1 - ε)) ≤ 4 / 5 / (n : ℝ) ^ 2 := by
    have : 2 * ε * (1 / n / (1 - ε)) = (2 * ε * n / (1 - ε)) / (n : ℝ) ^ 2 := by field_simp
    rw [this]
    refine div_le_div_of_nonneg_right ?_ (by positivity)
    rw [div_le_iff₀ hone]
    nlinarith
  have he : (1 / (n : ℝ)) * (1 / n) = 1 / (n : ℝ) ^ 2 := by field_simp
  have hg : (1 : ℝ) / n ^ 2 = 4 / 5 / (n : ℝ) ^ 2 + 1 / 5 / (n : ℝ) ^ 2 := by ring
  rw [he]
  linarith

end Verif.Scales
