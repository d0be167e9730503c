import Verif.Static.Spec
import Verif.Trans.Expm
import Verif.Louvain.Props

/-!
# Clustering of a static network: lemmas
-/

set_option linter.dupNamespace false
set_option linter.unusedSectionVars false

namespace Verif.Static

open Verif.Trans Verif.Louvain Verif.Partition Finset NormedSpace

open scoped Nat Matrix

variable {K : Type} [Field K] [LinearOrder K] [IsStrictOrderedRing K]

theorem row_zero {n : Nat} {A : Mat K} (hA : Weighted n A) {i : Nat} (hi : i < n)
    (h : strength n A i = 0) : ∀ j < n, A i j = 0 := fun j hj =>
  (Finset.sum_eq_zero_iff_of_nonneg (fun k hk => hA i hi k (mem_range.1 hk))).1 h j (mem_range.2 hj)

theorem tstat_walk {n : Nat} {A : Mat K} (hA : Weighted n A) : EqOn n (tstat n A) (walk n A) := by
  intro i hi j hj
  unfold tstat degsM1 withLoops walk
  have hd : degs n A i = strength n A i := rfl
  rw [hd]
  by_cases h : strength n A i = 0
  · rw [if_pos h, if_pos h]
    by_cases hij : i = j
    · rw [if_pos ⟨hij, h⟩, if_pos hij]; simp
    · rw [if_neg (fun c => hij c.1), if_neg hij, row_zero hA hi h j hj, mul_zero]
  · rw [if_neg h, if_neg h, if_neg (fun c => h c.2)]
    ring

theorem walk_stoch {n : Nat} {A : Mat K} (hA : Weighted n A) : Stoch n (walk n A) := by
  intro i hi
  unfold walk
  by_cases h : strength n A i = 0
  · simp only [if_pos h]
    refine ⟨fun j _ => by split <;> simp, by simp [hi]⟩
  · simp only [if_neg h]
    have h0 : 0 ≤ strength n A i := Finset.sum_nonneg fun j hj => hA i hi j (mem_range.1 hj)
    refine ⟨fun j hj => div_nonneg (hA i hi j hj) h0, ?_⟩
    rw [← Finset.sum_div]
    exact div_self h

theorem tstat_stoch {n : Nat} {A : Mat K} (hA : Weighted n A) : Stoch n (tstat n A) :=
  stoch_congr (tstat_walk hA) (walk_stoch hA)

/-- Reversible steps: the flow from `i` to `j` is that from `j` to `i`. -/
def Balanced (n : Nat) (p : Nat → K) (T : Mat K) : Prop :=
  ∀ i < n, ∀ j < n, p i * T i j = p j * T j i

/-- Rows that sum to one. -/
def RowsOne (n : Nat) (T : Mat K) : Prop := ∀ i < n, ∑ j ∈ range n, T i j = 1

theorem balanced_stationary {n : Nat} {p : Nat → K} {T : Mat K} (h : Balanced n p T)
    (hT : RowsOne n T) : Stationary n p T := by
  intro j hj
  rw [Finset.sum_congr rfl fun i hi => h i (mem_range.1 hi) j hj, ← Finset.mul_sum, hT j hj, mul_one]

theorem balanced_walk {n : Nat} {A : Mat K} (hA : Weighted n A) (hs : Symm n A) (c : K) :
    Balanced n (fun i => strength n A i / c) (walk n A) := by
  have key : ∀ i < n, ∀ j < n, strength n A i / c * walk n A i j = A i j / c := by
    intro i hi j hj
    unfold walk
    by_cases h : strength n A i = 0
    · rw [h, row_zero hA hi h j hj]; simp
    · rw [if_neg h]; field_simp
  intro i hi j hj
  rw [key i hi j hj, key j hj i hi, hs i hi j hj]

theorem flow_walk {n : Nat} {A : Mat K} (hA : Weighted n A) (c : K) :
    ∀ i < n, ∀ j < n, strength n A i / c * walk n A i j = A i j / c := by
  intro i hi j hj
  unfold walk
  by_cases h : strength n A i = 0
  · rw [h, row_zero hA hi h j hj]; simp
  · rw [if_neg h]; field_simp

/-! ### Powers -/

theorem power_comm (n : Nat) (M : Mat K) (k : Nat) :
    EqOn n (mul n (power n M k) M) (mul n M (power n M k)) := by
  induction k with
  | zero =>
    exact (eye_mul M).trans (mul_eye M).symm
  | succ k ih =>
    have h : power n M (k + 1) = mul n (power n M k) M := rfl
    rw [h, ← mul_assoc' n M]
    exact mul_congr ih (EqOn.refl n M)

theorem power_prod (n : Nat) (M : Mat K) (k : Nat) :
    EqOn n (power n M k) (prod n (List.replicate k M)) := by
  induction k with
  | zero => exact EqOn.refl _ _
  | succ k ih =>
    have h : power n M (k + 1) = mul n (power n M k) M := rfl
    have h' : prod n (List.replicate (k + 1) M) = mul n M (prod n (List.replicate k M)) := rfl
    rw [h, h']
    exact (power_comm n M k).trans (mul_congr (EqOn.refl _ _) ih)

theorem power_congr {n : Nat} {M N : Mat K} (h : EqOn n M N) (k : Nat) :
    EqOn n (power n M k) (power n N k) := by
  induction k with
  | zero => exact EqOn.refl _ _
  | succ k ih => exact mul_congr ih h

theorem power_stoch {n : Nat} {M : Mat K} (h : Stoch n M) (k : Nat) : Stoch n (power n M k) := by
  induction k with
  | zero => exact stoch_eye n
  | succ k ih => exact stoch_mul ih h

theorem power_stationary {n : Nat} {p : Nat → K} {M : Mat K} (h : Stationary n p M) (k : Nat) :
    Stationary n p (power n M k) := by
  induction k with
  | zero =>
    intro j hj
    simp [power, eye, hj]
  | succ k ih =>
    intro j hj
    have : ∀ i, p i * power n M (k + 1) i j = ∑ l ∈ range n, p i * power n M k i l * M l j := by
      intro i
      simp only [power, mul, Finset.mul_sum, mul_assoc]
    simp only [this]
    rw [Finset.sum_comm]
    simp only [← Finset.sum_mul]
    rw [Finset.sum_congr rfl fun l hl => by rw [ih l (mem_range.1 hl)]]
    exact h j hj

theorem power_balanced {n : Nat} {p : Nat → K} {M : Mat K} (h : Balanced n p M) (k : Nat) :
    Balanced n p (power n M k) := by
  induction k with
  | zero =>
    intro i _ j _
    simp only [power, eye]
    by_cases hij : i = j
    · subst hij; rfl
    · rw [if_neg hij, if_neg (fun c => hij c.symm)]; simp
  | succ k ih =>
    intro i hi j hj
    have h2 : power n M (k + 1) j i = mul n M (power n M k) j i := power_comm n M k j hj i hi
    rw [h2]
    simp only [power, mul, Finset.mul_sum]
    refine Finset.sum_congr rfl fun l hl => ?_
    have hl := mem_range.1 hl
    rw [← mul_assoc, ih i hi l hl, ← mul_assoc, h j hj l hl, mul_right_comm]

/-! ### Linear steps -/

theorem linear_rows {n : Nat} {M : Mat K} (h : RowsOne n M) (t : K) :
    RowsOne n fun i j => eye i j - t * (eye i j - M i j) := by
  intro i hi
  simp only [Finset.sum_sub_distrib, ← Finset.mul_sum, h i hi]
  simp [eye, hi]

theorem linear_stationary {n : Nat} {p : Nat → K} {M : Mat K} (h : Stationary n p M) (t : K) :
    Stationary n p fun i j => eye i j - t * (eye i j - M i j) := by
  intro j hj
  have : ∀ i, p i * ((eye i j : K) - t * (eye i j - M i j)) =
      p i * eye i j - t * (p i * eye i j - p i * M i j) := by intro i; ring
  simp only [this, Finset.sum_sub_distrib, ← Finset.mul_sum, h j hj]
  simp [eye, hj]

theorem linear_balanced {n : Nat} {p : Nat → K} {M : Mat K} (h : Balanced n p M) (t : K) :
    Balanced n p fun i j => eye i j - t * (eye i j - M i j) := by
  intro i hi j hj
  have h' := h i hi j hj
  by_cases hij : i = j
  · subst hij; rfl
  · simp only [eye, if_neg hij, if_neg (fun c : j = i => hij c.symm)]
    linear_combination t * h'

theorem linear_nonneg {n : Nat} {M : Mat K} (h : Stoch n M) {t : K} (h0 : 0 ≤ t) (h1 : t ≤ 1) :
    ∀ i < n, ∀ j < n, 0 ≤ eye i j - t * (eye i j - M i j) := by
  intro i hi j hj
  have hm := (h i hi).1 j hj
  have : eye i j - t * (eye i j - M i j) = (1 - t) * eye i j + t * M i j := by ring
  rw [this]
  have he : (0 : K) ≤ eye i j := by unfold eye; split <;> simp
  have := mul_nonneg (sub_nonneg.2 h1) he
  have := mul_nonneg h0 hm
  linarith

/-! ### Exponentials -/

section
variable {ι : Type} [Fintype ι] [DecidableEq ι]

theorem exp_stationary {M : Matrix ι ι ℝ} {p : ι → ℝ} (h : ∀ j, ∑ i, p i * M i j = 0) (j : ι) :
    ∑ i, p i * exp M i j = p j := by
  have hs := hasSum_sum (s := Finset.univ) fun i _ => (hasSum_exp_apply M i j).mul_left (p i)
  have hk : ∀ k, ∀ j, ∑ i, p i * (M ^ (k + 1)) i j = 0 := by
    intro k j
    simp only [pow_succ', Matrix.mul_apply, Finset.mul_sum, ← mul_assoc]
    rw [Finset.sum_comm]
    simp only [← Finset.sum_mul, h, zero_mul, Finset.sum_const_zero]
  have h0 : HasSum (fun k : ℕ => ∑ i, p i * (((k !)⁻¹ : ℝ) * (M ^ k) i j))
      (∑ i, p i * (((0 ! : ℕ) : ℝ)⁻¹ * (M ^ 0) i j)) := by
    apply hasSum_single
    intro k hk0
    obtain ⟨m, rfl⟩ := Nat.exists_eq_succ_of_ne_zero hk0
    have : ∀ i, p i * ((((m.succ) !)⁻¹ : ℝ) * (M ^ m.succ) i j) =
        (((m.succ) !)⁻¹ : ℝ) * (p i * (M ^ (m + 1)) i j) := by intro i; ring
    simp only [this]
    rw [← Finset.mul_sum, hk m j, mul_zero]
  rw [hs.unique h0]
  simp [Matrix.one_apply]

theorem exp_balanced {M : Matrix ι ι ℝ} {p : ι → ℝ} (h : ∀ i j, p i * M i j = p j * M j i) (i j : ι) :
    p i * exp M i j = p j * exp M j i := by
  have hk : ∀ k : ℕ, ∀ i j, p i * (M ^ k) i j = p j * (M ^ k) j i := by
    intro k
    induction k with
    | zero =>
      intro i j
      by_cases hij : i = j
      · subst hij; rfl
      · simp [Matrix.one_apply, hij, Ne.symm hij]
    | succ k ih =>
      intro i j
      rw [pow_succ, Matrix.mul_apply, ← pow_succ, pow_succ', Matrix.mul_apply, Finset.mul_sum,
        Finset.mul_sum]
      refine Finset.sum_congr rfl fun l _ => ?_
      rw [← mul_assoc, ih i l, ← mul_assoc, h j l]
      ring
  have h1 := (hasSum_exp_apply M i j).mul_left (p i)
  have h2 := (hasSum_exp_apply M j i).mul_left (p j)
  refine h1.unique ?_
  have : (fun k : ℕ => p i * (((k !)⁻¹ : ℝ) * (M ^ k) i j)) =
      fun k : ℕ => p j * (((k !)⁻¹ : ℝ) * (M ^ k) j i) := by
    funext k
    rw [mul_left_comm, hk k i j, mul_left_comm]
  rw [this]
  exact h2

end

theorem expm_apply {n : Nat} (M : Mat ℝ) (i j : Fin n) :
    expm n M i j = exp (Matrix.of fun a b : Fin n => M a b) i j := by
  unfold expm
  rw [dif_pos ⟨i.2, j.2⟩]

theorem expm_stationary {n : Nat} {p : Nat → ℝ} {M : Mat ℝ} (h : Stationary n p M) (t : ℝ) :
    Stationary n p (expm n fun i j => -t * (eye i j - M i j)) := by
  intro j hj
  rw [Finset.sum_range]
  have : ∀ i : Fin n, p i * expm n (fun i j => -t * (eye i j - M i j)) i j =
      (fun a : Fin n => p a) i * exp (Matrix.of fun a b : Fin n => -t * (eye (a : Nat) b - M a b)) i ⟨j, hj⟩ := by
    intro i
    rw [← expm_apply (fun i j => -t * (eye i j - M i j)) i ⟨j, hj⟩]
  simp only [this]
  rw [exp_stationary (p := fun a : Fin n => p a)]
  intro b
  simp only [Matrix.of_apply]
  have : ∀ a : Fin n, p a * (-t * ((eye (a : Nat) b : ℝ) - M a b)) =
      -t * (p a * eye (a : Nat) b - p a * M a b) := by intro a; ring
  simp only [this, ← Finset.mul_sum, Finset.sum_sub_distrib]
  rw [← Finset.sum_range (fun a => p a * M a b), ← Finset.sum_range (fun a => p a * (eye a b : ℝ)),
    h b b.2]
  simp [eye]

theorem expm_balanced {n : Nat} {p : Nat → ℝ} {M : Mat ℝ} (h : Balanced n p M) (t : ℝ) :
    Balanced n p (expm n fun i j => -t * (eye i j - M i j)) := by
  intro i hi j hj
  have h1 := expm_apply (fun i j => -t * ((eye i j : ℝ) - M i j)) ⟨i, hi⟩ ⟨j, hj⟩
  have h2 := expm_apply (fun i j => -t * ((eye i j : ℝ) - M i j)) ⟨j, hj⟩ ⟨i, hi⟩
  simp only at h1 h2
  rw [h1, h2]
  refine exp_balanced (p := fun a : Fin n => p a) ?_ ⟨i, hi⟩ ⟨j, hj⟩
  intro a b
  simp only [Matrix.of_apply]
  have h' := h a a.2 b b.2
  by_cases hab : a = b
  · subst hab; rfl
  · have h3 : (a : Nat) ≠ b := fun c => hab (Fin.ext c)
    simp only [eye, if_neg h3, if_neg (Ne.symm h3)]
    linear_combination t * h'

theorem expm_stoch' {n : Nat} {M : Mat ℝ} (h : Stoch n M) {t : ℝ} (ht : 0 ≤ t) :
    Stoch n (expm n fun i j => -t * (eye i j - M i j)) := by
  refine expm_stoch (L := fun i j => eye i j - M i j) ?_ ?_ ht
  · intro i hi
    rw [Finset.sum_sub_distrib, (h i hi).2]
    simp [eye, hi]
  · intro i hi j hj hij
    simp only [eye, if_neg hij]
    have := (h i hi).1 j hj
    linarith

theorem expm_rows {n : Nat} {M : Mat ℝ} (h : RowsOne n M) (t : ℝ) :
    RowsOne n (expm n fun i j => -t * (eye i j - M i j)) := by
  intro i hi
  rw [Finset.sum_range]
  have : ∀ j : Fin n, expm n (fun i j => -t * (eye i j - M i j)) i j =
      exp (Matrix.of fun a b : Fin n => -t * ((eye (a : Nat) b : ℝ) - M a b)) ⟨i, hi⟩ j := by
    intro j
    rw [← expm_apply (fun i j => -t * (eye i j - M i j)) ⟨i, hi⟩ j]
  simp only [this]
  apply exp_row_sum
  intro a
  simp only [Matrix.of_apply]
  rw [← Finset.mul_sum, Finset.sum_sub_distrib, ← Finset.sum_range (fun b => M a b), h a a.2,
    ← Finset.sum_range (fun b => (eye (a : Nat) b : ℝ))]
  simp [eye]

/-! ### Construction -/

theorem rowsOk_of_one {n : Nat} {T : Mat K} (h : RowsOne n T) : rowsOk n T := by
  intro i hi
  refine Or.inl ?_
  have : rowSum n T i = 1 := h i hi
  rw [this]
  unfold isclose
  simp only [sub_self, abs_zero, abs_one, mul_one]
  positivity

theorem mkClu_ok {n : Nat} {T S : Mat K} (h : rowsOk n T) :
    ∃ c, mkClu n T S .none = .ok c ∧ FreshDefault c ∧ c.n = n ∧ c.T = T ∧ c.S = S ∧
      Consistent c.part ∧ c.part.numNodes = n := by
  obtain ⟨q, hq, h1, h2, _⟩ := mk'_none n false
  have he : mkClu n T S .none = .ok { n := n, T := T, S := S, part := q } := by
    unfold mkClu
    rw [if_pos h, hq]
  exact ⟨_, he, he, rfl, rfl, rfl, h1, h2⟩

end Verif.Static
