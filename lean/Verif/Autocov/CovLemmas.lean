import Verif.Autocov.AggLemmas

/-!
# Covariances of stochastic matrices

Facts about `diag(p) T - p q^T` and `diag(p) T diag(1/q) T^T diag(p) - p p^T` for dense
index functions.
-/

namespace Verif.Autocov

set_option linter.unusedSectionVars false
set_option linter.dupNamespace false

variable {K : Type} [Field K] [LinearOrder K] [IsStrictOrderedRing K]

/-- `diag(p) T diag(1/q) T^T diag(p) - p p^T`. -/
def fwd (n : Nat) (p q : Nat → K) (T : Nat → Nat → K) (i j : Nat) : K :=
  (∑ k ∈ Finset.range n, p i * T i k * invOrOne q k * T j k * p j) - p i * p j

variable (n : Nat) (p q : Nat → K) (T : Nat → Nat → K)

theorem fwd_symm (i j : Nat) : fwd n p q T i j = fwd n p q T j i := by
  unfold fwd
  rw [mul_comm (p i) (p j)]
  congr 1
  apply Finset.sum_congr rfl
  intro k _
  ring

theorem fwd_zero_mass (hp : ∀ i < n, 0 ≤ p i) (hT : ∀ i < n, ∀ j < n, 0 ≤ T i j)
    (hq : ∀ k < n, q k = ∑ i ∈ Finset.range n, p i * T i k) (k : Nat) (hk : k < n) (h0 : q k = 0) :
    ∀ i < n, p i * T i k = 0 := by
  rw [hq k hk] at h0
  have := (Finset.sum_eq_zero_iff_of_nonneg (s := Finset.range n) (f := fun i => p i * T i k) (by
    intro i hi
    rw [Finset.mem_range] at hi
    exact mul_nonneg (hp i hi) (hT i hi k hk))).1 h0
  intro i hi
  exact this i (Finset.mem_range.2 hi)

theorem fwd_row_sum (hp : ∀ i < n, 0 ≤ p i) (hp1 : ∑ i ∈ Finset.range n, p i = 1)
    (hT : ∀ i < n, ∀ j < n, 0 ≤ T i j) (hT1 : ∀ i < n, ∑ j ∈ Finset.range n, T i j = 1)
    (hq : ∀ k < n, q k = ∑ i ∈ Finset.range n, p i * T i k) (i : Nat) (hi : i < n) :
    ∑ j ∈ Finset.range n, fwd n p q T i j = 0 := by
  unfold fwd
  rw [Finset.sum_sub_distrib, ← Finset.mul_sum, hp1, mul_one, Finset.sum_comm]
  have : ∀ k ∈ Finset.range n,
      ∑ j ∈ Finset.range n, p i * T i k * invOrOne q k * T j k * p j = p i * T i k := by
    intro k hk
    rw [Finset.mem_range] at hk
    have h1 : ∑ j ∈ Finset.range n, p i * T i k * invOrOne q k * T j k * p j =
        p i * T i k * (invOrOne q k * q k) := by
      rw [hq k hk, Finset.mul_sum, Finset.mul_sum]
      apply Finset.sum_congr rfl
      intro j _
      ring
    rw [h1]
    by_cases h0 : q k = 0
    · rw [fwd_zero_mass n p q T hp hT hq k hk h0 i hi, zero_mul]
    · unfold invOrOne
      rw [if_neg h0, one_div, inv_mul_cancel₀ h0, mul_one]
  rw [Finset.sum_congr rfl this, ← Finset.mul_sum, hT1 i hi, mul_one, sub_self]

theorem fwd_psd (hp : ∀ i < n, 0 ≤ p i) (hp1 : ∑ i ∈ Finset.range n, p i = 1)
    (hT : ∀ i < n, ∀ j < n, 0 ≤ T i j) (hT1 : ∀ i < n, ∑ j ∈ Finset.range n, T i j = 1)
    (hq : ∀ k < n, q k = ∑ i ∈ Finset.range n, p i * T i k) (x : Nat → K) :
    0 ≤ ∑ i ∈ Finset.range n, ∑ j ∈ Finset.range n, x i * fwd n p q T i j * x j := by
  have hq0 : ∀ k < n, 0 ≤ q k := by
    intro k hk
    rw [hq k hk]
    apply Finset.sum_nonneg
    intro i hi
    rw [Finset.mem_range] at hi
    exact mul_nonneg (hp i hi) (hT i hi k hk)
  have hq1 : ∑ k ∈ Finset.range n, q k = 1 := by
    rw [Finset.sum_congr rfl fun k hk => hq k (Finset.mem_range.1 hk), Finset.sum_comm, ← hp1]
    apply Finset.sum_congr rfl
    intro i hi
    rw [← Finset.mul_sum, hT1 i (Finset.mem_range.1 hi), mul_one]
  let y : Nat → K := fun k => ∑ i ∈ Finset.range n, x i * (p i * T i k)
  have hy : ∑ k ∈ Finset.range n, y k = ∑ i ∈ Finset.range n, x i * p i := by
    show ∑ k ∈ Finset.range n, ∑ i ∈ Finset.range n, x i * (p i * T i k) = _
    rw [Finset.sum_comm]
    apply Finset.sum_congr rfl
    intro i hi
    rw [← Finset.mul_sum, ← Finset.mul_sum, hT1 i (Finset.mem_range.1 hi), mul_one]
  have hform : ∑ i ∈ Finset.range n, ∑ j ∈ Finset.range n, x i * fwd n p q T i j * x j =
      (∑ k ∈ Finset.range n, invOrOne q k * y k ^ 2) - (∑ k ∈ Finset.range n, y k) ^ 2 := by
    have e1 : ∀ i j, x i * fwd n p q T i j * x j =
        (∑ k ∈ Finset.range n, invOrOne q k * (x i * (p i * T i k)) * (x j * (p j * T j k))) -
          (x i * p i) * (x j * p j) := by
      intro i j
      unfold fwd
      rw [mul_sub, sub_mul, Finset.mul_sum, Finset.sum_mul]
      congr 1
      · apply Finset.sum_congr rfl; intro k _; ring
      · ring
    simp only [e1, Finset.sum_sub_distrib]
    congr 1
    · have : ∀ i, ∑ j ∈ Finset.range n, ∑ k ∈ Finset.range n,
          invOrOne q k * (x i * (p i * T i k)) * (x j * (p j * T j k)) =
          ∑ k ∈ Finset.range n, invOrOne q k * (x i * (p i * T i k)) * y k := by
        intro i
        rw [Finset.sum_comm]
        apply Finset.sum_congr rfl
        intro k _
        rw [← Finset.mul_sum]
      simp only [this]
      rw [Finset.sum_comm]
      apply Finset.sum_congr rfl
      intro k _
      rw [← Finset.sum_mul, ← Finset.mul_sum, pow_two, mul_assoc]
    · rw [hy, pow_two, Finset.sum_mul_sum]
  rw [hform, sub_nonneg]
  have hinv : ∀ k < n, 0 ≤ invOrOne q k := by
    intro k hk
    unfold invOrOne
    split
    · simp
    · exact one_div_nonneg.2 (hq0 k hk)
  have := Finset.sum_sq_le_sum_mul_sum_of_sq_eq_mul (Finset.range n) (r := y)
    (f := fun k => invOrOne q k * y k ^ 2) (g := q)
    (by intro k hk; exact mul_nonneg (hinv k (Finset.mem_range.1 hk)) (sq_nonneg _))
    (by intro k hk; exact hq0 k (Finset.mem_range.1 hk))
    (by
      intro k hk
      rw [Finset.mem_range] at hk
      by_cases h0 : q k = 0
      · have : y k = 0 := by
          apply Finset.sum_eq_zero
          intro i hi
          rw [fwd_zero_mass n p q T hp hT hq k hk h0 i (Finset.mem_range.1 hi), mul_zero]
        rw [this, h0]; simp
      · unfold invOrOne
        rw [if_neg h0]
        field_simp)
  rw [hq1, mul_one] at this
  exact this

theorem cov_row_sum (i : Nat) (hq1 : ∑ k ∈ Finset.range n, q k = 1)
    (hT1 : ∑ j ∈ Finset.range n, T i j = 1) :
    ∑ j ∈ Finset.range n, (p i * T i j - p i * q j) = 0 := by
  rw [Finset.sum_sub_distrib, ← Finset.mul_sum, ← Finset.mul_sum, hq1, hT1, sub_self]

theorem cov_col_sum (j : Nat) (hp1 : ∑ k ∈ Finset.range n, p k = 1)
    (hq : q j = ∑ i ∈ Finset.range n, p i * T i j) :
    ∑ i ∈ Finset.range n, (p i * T i j - p i * q j) = 0 := by
  rw [Finset.sum_sub_distrib, ← Finset.sum_mul, hp1, one_mul, hq, sub_self]

end Verif.Autocov
