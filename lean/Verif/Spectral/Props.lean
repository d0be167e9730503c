import Verif.Spectral.Spec
import Mathlib.Tactic.IntervalCases
import Mathlib.Tactic.LinearCombination

/-!
# C92: the spectral gap
-/

namespace Verif.Spectral

open Finset

theorem degree_pos {n : Nat} {adj : Nat → Nat → Bool} (g : Graph n adj) {i : Nat} (hi : i < n) :
    0 < degree n adj i := by
  obtain ⟨j, hj, h⟩ := g.pos i hi
  exact Finset.card_pos.2 ⟨j, Finset.mem_filter.2 ⟨Finset.mem_range.2 hj, h⟩⟩

/-- The counts of stored values are the degrees. -/
theorem degs_lap {n : Nat} {adj : Nat → Nat → Bool} (g : Graph n adj) {i : Nat} (hi : i < n) :
    degs n (lap n adj) i = degree n adj i := by
  unfold degs degree lap
  congr 2
  ext j
  rw [Finset.mem_filter, Finset.mem_filter]
  refine and_congr_right fun _ => ?_
  have hd : (1 / (degree n adj i : ℝ)) ≠ 0 :=
    one_div_ne_zero (by exact_mod_cast (degree_pos g hi).ne')
  rw [sub_sub_cancel]
  cases h : adj i j with
  | true =>
    simp only [if_true, iff_true]
    exact hd
  | false => simp

/-- `Lsym` of an undirected graph. -/
theorem lsym_lap {n : Nat} {adj : Nat → Nat → Bool} (g : Graph n adj) {i j : Nat} (hi : i < n)
    (hj : j < n) : lsym n (lap n adj) i j = (if i = j then 1 else 0) -
      (if adj i j then 1 / (Real.sqrt (degree n adj i) * Real.sqrt (degree n adj j)) else 0) := by
  have hdi : (0 : ℝ) < degree n adj i := by exact_mod_cast degree_pos g hi
  have hdj : (0 : ℝ) < degree n adj j := by exact_mod_cast degree_pos g hj
  have hsi := Real.sqrt_pos.2 hdi
  have hsj := Real.sqrt_pos.2 hdj
  unfold lsym
  rw [degs_lap g hi, degs_lap g hj]
  unfold lap
  have hsq := Real.mul_self_sqrt hdi.le
  rw [mul_sub, sub_mul]
  congr 1
  · by_cases h : i = j
    · subst h
      simp only [if_true]
      field_simp
    · simp [h]
  · cases adj i j with
    | true =>
      simp only [if_true]
      have h1 : 1 / (degree n adj i : ℝ) =
          1 / (Real.sqrt (degree n adj i) * Real.sqrt (degree n adj i)) := by rw [hsq]
      rw [h1]
      field_simp
    | false => simp

theorem lsym_symm {n : Nat} {adj : Nat → Nat → Bool} (g : Graph n adj) :
    Symm n (lsym n (lap n adj)) := by
  intro i hi j hj
  rw [lsym_lap g hi hj, lsym_lap g hj hi, g.symm i hi j hj, mul_comm (Real.sqrt (degree n adj i))]
  congr 1
  by_cases h : i = j
  · subst h; rfl
  · rw [if_neg h, if_neg (Ne.symm h)]

/-- **C92, violated for graphs with different degrees**: the matrix given to the routine for
symmetric matrices is symmetric exactly if all nodes have the same number of neighbours. -/
theorem C92_symmetric_iff_regular_violated {n : Nat} {adj : Nat → Nat → Bool} (g : Graph n adj) :
    Symm n (gapMat n (lap n adj)) ↔ ∃ r, Regular n adj r := by
  have hsum : ∀ i, i < n → 0 < ∑ k ∈ range n, degs n (lap n adj) k := by
    intro i hi
    apply Finset.sum_pos
    · intro k hk
      rw [degs_lap g (Finset.mem_range.1 hk)]
      exact_mod_cast degree_pos g (Finset.mem_range.1 hk)
    · exact ⟨i, Finset.mem_range.2 hi⟩
  constructor
  · intro h
    refine ⟨degree n adj 0, fun i hi => ?_⟩
    have h0 : 0 < n := by omega
    have h1 := h i hi 0 h0
    unfold gapMat piMat at h1
    rw [lsym_symm g i hi 0 h0, degs_lap g hi, degs_lap g h0] at h1
    have h2 := sub_right_injective h1
    rw [div_left_inj' (hsum 0 h0).ne'] at h2
    exact_mod_cast h2.symm
  · rintro ⟨r, hr⟩ i hi j hj
    unfold gapMat piMat
    rw [lsym_symm g i hi j hj, degs_lap g hi, degs_lap g hj, hr i hi, hr j hj]

/-! ## Regular graphs -/

section regular

variable {n : Nat} {adj : Nat → Nat → Bool} {r : Nat}

theorem lsym_regular (g : Graph n adj) (hr : Regular n adj r) {i j : Nat} (hi : i < n)
    (hj : j < n) : lsym n (lap n adj) i j = lap n adj i j := by
  rw [lsym_lap g hi hj]
  unfold lap
  rw [hr i hi, hr j hj, Real.mul_self_sqrt (by positivity)]

theorem gapMat_regular (g : Graph n adj) (hr : Regular n adj r) {i j : Nat} (hi : i < n)
    (hj : j < n) : gapMat n (lap n adj) i j = lap n adj i j - 1 / n := by
  unfold gapMat piMat
  rw [lsym_regular g hr hi hj, degs_lap g hj, hr j hj]
  congr 1
  rw [Finset.sum_congr rfl fun k hk => by
    rw [degs_lap g (Finset.mem_range.1 hk), hr k (Finset.mem_range.1 hk)]]
  rw [Finset.sum_const, Finset.card_range, nsmul_eq_mul]
  have hrp : (r : ℝ) ≠ 0 := by
    have := degree_pos g hi
    rw [hr i hi] at this
    exact_mod_cast this.ne'
  have hn : (n : ℝ) ≠ 0 := by exact_mod_cast (by omega : n ≠ 0)
  field_simp

theorem lap_row_sum (g : Graph n adj) {i : Nat} (hi : i < n) :
    ∑ j ∈ range n, lap n adj i j = 0 := by
  unfold lap
  rw [Finset.sum_sub_distrib, Finset.sum_ite_eq, if_pos (Finset.mem_range.2 hi),
    ← Finset.sum_filter, Finset.sum_const, nsmul_eq_mul]
  have hd : (degree n adj i : ℝ) ≠ 0 := by exact_mod_cast (degree_pos g hi).ne'
  show 1 - (degree n adj i : ℝ) * (1 / (degree n adj i : ℝ)) = 0
  rw [mul_one_div_cancel hd, sub_self]

theorem lap_symm (g : Graph n adj) (hr : Regular n adj r) : Symm n (lap n adj) := by
  intro i hi j hj
  rw [← lsym_regular g hr hi hj, ← lsym_regular g hr hj hi]
  exact lsym_symm g i hi j hj

theorem lap_col_sum (g : Graph n adj) (hr : Regular n adj r) {j : Nat} (hj : j < n) :
    ∑ i ∈ range n, lap n adj i j = 0 := by
  rw [Finset.sum_congr rfl fun i hi => lap_symm g hr i (Finset.mem_range.1 hi) j hj]
  exact lap_row_sum g hj

theorem gapMat_mul (g : Graph n adj) (hr : Regular n adj r) (x : Nat → ℝ) {i : Nat} (hi : i < n) :
    ∑ j ∈ range n, gapMat n (lap n adj) i j * x j =
      ∑ j ∈ range n, lap n adj i j * x j - 1 / n * ∑ j ∈ range n, x j := by
  rw [Finset.mul_sum, ← Finset.sum_sub_distrib]
  apply Finset.sum_congr rfl
  intro j hj
  rw [gapMat_regular g hr hi (Finset.mem_range.1 hj), sub_mul]

/-- Sum of an eigenvector of the Laplacian. -/
theorem eigen_sum (g : Graph n adj) (hr : Regular n adj r) (x : Nat → ℝ) (mu : ℝ)
    (hx : ∀ i < n, ∑ j ∈ range n, lap n adj i j * x j = mu * x i) :
    mu * ∑ i ∈ range n, x i = 0 := by
  rw [Finset.mul_sum, ← Finset.sum_congr rfl fun i hi => hx i (Finset.mem_range.1 hi),
    Finset.sum_comm]
  apply Finset.sum_eq_zero
  intro j hj
  rw [← Finset.sum_mul, lap_col_sum g hr (Finset.mem_range.1 hj), zero_mul]

/-- The quadratic form of the Laplacian. -/
theorem lap_form (g : Graph n adj) (hr : Regular n adj r) (x : Nat → ℝ) :
    2 * ∑ i ∈ range n, x i * ∑ j ∈ range n, lap n adj i j * x j =
      ∑ i ∈ range n, ∑ j ∈ range n, (-lap n adj i j) * (x i - x j) ^ 2 := by
  have h1 : ∀ i ∈ range n, ∑ j ∈ range n, (-lap n adj i j) * (x i - x j) ^ 2 =
      2 * (x i * ∑ j ∈ range n, lap n adj i j * x j) - ∑ j ∈ range n, lap n adj i j * x j ^ 2 := by
    intro i hi
    have h0 := lap_row_sum g (Finset.mem_range.1 hi)
    rw [Finset.mul_sum, Finset.mul_sum, ← Finset.sum_sub_distrib]
    have h2 : ∑ j ∈ range n, lap n adj i j * x i ^ 2 = 0 := by
      rw [← Finset.sum_mul, h0, zero_mul]
    rw [← sub_zero (∑ j ∈ range n, (2 * (x i * (lap n adj i j * x j)) - lap n adj i j * x j ^ 2)),
      ← h2, ← Finset.sum_sub_distrib]
    apply Finset.sum_congr rfl
    intro j _
    ring
  rw [Finset.sum_congr rfl h1, Finset.sum_sub_distrib, Finset.mul_sum]
  have h3 : ∑ i ∈ range n, ∑ j ∈ range n, lap n adj i j * x j ^ 2 = 0 := by
    rw [Finset.sum_comm]
    apply Finset.sum_eq_zero
    intro j hj
    rw [← Finset.sum_mul, lap_col_sum g hr (Finset.mem_range.1 hj), zero_mul]
  rw [h3, sub_zero]

theorem neg_lap_nonneg (i j : Nat) (x : Nat → ℝ) :
    0 ≤ (-lap n adj i j) * (x i - x j) ^ 2 := by
  by_cases hij : i = j
  · subst hij; simp
  · unfold lap
    rw [if_neg hij]
    split
    · have : (0 : ℝ) ≤ 1 / (degree n adj i : ℝ) := by positivity
      have h2 := sq_nonneg (x i - x j)
      rw [zero_sub, neg_neg]
      exact mul_nonneg this h2
    · simp

/-- A connected graph has only constant vectors with eigenvalue zero. -/
theorem kernel_constant (g : Graph n adj) (hr : Regular n adj r) (hc : Connected n adj)
    (x : Nat → ℝ) (hx : ∀ i < n, ∑ j ∈ range n, lap n adj i j * x j = 0) :
    ∀ i < n, ∀ j < n, x i = x j := by
  have hf := lap_form g hr x
  rw [Finset.sum_congr rfl fun i hi => by rw [hx i (Finset.mem_range.1 hi), mul_zero],
    Finset.sum_const_zero, mul_zero] at hf
  have hnn : ∀ i ∈ range n, 0 ≤ ∑ j ∈ range n, (-lap n adj i j) * (x i - x j) ^ 2 :=
    fun i _ => Finset.sum_nonneg fun j _ => neg_lap_nonneg i j x
  have hz : ∀ i < n, ∀ j < n, (-lap n adj i j) * (x i - x j) ^ 2 = 0 := by
    intro i hi j hj
    have h1 := (Finset.sum_eq_zero_iff_of_nonneg hnn).1 hf.symm i (Finset.mem_range.2 hi)
    exact (Finset.sum_eq_zero_iff_of_nonneg fun j _ => neg_lap_nonneg i j x).1 h1 j
      (Finset.mem_range.2 hj)
  intro i hi j hj
  refine (hc (fun k => x k = x j) ⟨j, hj, rfl⟩ ?_ i hi)
  intro a ha b hb hab hadj
  by_cases heq : a = b
  · rw [← heq]; exact hab
  · have h1 := hz a ha b hb
    unfold lap at h1
    rw [if_neg heq, hadj, if_pos rfl, zero_sub, neg_neg] at h1
    have hd : (1 / (degree n adj a : ℝ)) ≠ 0 :=
      one_div_ne_zero (by exact_mod_cast (degree_pos g ha).ne')
    have h2 := (mul_eq_zero.1 h1).resolve_left hd
    have h3 : x a = x b := sub_eq_zero.1 (pow_eq_zero_iff (two_ne_zero)|>.1 h2)
    exact h3 ▸ hab

/-- Eigenvalues of the Laplacian are not negative. -/
theorem eigen_nonneg (g : Graph n adj) (hr : Regular n adj r) {mu : ℝ}
    (h : Eigen n (lap n adj) mu) : 0 ≤ mu := by
  obtain ⟨x, ⟨i, hi, hxi⟩, hx⟩ := h
  have hf := lap_form g hr x
  have hpos : 0 < ∑ i ∈ range n, x i * x i :=
    Finset.sum_pos' (fun k _ => mul_self_nonneg _) ⟨i, Finset.mem_range.2 hi, mul_self_pos.2 hxi⟩
  have h1 : ∑ i ∈ range n, x i * ∑ j ∈ range n, lap n adj i j * x j =
      mu * ∑ i ∈ range n, x i * x i := by
    rw [Finset.mul_sum]
    apply Finset.sum_congr rfl
    intro k hk
    rw [hx k (Finset.mem_range.1 hk)]
    ring
  rw [h1] at hf
  have h2 : 0 ≤ ∑ i ∈ range n, ∑ j ∈ range n, (-lap n adj i j) * (x i - x j) ^ 2 :=
    Finset.sum_nonneg fun i _ => Finset.sum_nonneg fun j _ => neg_lap_nonneg i j x
  by_contra hneg
  have := mul_neg_of_neg_of_pos (not_le.1 hneg) hpos
  linarith

/-- The eigenvalues of the matrix handed to the routine: minus one, and those of the
Laplacian other than zero. -/
theorem eigen_gapMat (g : Graph n adj) (hr : Regular n adj r) (hc : Connected n adj)
    (hn : 0 < n) (mu : ℝ) :
    Eigen n (gapMat n (lap n adj)) mu ↔ mu = -1 ∨ (Eigen n (lap n adj) mu ∧ mu ≠ 0) := by
  have hn' : (n : ℝ) ≠ 0 := by exact_mod_cast hn.ne'
  constructor
  · rintro ⟨x, hx0, hx⟩
    by_cases hmu : mu = -1
    · exact Or.inl hmu
    right
    have h1 : ∀ i < n, ∑ j ∈ range n, lap n adj i j * x j =
        mu * x i + 1 / n * ∑ j ∈ range n, x j := by
      intro i hi
      rw [← hx i hi, gapMat_mul g hr x hi]
      ring
    have hs : (mu + 1) * ∑ i ∈ range n, x i = 0 := by
      have h2 : ∑ i ∈ range n, ∑ j ∈ range n, lap n adj i j * x j = 0 := by
        rw [Finset.sum_comm]
        apply Finset.sum_eq_zero
        intro j hj
        rw [← Finset.sum_mul, lap_col_sum g hr (Finset.mem_range.1 hj), zero_mul]
      rw [Finset.sum_congr rfl fun i hi => h1 i (Finset.mem_range.1 hi), Finset.sum_add_distrib,
        ← Finset.mul_sum, Finset.sum_const, Finset.card_range, nsmul_eq_mul, ← mul_assoc,
        mul_one_div_cancel hn', one_mul] at h2
      rw [add_mul, one_mul]
      exact h2
    have hs0 : ∑ i ∈ range n, x i = 0 := by
      rcases mul_eq_zero.1 hs with h | h
      · exact absurd (by linarith) hmu
      · exact h
    rw [hs0] at h1
    simp only [mul_zero, add_zero] at h1
    refine ⟨⟨x, hx0, h1⟩, ?_⟩
    rintro rfl
    simp only [zero_mul] at h1
    have hcst := kernel_constant g hr hc x h1
    obtain ⟨i, hi, hxi⟩ := hx0
    apply hxi
    rw [Finset.sum_congr rfl fun k hk => hcst k (Finset.mem_range.1 hk) i hi, Finset.sum_const,
      Finset.card_range, nsmul_eq_mul] at hs0
    exact (mul_eq_zero.1 hs0).resolve_left hn'
  · rintro (rfl | ⟨⟨x, hx0, hx⟩, hmu⟩)
    · refine ⟨fun _ => 1, ⟨0, hn, one_ne_zero⟩, fun i hi => ?_⟩
      rw [gapMat_mul g hr _ hi]
      simp only [mul_one]
      rw [lap_row_sum g hi, Finset.sum_const, Finset.card_range, nsmul_eq_mul, mul_one,
        one_div_mul_cancel hn']
      ring
    · refine ⟨x, hx0, fun i hi => ?_⟩
      have hs := (mul_eq_zero.1 (eigen_sum g hr x mu hx)).resolve_left hmu
      rw [gapMat_mul g hr _ hi, hs, mul_zero, sub_zero, hx i hi]

/-- **C92** for connected graphs in which all nodes have the same number of neighbours: a
spectral gap below one is returned. -/
theorem C92_regular_partial (g : Graph n adj) (hr : Regular n adj r) (hc : Connected n adj)
    (gap result : ℝ) (hgap : Gap n (lap n adj) gap) (h1 : gap < 1)
    (hres : Nearest n (gapMat n (lap n adj)) result) : result = gap := by
  obtain ⟨he, h0, hmin⟩ := hgap
  have hn : 0 < n := by
    obtain ⟨_, ⟨i, hi, _⟩, _⟩ := he
    omega
  have hpos : 0 < gap := lt_of_le_of_ne (eigen_nonneg g hr he) (Ne.symm h0)
  have hle := hres.2 gap ((eigen_gapMat g hr hc hn gap).2 (Or.inr ⟨he, h0⟩))
  rw [abs_of_pos hpos] at hle
  rcases (eigen_gapMat g hr hc hn result).1 hres.1 with h | ⟨h2, h3⟩
  · rw [h] at hle
    norm_num at hle
    linarith
  · have h4 := hmin result h2 h3
    rw [abs_of_nonneg (eigen_nonneg g hr h2)] at hle
    linarith

/-- **C92, violated**: for a spectral gap above one the result is minus one. -/
theorem C92_regular_violated (g : Graph n adj) (hr : Regular n adj r) (hc : Connected n adj)
    (gap result : ℝ) (hgap : Gap n (lap n adj) gap) (h1 : 1 < gap)
    (hres : Nearest n (gapMat n (lap n adj)) result) : result = -1 := by
  obtain ⟨he, h0, hmin⟩ := hgap
  have hn : 0 < n := by
    obtain ⟨_, ⟨i, hi, _⟩, _⟩ := he
    omega
  have hle := hres.2 (-1) ((eigen_gapMat g hr hc hn (-1)).2 (Or.inl rfl))
  rcases (eigen_gapMat g hr hc hn result).1 hres.1 with h | ⟨h2, h3⟩
  · exact h
  · have h4 := hmin result h2 h3
    rw [abs_of_nonneg (eigen_nonneg g hr h2)] at hle
    norm_num at hle
    linarith

end regular

/-! ## Complete graphs -/

/-- Every two different nodes are neighbours. -/
def complete (i j : Nat) : Bool := decide (i ≠ j)

theorem complete_graph {n : Nat} (hn : 2 ≤ n) : Graph n complete where
  symm := by
    intro i _ j _
    unfold complete
    rw [decide_eq_decide]
    exact ne_comm
  pos := by
    intro i _
    by_cases h : i = 0
    · exact ⟨1, by omega, by subst h; rfl⟩
    · exact ⟨0, by omega, by simpa [complete] using h⟩

theorem complete_regular {n : Nat} : Regular n complete (n - 1) := by
  intro i hi
  unfold degree complete
  have : (Finset.range n).filter (fun j => decide (i ≠ j) = true) = (Finset.range n).erase i := by
    ext j
    simp only [Finset.mem_filter, Finset.mem_erase, decide_eq_true_eq, Finset.mem_range]
    exact ⟨fun h => ⟨h.2.symm, h.1⟩, fun h => ⟨h.2, h.1.symm⟩⟩
  rw [this, Finset.card_erase_of_mem (Finset.mem_range.2 hi), Finset.card_range]

theorem complete_connected {n : Nat} : Connected n complete := by
  rintro S ⟨k, hk, hS⟩ hcl i hi
  by_cases h : k = i
  · exact h ▸ hS
  · exact hcl k hk i hi hS (by simpa [complete] using h)

theorem complete_mul {n : Nat} (x : Nat → ℝ) {i : Nat} (hi : i < n) :
    ∑ j ∈ range n, lap n complete i j * x j =
      x i - 1 / ((n - 1 : Nat) : ℝ) * (∑ j ∈ range n, x j - x i) := by
  unfold lap
  rw [complete_regular i hi]
  have h1 : ∑ j ∈ range n, x j - x i = ∑ j ∈ range n, (if i = j then 0 else x j) := by
    rw [← Finset.add_sum_erase _ x (Finset.mem_range.2 hi), add_sub_cancel_left,
      ← Finset.add_sum_erase _ (fun j => if i = j then 0 else x j) (Finset.mem_range.2 hi)]
    rw [if_pos rfl, zero_add]
    apply Finset.sum_congr rfl
    intro j hj
    rw [if_neg (Finset.ne_of_mem_erase hj).symm]
  have h2 : x i = ∑ j ∈ range n, (if i = j then x j else 0) := by
    rw [Finset.sum_ite_eq, if_pos (Finset.mem_range.2 hi)]
  rw [h1]
  conv_rhs => rw [h2]
  rw [Finset.mul_sum, ← Finset.sum_sub_distrib]
  apply Finset.sum_congr rfl
  intro j _
  by_cases h : i = j
  · simp [complete, h]
  · simp [complete, h]

/-- **C92, violated for every complete graph**: the gap is `n / (n - 1)`, the result is minus
one. -/
theorem C92_complete_violated (n : Nat) (hn : 2 ≤ n) :
    Gap n (lap n complete) (n / ((n - 1 : Nat) : ℝ)) ∧
    ∀ result, Nearest n (gapMat n (lap n complete)) result ↔ result = -1 := by
  have g := complete_graph hn
  have hr := complete_regular (n := n)
  have hc := complete_connected (n := n)
  have hn1 : (0 : ℝ) < ((n - 1 : Nat) : ℝ) := by exact_mod_cast (by omega : 0 < n - 1)
  have hcast : (n : ℝ) = ((n - 1 : Nat) : ℝ) + 1 := by
    have : n = (n - 1) + 1 := by omega
    exact_mod_cast this
  have hgap : Gap n (lap n complete) (n / ((n - 1 : Nat) : ℝ)) := by
    refine ⟨?_, ?_, ?_⟩
    · refine ⟨fun i => if i = 0 then 1 else if i = 1 then -1 else 0, ⟨0, by omega, by simp⟩, ?_⟩
      intro i hi
      rw [complete_mul _ hi]
      have hs : ∑ j ∈ range n, (if j = 0 then (1 : ℝ) else if j = 1 then -1 else 0) = 0 := by
        have h1 : ∀ j ∈ range n, (if j = 0 then (1 : ℝ) else if j = 1 then -1 else 0) =
            (if j = 0 then 1 else 0) + (if j = 1 then -1 else 0) := by
          intro j _
          by_cases h : j = 0
          · subst h; norm_num
          · rw [if_neg h, if_neg h, zero_add]
        rw [Finset.sum_congr rfl h1, Finset.sum_add_distrib, Finset.sum_ite_eq',
          Finset.sum_ite_eq', if_pos (Finset.mem_range.2 (by omega)),
          if_pos (Finset.mem_range.2 (by omega))]
        norm_num
      rw [hs, hcast]
      field_simp
      ring
    · rw [hcast]
      positivity
    · rintro mu ⟨x, ⟨i, hi, hxi⟩, hx⟩ hmu
      have hs := (mul_eq_zero.1 (eigen_sum g hr x mu hx)).resolve_left hmu
      have h1 := hx i hi
      rw [complete_mul _ hi, hs] at h1
      have h2 : (n : ℝ) / ((n - 1 : Nat) : ℝ) = mu := by
        apply mul_right_cancel₀ hxi
        rw [← h1, hcast]
        field_simp
        ring
      rw [h2]
  refine ⟨hgap, fun result => ⟨fun h => C92_regular_violated g hr hc _ _ hgap ?_ h, ?_⟩⟩
  · rw [hcast, lt_div_iff₀ hn1]
    linarith
  · rintro rfl
    refine ⟨(eigen_gapMat g hr hc (by omega) (-1)).2 (Or.inl rfl), fun mu hmu => ?_⟩
    rcases (eigen_gapMat g hr hc (by omega) mu).1 hmu with h | ⟨h1, h2⟩
    · rw [h]
    · have h3 := hgap.2.2 mu h1 h2
      rw [abs_of_nonneg (eigen_nonneg g hr h1), abs_neg, abs_one]
      refine le_trans ?_ h3
      rw [hcast, le_div_iff₀ hn1]
      linarith

/-! ## A ring of six nodes: the gap is one half -/

/-- Neighbours in a ring of six. -/
def ring6 (i j : Nat) : Bool := decide ((i + 1) % 6 = j ∨ (j + 1) % 6 = i)

theorem ring6_graph : Graph 6 ring6 := ⟨by decide, by decide⟩

theorem ring6_regular : Regular 6 ring6 2 := by unfold Regular; decide

theorem ring6_connected : Connected 6 ring6 := by
  rintro S ⟨k, hk, hS⟩ hcl
  have step : ∀ i < 6, S i → S ((i + 1) % 6) := fun i hi h =>
    hcl i hi _ (Nat.mod_lt _ (by norm_num)) h (by
      unfold ring6
      simp)
  have hall : ∀ m, S ((k + m) % 6) := by
    intro m
    induction m with
    | zero =>
      rw [Nat.add_zero, Nat.mod_eq_of_lt hk]
      exact hS
    | succ m ih =>
      have := step _ (Nat.mod_lt _ (by norm_num)) ih
      rw [Nat.mod_add_mod] at this
      exact this
  intro i hi
  have := hall (i + 6 - k)
  rw [show k + (i + 6 - k) = i + 6 by omega, Nat.add_mod_right, Nat.mod_eq_of_lt hi] at this
  exact this

theorem ring6_mul (x : Nat → ℝ) (i : Nat) (hi : i < 6) :
    ∑ j ∈ range 6, lap 6 ring6 i j * x j = x i - (x ((i + 1) % 6) + x ((i + 5) % 6)) / 2 := by
  have hd : degree 6 ring6 i = 2 := ring6_regular i hi
  unfold lap
  rw [hd]
  interval_cases i <;> simp [Finset.sum_range_succ, ring6] <;> ring

/-- Non-vacuity of `C92_regular_partial`: in the ring of six nodes the gap is one half, and
it is what the routine returns. -/
example : Graph 6 ring6 ∧ Regular 6 ring6 2 ∧ Connected 6 ring6 ∧
    Gap 6 (lap 6 ring6) (1 / 2) ∧ Nearest 6 (gapMat 6 (lap 6 ring6)) (1 / 2) := by
  have hgap : Gap 6 (lap 6 ring6) (1 / 2) := by
    refine ⟨⟨fun i => if i = 0 then 2 else if i = 3 then -2 else if i = 1 ∨ i = 5 then 1 else -1,
      ⟨0, by norm_num, by norm_num⟩, ?_⟩, by norm_num, ?_⟩
    · intro i hi
      rw [ring6_mul _ i hi]
      interval_cases i <;> norm_num
    · rintro mu ⟨x, ⟨i, hi, hxi⟩, hx⟩ hmu
      have e : ∀ i < 6, 2 * (1 - mu) * x i = x ((i + 1) % 6) + x ((i + 5) % 6) := by
        intro i hi
        have := hx i hi
        rw [ring6_mul _ i hi] at this
        linarith
      have key : ∀ b : ℝ, (∀ i < 6, b * x i = x ((i + 1) % 6) + x ((i + 5) % 6)) →
          (b ^ 2 - 4) * (b ^ 2 - 1) * x i = 0 := by
        intro b hb
        have e0 := hb 0 (by norm_num)
        have e1 := hb 1 (by norm_num)
        have e2 := hb 2 (by norm_num)
        have e3 := hb 3 (by norm_num)
        have e4 := hb 4 (by norm_num)
        have e5 := hb 5 (by norm_num)
        norm_num at e0 e1 e2 e3 e4 e5
        interval_cases i
        · linear_combination b ^ 3 * e0 + b ^ 2 * (e1 + e5) + b * (2 * e0 + e2 + e4) +
            (3 * e1 + 3 * e5 + 2 * e3) - 5 * (b * e0 + e1 + e5)
        · linear_combination b ^ 3 * e1 + b ^ 2 * (e2 + e0) + b * (2 * e1 + e3 + e5) +
            (3 * e2 + 3 * e0 + 2 * e4) - 5 * (b * e1 + e2 + e0)
        · linear_combination b ^ 3 * e2 + b ^ 2 * (e3 + e1) + b * (2 * e2 + e4 + e0) +
            (3 * e3 + 3 * e1 + 2 * e5) - 5 * (b * e2 + e3 + e1)
        · linear_combination b ^ 3 * e3 + b ^ 2 * (e4 + e2) + b * (2 * e3 + e5 + e1) +
            (3 * e4 + 3 * e2 + 2 * e0) - 5 * (b * e3 + e4 + e2)
        · linear_combination b ^ 3 * e4 + b ^ 2 * (e5 + e3) + b * (2 * e4 + e0 + e2) +
            (3 * e5 + 3 * e3 + 2 * e1) - 5 * (b * e4 + e5 + e3)
        · linear_combination b ^ 3 * e5 + b ^ 2 * (e0 + e4) + b * (2 * e5 + e1 + e3) +
            (3 * e0 + 3 * e4 + 2 * e2) - 5 * (b * e5 + e0 + e4)
      have h1 := (mul_eq_zero.1 (key _ e)).resolve_right hxi
      have h2 : mu * ((2 - mu) * ((2 * mu - 1) * (2 * mu - 3))) = 0 := by
        have : (4 * mu * (mu - 2)) * ((2 * mu - 1) * (2 * mu - 3)) = 0 := by
          rw [← h1]; ring
        nlinarith
      rcases mul_eq_zero.1 h2 with h | h
      · exact absurd h hmu
      · rcases mul_eq_zero.1 h with h | h
        · linarith
        · rcases mul_eq_zero.1 h with h | h <;> linarith
  refine ⟨ring6_graph, ring6_regular, ring6_connected, hgap, ?_⟩
  refine ⟨(eigen_gapMat ring6_graph ring6_regular ring6_connected (by norm_num) _).2
    (Or.inr ⟨hgap.1, hgap.2.1⟩), fun mu hmu => ?_⟩
  rcases (eigen_gapMat ring6_graph ring6_regular ring6_connected (by norm_num) mu).1 hmu with
    h | ⟨h1, h2⟩
  · rw [h]; norm_num
  · have := hgap.2.2 mu h1 h2
    rw [abs_of_nonneg (eigen_nonneg ring6_graph ring6_regular h1), abs_of_pos (by norm_num)]
    exact this

/-- Three nodes in a line. -/
def line3 (i j : Nat) : Bool := decide (i + 1 = j ∨ j + 1 = i)

/-- Non-vacuity of `C92_symmetric_iff_regular_violated`: a line of three nodes is a graph
with different degrees, so the matrix is not symmetric. -/
example : Graph 3 line3 ∧ Connected 3 line3 ∧ ¬ Symm 3 (gapMat 3 (lap 3 line3)) := by
  have g : Graph 3 line3 := ⟨by decide, by decide⟩
  refine ⟨g, ?_, ?_⟩
  · rintro S ⟨k, hk, hS⟩ hcl
    have h1 : S 1 := by
      interval_cases k
      · exact hcl 0 (by norm_num) 1 (by norm_num) hS rfl
      · exact hS
      · exact hcl 2 (by norm_num) 1 (by norm_num) hS rfl
    intro i hi
    interval_cases i
    · exact hcl 1 (by norm_num) 0 (by norm_num) h1 rfl
    · exact h1
    · exact hcl 1 (by norm_num) 2 (by norm_num) h1 rfl
  · rw [C92_symmetric_iff_regular_violated g]
    rintro ⟨r, hr⟩
    have h0 : degree 3 line3 0 = 1 := by decide
    have h1 : degree 3 line3 1 = 2 := by decide
    have := hr 0 (by norm_num)
    have := hr 1 (by norm_num)
    omega

end Verif.Spectral
