import Verif.Static.Props

/-!
# C73: directed networks
-/

set_option linter.dupNamespace false
set_option linter.unusedSectionVars false

namespace Verif.Static

open Verif.Trans Verif.Louvain Verif.Partition Finset

variable {K : Type} [Field K] [LinearOrder K] [IsStrictOrderedRing K]

/-- A vector without negative entries that the walk keeps vanishes at a node only if it vanishes
at all the nodes from which that node can be reached. -/
theorem zero_back {n : Nat} {A : Mat K} (hA : Weighted n A) {u : Nat → K} (h0 : ∀ i < n, 0 ≤ u i)
    (hst : Stationary n u (walk n A)) {i j : Nat}
    (hp : Relation.ReflTransGen (fun a b => a < n ∧ b < n ∧ 0 < A a b) i j) (hj : u j = 0) :
    u i = 0 := by
  induction hp with
  | refl => exact hj
  | tail _ hbc ih =>
    rename_i b c _
    obtain ⟨hb, hc, hpos⟩ := hbc
    apply ih
    have hsum := hst c hc
    rw [hj] at hsum
    have hw := walk_stoch hA
    have := (Finset.sum_eq_zero_iff_of_nonneg (fun k hk => mul_nonneg (h0 k (mem_range.1 hk))
      ((hw k (mem_range.1 hk)).1 c hc))).1 hsum b (mem_range.2 hb)
    have hs : 0 < strength n A b := lt_of_lt_of_le hpos
      (Finset.single_le_sum (f := fun k => A b k) (fun k hk => hA b hb k (mem_range.1 hk))
        (mem_range.2 hc))
    rcases mul_eq_zero.1 this with h | h
    · exact h
    · unfold walk at h
      rw [if_neg hs.ne'] at h
      exact absurd h (div_pos hpos hs).ne'

theorem abs_stationary {n : Nat} {T : Mat K} (hT : Stoch n T) {v : Nat → K}
    (h : Stationary n v T) : Stationary n (fun i => |v i|) T := by
  have hle : ∀ j ∈ range n, |v j| ≤ ∑ i ∈ range n, |v i| * T i j := by
    intro j hj
    have hj := mem_range.1 hj
    conv_lhs => rw [← h j hj]
    refine (Finset.abs_sum_le_sum_abs _ _).trans (Finset.sum_le_sum fun i hi => ?_)
    rw [abs_mul, abs_of_nonneg ((hT i (mem_range.1 hi)).1 j hj)]
  have hsum : ∑ j ∈ range n, |v j| = ∑ j ∈ range n, ∑ i ∈ range n, |v i| * T i j := by
    rw [Finset.sum_comm]
    refine Finset.sum_congr rfl fun i hi => ?_
    rw [← Finset.mul_sum, (hT i (mem_range.1 hi)).2, mul_one]
  have := (Finset.sum_eq_sum_iff_of_le hle).1 hsum
  intro j hj
  exact (this j (mem_range.2 hj)).symm

/-- On a strongly connected network, the entries of a vector that the walk keeps have all the
same sign. -/
theorem same_sign {n : Nat} {A : Mat K} (hA : Weighted n A) (hc : StronglyConnected n A)
    {v : Nat → K} (h : Stationary n v (walk n A)) (hv : ∃ i < n, v i ≠ 0) :
    (∀ i < n, 0 < v i) ∨ ∀ i < n, v i < 0 := by
  have habs := abs_stationary (walk_stoch hA) h
  have hplus : Stationary n (fun i => |v i| + v i) (walk n A) := by
    intro j hj
    simp only [add_mul, Finset.sum_add_distrib]
    rw [habs j hj, h j hj]
  have hminus : Stationary n (fun i => |v i| - v i) (walk n A) := by
    intro j hj
    simp only [sub_mul, Finset.sum_sub_distrib]
    rw [habs j hj, h j hj]
  have hp0 : ∀ i < n, 0 ≤ |v i| + v i := fun i _ => by linarith [neg_abs_le (v i)]
  have hm0 : ∀ i < n, 0 ≤ |v i| - v i := fun i _ => by linarith [le_abs_self (v i)]
  obtain ⟨i0, hi0, hne⟩ := hv
  rcases lt_or_gt_of_ne hne with hneg | hpos
  · right
    intro i hi
    by_contra hcon
    push Not at hcon
    have hz : |v i| - v i = 0 := by rw [abs_of_nonneg hcon]; ring
    have := zero_back hA hm0 hminus (hc i0 hi0 i hi) hz
    rw [abs_of_neg hneg] at this
    linarith
  · left
    intro i hi
    by_contra hcon
    push Not at hcon
    have hz : |v i| + v i = 0 := by rw [abs_of_nonpos hcon]; ring
    have := zero_back hA hp0 hplus (hc i0 hi0 i hi) hz
    rw [abs_of_pos hpos] at this
    linarith

theorem twoM_pos {n : Nat} {A : Mat K} (hA : Weighted n A) {i j : Nat} (hi : i < n) (hj : j < n)
    (h : 0 < A i j) : 0 < twoM n A := by
  have h1 : A i j ≤ ∑ j ∈ range n, A i j :=
    Finset.single_le_sum (f := fun k => A i k) (fun k hk => hA i hi k (mem_range.1 hk)) (mem_range.2 hj)
  have h2 : ∑ j ∈ range n, A i j ≤ twoM n A :=
    Finset.single_le_sum (f := fun i => ∑ j ∈ range n, A i j)
      (fun k hk => Finset.sum_nonneg fun l hl => hA k (mem_range.1 hk) l (mem_range.1 hl)) (mem_range.2 hi)
  linarith

/-- **C73, partial.** A strongly connected network, and a solver that finds the eigenvalue one
with an eigenvector whose real part is not zero: for all times and options the object is built;
its probabilities are positive, sum to one, are kept by the walk and are the only ones with these
properties; the covariance is that of this distribution and its rows and columns sum to zero.
Missing: solvers that find another eigenvalue of modulus one. -/
theorem C73_directed_partial (eig : Mat ℝ → EigPair ℝ) (n : Nat) (A : Mat ℝ) (hA : Weighted n A)
    (hc : StronglyConnected n A) (hm : twoM n A ≠ 0)
    (heig : IsEig n (fun i j => walk n A j i) (eig fun i j => tstat n A j i))
    (hone : (eig fun i j => tstat n A j i).wr = 1) (hreal : (eig fun i j => tstat n A j i).wi = 0)
    (hv : ∃ i < n, (eig fun i j => tstat n A j i).vr i ≠ 0)
    (t : Time ℝ) (discrete linearized : Bool) :
    ∃ c p, staticClustering (expm n) eig n A t discrete linearized true = .ok c ∧
      (∀ i < n, 0 < p i) ∧ ∑ i ∈ range n, p i = 1 ∧ Stationary n p (walk n A) ∧
      (∀ q, Distribution n q → Stationary n q (walk n A) → ∀ i < n, q i = p i) ∧
      CovarianceOf n p (Asked n A t discrete linearized) c := by
  generalize hr : (eig fun i j => tstat n A j i) = r at heig hone hreal hv
  have hst : Stationary n r.vr (walk n A) := by
    intro j hj
    have := heig.1 j hj
    rw [hone, hreal] at this
    simp only [one_mul, zero_mul, sub_zero] at this
    rw [← this]
    exact Finset.sum_congr rfl fun i _ => mul_comm _ _
  have hsign := same_sign hA hc hst hv
  obtain ⟨i0, hi0, _⟩ := hv
  have hne : (range n).Nonempty := ⟨i0, mem_range.2 hi0⟩
  set s := ∑ i ∈ range n, r.vr i with hs
  have hs0 : s ≠ 0 := by
    rcases hsign with h | h
    · exact (Finset.sum_pos (fun i hi => h i (mem_range.1 hi)) hne).ne'
    · exact (Finset.sum_neg (fun i hi => h i (mem_range.1 hi)) hne).ne
  have hpos : ∀ i < n, 0 < r.vr i / s := by
    intro i hi
    rcases hsign with h | h
    · exact div_pos (h i hi) (Finset.sum_pos (fun i hi => h i (mem_range.1 hi)) hne)
    · exact div_pos_of_neg_of_neg (h i hi) (Finset.sum_neg (fun i hi => h i (mem_range.1 hi)) hne)
  have hsum : ∑ i ∈ range n, r.vr i / s = 1 := by
    rw [← Finset.sum_div]
    exact div_self hs0
  have hst' : Stationary n (fun i => r.vr i / s) (walk n A) := by
    intro j hj
    simp only [div_mul_eq_mul_div]
    rw [← Finset.sum_div, hst j hj]
  have hp : stationary eig n A true = .ok fun i => r.vr i / s := by
    unfold stationary
    rw [total_twoM]
    simp only [if_neg hm, if_true, hr, hone, hreal]
    rw [if_pos (by ring), if_neg hs0]
  obtain ⟨c, h1, h2⟩ := static_of hp hsum (transition_rows hA t discrete linearized)
    (transition_stationary (stationary_congr (tstat_walk hA) hst') t discrete linearized)
    (transition_asked hA t discrete linearized)
  refine ⟨c, _, h1, hpos, hsum, hst', ?_, h2⟩
  intro q hq hqs i hi
  by_contra hcon
  have hd : Stationary n (fun i => q i - r.vr i / s) (walk n A) := by
    intro j hj
    simp only [sub_mul, Finset.sum_sub_distrib]
    rw [hqs j hj, hst' j hj]
  have hz : ∑ i ∈ range n, (q i - r.vr i / s) = 0 := by
    rw [Finset.sum_sub_distrib, hq.2, hsum, sub_self]
  rcases same_sign hA hc hd ⟨i, hi, sub_ne_zero.2 hcon⟩ with h | h
  · exact absurd hz (Finset.sum_pos (fun i hi => h i (mem_range.1 hi)) hne).ne'
  · exact absurd hz (Finset.sum_neg (fun i hi => h i (mem_range.1 hi)) hne).ne

/-- **C73, violated.** Whatever the network, options and time: when the solver returns an
eigenvalue other than one, the object holds no numbers or the call fails.  All the eigenvectors
of the other eigenvalues sum to zero, and the code divides by this sum. -/
theorem C73_other_eigenvalue_violated (E : Mat K → Mat K) (eig : Mat K → EigPair K) (n : Nat)
    (A : Mat K) (hA : Weighted n A)
    (heig : IsEig n (fun i j => walk n A j i) (eig fun i j => tstat n A j i))
    (hone : (eig fun i j => tstat n A j i).wr ≠ 1 ∨ (eig fun i j => tstat n A j i).wi ≠ 0)
    (t : Time K) (discrete linearized : Bool) :
    ∃ e, staticClustering E eig n A t discrete linearized true = .error e := by
  generalize hr : (eig fun i j => tstat n A j i) = r at heig hone
  have hw := walk_stoch hA
  have hsw : ∀ v : Nat → K, ∑ i ∈ range n, ∑ j ∈ range n, walk n A j i * v j = ∑ j ∈ range n, v j := by
    intro v
    rw [Finset.sum_comm]
    refine Finset.sum_congr rfl fun j hj => ?_
    rw [← Finset.sum_mul, (hw j (mem_range.1 hj)).2, one_mul]
  have e1 : ∑ j ∈ range n, r.vr j = r.wr * ∑ j ∈ range n, r.vr j - r.wi * ∑ j ∈ range n, r.vi j := by
    conv_lhs => rw [← hsw r.vr]
    rw [Finset.sum_congr rfl fun i hi => heig.1 i (mem_range.1 hi), Finset.sum_sub_distrib,
      Finset.mul_sum, Finset.mul_sum]
  have e2 : ∑ j ∈ range n, r.vi j = r.wr * ∑ j ∈ range n, r.vi j + r.wi * ∑ j ∈ range n, r.vr j := by
    conv_lhs => rw [← hsw r.vi]
    rw [Finset.sum_congr rfl fun i hi => heig.2.1 i (mem_range.1 hi), Finset.sum_add_distrib,
      Finset.mul_sum, Finset.mul_sum]
  have hz : ∑ j ∈ range n, r.vr j = 0 := by
    generalize ∑ j ∈ range n, r.vr j = a at e1 e2
    generalize ∑ j ∈ range n, r.vi j = b at e1 e2
    have h1 : (1 - r.wr) * a + r.wi * b = 0 := by linear_combination e1
    have h2 : (1 - r.wr) * b - r.wi * a = 0 := by linear_combination e2
    have h3 : ((1 - r.wr) * (1 - r.wr) + r.wi * r.wi) * a = 0 := by
      linear_combination (1 - r.wr) * h1 - r.wi * h2
    rcases mul_eq_zero.1 h3 with h | h
    · exfalso
      have ha := mul_self_nonneg (1 - r.wr)
      have hb := mul_self_nonneg r.wi
      rcases hone with h' | h'
      · exact h' (by
          have : (1 - r.wr) * (1 - r.wr) = 0 := by linarith
          linarith [mul_self_eq_zero.1 this])
      · exact h' (mul_self_eq_zero.1 (by linarith))
    · exact h
  unfold staticClustering stationary
  rw [total_twoM]
  by_cases hm : twoM n A = 0
  · exact ⟨.valueError, by simp [hm]⟩
  · simp only [if_neg hm, if_true, hr]
    by_cases h1 : r.wr * r.wr + r.wi * r.wi = 1
    · exact ⟨.notANumber, by simp [h1, hz]⟩
    · exact ⟨.assertionError, by simp [h1]⟩

/-- The network of two nodes with an edge. -/
def pair : Mat ℚ := fun i j => if i + j = 1 then 1 else 0

/-- A solver that finds the eigenvalue `-1` of `pair`. -/
def minusOne : EigPair ℚ := { wr := -1, wi := 0, vr := fun i => if i = 0 then 1 else -1, vi := fun _ => 0 }

theorem pair_weighted : Weighted 2 pair := by
  intro i _ j _
  unfold pair
  split <;> norm_num

theorem pair_connected : StronglyConnected 2 pair := by
  have step : ∀ a < 2, ∀ b < 2, a ≠ b → a < 2 ∧ b < 2 ∧ 0 < pair a b := by decide +kernel
  intro i hi j hj
  by_cases h : i = j
  · subst h; exact .refl
  · exact .single (step i hi j hj h)

/-- **C73, violated.** A strongly connected network and a correct solver: the eigenvalue `-1`
also has modulus one, the test accepts it, and the probabilities are no numbers. -/
theorem C73_directed_violated : ∃ (n : Nat) (A : Mat ℚ) (r : EigPair ℚ), Weighted n A ∧
    StronglyConnected n A ∧ IsEig n (fun i j => walk n A j i) r ∧ r.wr * r.wr + r.wi * r.wi = 1 ∧
    ∀ E t discrete linearized,
      staticClustering E (fun _ => r) n A t discrete linearized true = .error .notANumber := by
  refine ⟨2, pair, minusOne, pair_weighted, pair_connected, ⟨?_, ?_, 0, by decide, Or.inl ?_⟩, ?_, ?_⟩
  · decide +kernel
  · decide +kernel
  · decide +kernel
  · decide +kernel
  · intro E t d l
    have hs : stationary (fun _ => minusOne) 2 pair true = .error .notANumber := by
      unfold stationary
      rw [if_neg (by decide +kernel)]
      simp only [if_true]
      rw [if_pos (by decide +kernel), if_pos (by decide +kernel)]
    unfold staticClustering
    rw [hs]

/-- **C73, violated.** `discrete_time_rw` is silently ignored when the time is not a Python
`int`, as for `2.0` or a number from a numpy array: instead of two steps of the walk, which on a
single edge return to the start, the object has a matrix with negative entries. -/
theorem C73_discrete_violated : ∃ (n : Nat) (A : Mat ℚ), Weighted n A ∧ Symm n A ∧
    EqOn n (prod n [walk n A, walk n A]) eye ∧ ∀ E eig, ∃ c,
      staticClustering E eig n A (.num 2) true true false = .ok c ∧ c.T 0 0 = -1 ∧ c.T 0 1 = 2 := by
  refine ⟨2, pair, pair_weighted, ?_, ?_, ?_⟩
  · unfold Symm; decide +kernel
  · unfold EqOn; decide +kernel
  · intro E eig
    obtain ⟨c, h1, _, _, h4, _⟩ := mkClu_ok (n := 2) (T := transition E 2 pair (.num 2) true true)
      (S := Verif.Autocov.computeS (fun i => strength 2 pair i / twoM 2 pair)
        (fun i => strength 2 pair i / twoM 2 pair) (transition E 2 pair (.num 2) true true) none)
      (rowsOk_of_one (linear_rows (rows_of_stoch (tstat_stoch pair_weighted)) _))
    refine ⟨c, ?_, ?_, ?_⟩
    · unfold staticClustering
      rw [undirected_stationary eig (by decide +kernel)]
      simp only [h1]
    · rw [h4]
      have : transition E 2 pair (.num 2) true true =
          fun i j => eye i j - 2 * (eye i j - tstat 2 pair i j) := rfl
      rw [this]; decide +kernel
    · rw [h4]
      have : transition E 2 pair (.num 2) true true =
          fun i j => eye i j - 2 * (eye i j - tstat 2 pair i j) := rfl
      rw [this]; decide +kernel

end Verif.Static
