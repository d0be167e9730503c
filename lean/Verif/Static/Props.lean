import Verif.Static.Lemmas

/-!
# C73: clustering of a static network
-/

set_option linter.dupNamespace false
set_option linter.unusedSectionVars false

namespace Verif.Static

open Verif.Trans Verif.Louvain Verif.Partition Finset

variable {K : Type} [Field K] [LinearOrder K] [IsStrictOrderedRing K]

theorem total_twoM (n : Nat) (A : Mat K) : ∑ i ∈ range n, degs n A i = twoM n A := rfl

theorem undirected_stationary {n : Nat} {A : Mat K} (eig : Mat K → EigPair K) (h : twoM n A ≠ 0) :
    stationary eig n A false = .ok fun i => strength n A i / twoM n A := by
  unfold stationary
  rw [total_twoM]
  simp only [if_neg h]
  rfl

theorem distribution_strength {n : Nat} {A : Mat K} (hA : Weighted n A) (h : twoM n A ≠ 0) :
    Distribution n fun i => strength n A i / twoM n A := by
  have h0 : ∀ i < n, 0 ≤ strength n A i := fun i hi =>
    Finset.sum_nonneg fun j hj => hA i hi j (mem_range.1 hj)
  have h1 : 0 ≤ twoM n A := Finset.sum_nonneg fun i hi => h0 i (mem_range.1 hi)
  refine ⟨fun i hi => div_nonneg (h0 i hi) h1, ?_⟩
  rw [← Finset.sum_div]
  exact div_self h

/-- What the returned object must be: its matrix has rows that sum to one and keeps the
distribution `p`, its covariance is that of two visits, at the start and at the end, of a walk
started from `p`. -/
structure CovarianceOf (n : Nat) (p : Nat → K) (T : Mat K) (c : Clu K) : Prop where
  nodes : c.n = n
  steps : EqOn n c.T T
  rows : ∀ i < n, ∑ j ∈ range n, c.T i j = 1
  stationary : Stationary n p c.T
  cov : ∀ i < n, ∀ j < n, c.S i j = p i * T i j - p i * p j
  rowZero : ∀ i < n, ∑ j ∈ range n, c.S i j = 0
  colZero : ∀ j < n, ∑ i ∈ range n, c.S i j = 0
  fresh : FreshDefault c
  partition : Consistent c.part ∧ c.part.numNodes = n

theorem static_of {n : Nat} {A : Mat K} {E : Mat K → Mat K} {eig : Mat K → EigPair K} {t : Time K}
    {discrete linearized directed : Bool} {p : Nat → K} {T' : Mat K}
    (hp : stationary eig n A directed = .ok p) (hsum : ∑ i ∈ range n, p i = 1)
    (hrow : RowsOne n (transition E n A t discrete linearized))
    (hst : Stationary n p (transition E n A t discrete linearized))
    (hT : EqOn n (transition E n A t discrete linearized) T') :
    ∃ c, staticClustering E eig n A t discrete linearized directed = .ok c ∧
      CovarianceOf n p T' c := by
  obtain ⟨c, h1, h2, h3, h4, h5, h6, h7⟩ := mkClu_ok (n := n)
    (T := transition E n A t discrete linearized)
    (S := Verif.Autocov.computeS p p (transition E n A t discrete linearized) none)
    (rowsOk_of_one hrow)
  refine ⟨c, ?_, ⟨h3, ?_, ?_, ?_, ?_, ?_, ?_, h2, h6, h7⟩⟩
  · unfold staticClustering
    rw [hp]
    simp only [h1]
  · rw [h4]; exact hT
  · rw [h4]; exact hrow
  · rw [h4]; exact hst
  · intro i hi j hj
    rw [h5, ← hT i hi j hj]
    rfl
  · intro i hi
    rw [h5]
    simp only [Verif.Autocov.computeS, Finset.sum_sub_distrib, ← Finset.mul_sum, hrow i hi, hsum]
    ring
  · intro j hj
    rw [h5]
    simp only [Verif.Autocov.computeS, Finset.sum_sub_distrib, ← Finset.sum_mul, hst j hj, hsum]
    ring

theorem linear_congr {n : Nat} {M N : Mat K} (h : EqOn n M N) (t : K) :
    EqOn n (fun i j => eye i j - t * (eye i j - M i j)) fun i j => eye i j - t * (eye i j - N i j) := by
  intro i hi j hj
  simp only [h i hi j hj]

theorem rows_of_stoch {n : Nat} {M : Mat K} (h : Stoch n M) : RowsOne n M := fun i hi => (h i hi).2

/-- The matrix that each combination of options asks for. -/
noncomputable def Asked (n : Nat) (A : Mat ℝ) (t : Time ℝ) (discrete linearized : Bool) : Mat ℝ :=
  match discrete, t with
  | true, .int k => prod n (List.replicate k (walk n A))
  | _, _ =>
    if linearized then fun i j => eye i j - t.val * (eye i j - walk n A i j)
    else expm n fun i j => -t.val * (eye i j - walk n A i j)

theorem transition_asked {n : Nat} {A : Mat ℝ} (hA : Weighted n A) (t : Time ℝ)
    (discrete linearized : Bool) :
    EqOn n (transition (expm n) n A t discrete linearized) (Asked n A t discrete linearized) := by
  have hw := tstat_walk hA
  unfold transition Asked
  have hexp : expm n (fun i j => -t.val * (eye i j - tstat n A i j)) =
      expm n (fun i j => -t.val * (eye i j - walk n A i j)) := by
    apply expm_congr
    intro i hi j hj
    simp only [hw i hi j hj]
  cases discrete <;> cases t <;> cases linearized
  all_goals first
    | exact (power_congr hw _).trans (power_prod n (walk n A) _)
    | exact linear_congr hw _
    | (simp only [Bool.false_eq_true, if_false]; rw [hexp]; exact EqOn.refl _ _)

theorem transition_rows {n : Nat} {A : Mat ℝ} (hA : Weighted n A) (t : Time ℝ)
    (discrete linearized : Bool) : RowsOne n (transition (expm n) n A t discrete linearized) := by
  have h := tstat_stoch hA
  unfold transition
  cases discrete <;> cases t <;> cases linearized
  all_goals first
    | exact rows_of_stoch (power_stoch h _)
    | exact linear_rows (rows_of_stoch h) _
    | exact expm_rows (rows_of_stoch h) _

theorem transition_stationary {n : Nat} {A : Mat ℝ} {p : Nat → ℝ} (h : Stationary n p (tstat n A))
    (t : Time ℝ) (discrete linearized : Bool) :
    Stationary n p (transition (expm n) n A t discrete linearized) := by
  unfold transition
  cases discrete <;> cases t <;> cases linearized
  all_goals first
    | exact power_stationary h _
    | exact linear_stationary h _
    | exact expm_stationary h _

theorem transition_balanced {n : Nat} {A : Mat ℝ} {p : Nat → ℝ} (h : Balanced n p (tstat n A))
    (t : Time ℝ) (discrete linearized : Bool) :
    Balanced n p (transition (expm n) n A t discrete linearized) := by
  unfold transition
  cases discrete <;> cases t <;> cases linearized
  all_goals first
    | exact power_balanced h _
    | exact linear_balanced h _
    | exact expm_balanced h _

theorem balanced_congr {n : Nat} {p : Nat → K} {M N : Mat K} (h : EqOn n M N) (hN : Balanced n p N) :
    Balanced n p M := by
  intro i hi j hj
  rw [h i hi j hj, h j hj i hi]
  exact hN i hi j hj

theorem stationary_congr {n : Nat} {p : Nat → K} {M N : Mat K} (h : EqOn n M N)
    (hN : Stationary n p N) : Stationary n p M := by
  intro j hj
  rw [← hN j hj]
  exact Finset.sum_congr rfl fun i hi => by rw [h i (mem_range.1 hi) j hj]

/-- **C73.** For every undirected network with at least one edge, every time and all options:
the object is built; its matrix is the asked power, linear step or exponential of the walk; the
strengths divided by their sum are a distribution that this matrix keeps; the covariance is
symmetric and its rows and columns sum to zero. -/
theorem C73_undirected (eig : Mat ℝ → EigPair ℝ) (n : Nat) (A : Mat ℝ) (hA : Weighted n A)
    (hs : Symm n A) (hm : twoM n A ≠ 0) (t : Time ℝ) (discrete linearized : Bool) :
    ∃ c, staticClustering (expm n) eig n A t discrete linearized false = .ok c ∧
      Distribution n (fun i => strength n A i / twoM n A) ∧
      CovarianceOf n (fun i => strength n A i / twoM n A) (Asked n A t discrete linearized) c ∧
      ∀ i < n, ∀ j < n, c.S i j = c.S j i := by
  have hb : Balanced n (fun i => strength n A i / twoM n A) (tstat n A) :=
    balanced_congr (tstat_walk hA) (balanced_walk hA hs _)
  have hst := balanced_stationary hb (rows_of_stoch (tstat_stoch hA))
  have hd := distribution_strength hA hm
  obtain ⟨c, h1, h2⟩ := static_of (undirected_stationary eig hm) hd.2
    (transition_rows hA t discrete linearized) (transition_stationary hst t discrete linearized)
    (transition_asked hA t discrete linearized)
  refine ⟨c, h1, hd, h2, ?_⟩
  intro i hi j hj
  have hb' := balanced_congr (transition_asked hA t discrete linearized).symm
    (transition_balanced hb t discrete linearized) i hi j hj
  rw [h2.cov i hi j hj, h2.cov j hj i hi, hb']
  ring

/-- **C73.** The matrix has no negative entries for powers, for exponentials with a time that is
not negative, and for linear steps up to time one. -/
theorem C73_probabilities (eig : Mat ℝ → EigPair ℝ) (n : Nat) (A : Mat ℝ) (hA : Weighted n A)
    (t : Time ℝ) (discrete linearized directed : Bool) (ht : 0 ≤ t.val)
    (hlin : linearized = true → t.val ≤ 1) (c : Clu ℝ)
    (h : staticClustering (expm n) eig n A t discrete linearized directed = .ok c) :
    Stoch n c.T := by
  have key : Stoch n (transition (expm n) n A t discrete linearized) := by
    intro i hi
    refine ⟨?_, transition_rows hA t discrete linearized i hi⟩
    have hS := tstat_stoch hA
    intro j hj
    unfold transition
    cases discrete <;> cases t <;> cases linearized
    all_goals first
      | exact (power_stoch hS _ i hi).1 j hj
      | exact linear_nonneg hS ht (hlin rfl) i hi j hj
      | exact (expm_stoch' hS ht i hi).1 j hj
  unfold staticClustering at h
  split at h
  · simp at h
  · rename_i p hp
    obtain ⟨c', h1, _, _, h4, _⟩ := mkClu_ok (n := n)
      (T := transition (expm n) n A t discrete linearized)
      (S := Verif.Autocov.computeS p p (transition (expm n) n A t discrete linearized) none)
      (rowsOk_of_one (transition_rows hA t discrete linearized))
    simp only [h1, Except.ok.injEq] at h
    rw [← h, h4]
    exact key

/-- **C73.** `ValueError` is raised for networks whose weights sum to zero, and for no others. -/
theorem C73_refused_iff (E : Mat K → Mat K) (eig : Mat K → EigPair K) (n : Nat) (A : Mat K)
    (t : Time K) (discrete linearized directed : Bool) :
    staticClustering E eig n A t discrete linearized directed = .error .valueError ↔
      twoM n A = 0 := by
  unfold staticClustering stationary
  rw [total_twoM]
  by_cases h : twoM n A = 0
  · simp [h]
  · simp only [if_neg h]
    simp only [h, iff_false]
    cases directed
    · simp only [Bool.false_eq_true, if_false]
      split
      · simp
      · simp
    · simp only [if_true]
      split
      · rename_i e he
        split at he
        · split at he
          · simp only [Except.error.injEq] at he
            rw [← he]; simp
          · simp at he
        · simp only [Except.error.injEq] at he
          rw [← he]; simp
      · split
        · simp
        · simp

/-! ### Modularity -/

open Classical in
theorem pair_congr {n : Nat} {S : Mat K} {f : Mat K} {p : Part} (hp : p.numNodes = n)
    (h : ∀ i < n, ∀ j < n, S i j = f i j) :
    pairStability S p = ∑ i ∈ range n, ∑ j ∈ range n,
      if Together p.clusters i j then f i j else 0 := by
  unfold pairStability
  rw [hp]
  refine Finset.sum_congr rfl fun i hi => Finset.sum_congr rfl fun j hj => ?_
  rw [h i (mem_range.1 hi) j (mem_range.1 hj)]

/-- The options that give the covariance after one step of the walk. -/
inductive OneStep : Time K → Bool → Bool → Prop where
  | power (lin : Bool) : OneStep (.int 1) true lin
  | linear (dis : Bool) (t : Time K) (h : t.val = 1) : OneStep t dis true

theorem transition_one (E : Mat K → Mat K) {n : Nat} {A : Mat K} {t : Time K} {d l : Bool}
    (h : OneStep t d l) : EqOn n (transition E n A t d l) (tstat n A) := by
  cases h with
  | power lin => exact eye_mul _
  | linear _ _ h =>
    have hl : EqOn n (fun i j => eye i j - t.val * (eye i j - tstat n A i j)) (tstat n A) := by
      intro i _ j _
      rw [h]; ring
    unfold transition
    cases d with
    | false => exact hl
    | true =>
      cases t with
      | num t => exact hl
      | int k =>
        have hk : k = 1 := by
          have h' : ((k : Nat) : K) = 1 := h
          exact_mod_cast h'
        subst hk
        exact eye_mul _

/-- **C73.** One step of the walk: for every undirected network with an edge and every partition
of its nodes, the stability of the object is Newman's modularity. -/
theorem C73_modularity (E : Mat K → Mat K) (eig : Mat K → EigPair K) (n : Nat) (A : Mat K)
    (hA : Weighted n A) (hs : Symm n A) (hm : twoM n A ≠ 0) (t : Time K) (d l : Bool)
    (ho : OneStep t d l) :
    ∃ c, staticClustering E eig n A t d l false = .ok c ∧ c.n = n ∧
      ∀ p : Part, Consistent p → p.numNodes = n →
        stability c.S p = modularity n A p.clusters := by
  have hb : Balanced n (fun i => strength n A i / twoM n A) (tstat n A) :=
    balanced_congr (tstat_walk hA) (balanced_walk hA hs _)
  have hst := balanced_stationary hb (rows_of_stoch (tstat_stoch hA))
  have ht := transition_one E (n := n) (A := A) ho
  obtain ⟨c, h1, h2⟩ := static_of (undirected_stationary eig hm) (distribution_strength hA hm).2
    (E := E) (t := t) (discrete := d) (linearized := l) (T' := walk n A)
    (by
      intro i hi
      rw [← (tstat_stoch hA i hi).2]
      exact Finset.sum_congr rfl fun j hj => ht i hi j (mem_range.1 hj))
    (stationary_congr ht hst) (ht.trans (tstat_walk hA))
  refine ⟨c, h1, h2.nodes, fun p hp hn => ?_⟩
  rw [C26_stability_is_pair_sum c.S p hp]
  unfold modularity
  refine pair_congr hn fun i hi j hj => ?_
  rw [h2.cov i hi j hj, flow_walk hA _ i hi j hj]
  field_simp

open Classical in
theorem sum_diag_together {n : Nat} {p : Part} (hp : Consistent p) (hn : p.numNodes = n) (f : Nat → K) :
    (∑ i ∈ range n, ∑ j ∈ range n, if Together p.clusters i j then (if i = j then f i else 0) else 0) =
      ∑ i ∈ range n, f i := by
  refine Finset.sum_congr rfl fun i hi => ?_
  have ht : Together p.clusters i i := by
    obtain ⟨k, hk, _⟩ := (hp.1 i).1 (by rw [hn]; exact mem_range.1 hi)
    exact ⟨k, hk, hk⟩
  rw [Finset.sum_eq_single i]
  · simp [ht]
  · intro j _ hj
    split
    · rw [if_neg (Ne.symm hj)]
    · rfl
  · intro h; exact absurd hi h

/-- **C73.** With `linearized` and any time `t` other than zero, the stability of every partition
is `1 - t` plus `t` times the modularity with resolution `1 / t`: the time only sets the
resolution. -/
theorem C73_resolution (E : Mat K → Mat K) (eig : Mat K → EigPair K) (n : Nat) (A : Mat K)
    (hA : Weighted n A) (hs : Symm n A) (hm : twoM n A ≠ 0) (t : Time K) (ht : t.val ≠ 0) :
    ∃ c, staticClustering E eig n A t false true false = .ok c ∧ c.n = n ∧
      ∀ p : Part, Consistent p → p.numNodes = n →
        stability c.S p = 1 - t.val + t.val * modularityAt (1 / t.val) n A p.clusters := by
  have hb : Balanced n (fun i => strength n A i / twoM n A) (tstat n A) :=
    balanced_congr (tstat_walk hA) (balanced_walk hA hs _)
  have hst := balanced_stationary hb (rows_of_stoch (tstat_stoch hA))
  have hT : transition E n A t false true =
      fun i j => eye i j - t.val * (eye i j - tstat n A i j) := by
    unfold transition
    simp
  have hd := distribution_strength hA hm
  obtain ⟨c, h1, h2⟩ := static_of (undirected_stationary eig hm) hd.2
    (E := E) (t := t) (discrete := false) (linearized := true)
    (T' := fun i j => eye i j - t.val * (eye i j - walk n A i j))
    (by rw [hT]; exact linear_rows (rows_of_stoch (tstat_stoch hA)) _)
    (by rw [hT]; exact linear_stationary hst _) (by rw [hT]; exact linear_congr (tstat_walk hA) _)
  refine ⟨c, h1, h2.nodes, fun p hp hn => ?_⟩
  rw [C26_stability_is_pair_sum c.S p hp]
  classical
  rw [pair_congr hn (f := fun i j => (1 - t.val) * (if i = j then strength n A i / twoM n A else 0) +
    t.val * (A i j / twoM n A -
      1 / t.val * (strength n A i * strength n A j / (twoM n A * twoM n A))))]
  · have hsplit : ∀ i j, (if Together p.clusters i j then
        (1 - t.val) * (if i = j then strength n A i / twoM n A else 0) +
        t.val * (A i j / twoM n A -
          1 / t.val * (strength n A i * strength n A j / (twoM n A * twoM n A))) else 0) =
        (1 - t.val) * (if Together p.clusters i j then
          (if i = j then strength n A i / twoM n A else 0) else 0) +
        t.val * (if Together p.clusters i j then A i j / twoM n A -
          1 / t.val * (strength n A i * strength n A j / (twoM n A * twoM n A)) else 0) := by
      intro i j
      split <;> simp
    simp only [hsplit, Finset.sum_add_distrib, ← Finset.mul_sum]
    rw [sum_diag_together hp hn (fun i => strength n A i / twoM n A), hd.2]
    unfold modularityAt
    ring
  · intro i hi j hj
    rw [h2.cov i hi j hj]
    have hf := flow_walk hA (twoM n A) i hi j hj
    simp only [eye]
    by_cases hij : i = j
    · subst hij
      simp only [if_true]
      have : strength n A i / twoM n A * (1 - t.val * (1 - walk n A i i)) =
          (1 - t.val) * (strength n A i / twoM n A) +
            t.val * (strength n A i / twoM n A * walk n A i i) := by ring
      rw [this, hf]
      field_simp
      ring
    · simp only [if_neg hij]
      have : strength n A i / twoM n A * (0 - t.val * (0 - walk n A i j)) =
          t.val * (strength n A i / twoM n A * walk n A i j) := by ring
      rw [this, hf]
      field_simp
      ring

end Verif.Static
