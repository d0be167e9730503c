import Verif.StaticSparse.Props

/-!
# C110: the arrays of a static network
-/

namespace Verif.StaticSparse

open Verif.Csr Verif.Autocov Verif.Partition Verif.SparseLouvain
open Verif.Louvain (Sched Params listSet sIsZero findLouvain mkClu)
open Verif.Trans (Mat eye Stoch)
open Verif.Static (EigPair strength twoM Weighted Symm Time transition stationary tstat Stationary Balanced
  staticClustering RowsOne)

variable {K : Type} [Field K] [LinearOrder K] [IsStrictOrderedRing K]

/-- Every matrix can be stored. -/
def store (n : Nat) (M : Mat K) : Csr K :=
  ofRows n ((List.range n).map fun i => (List.range n).filterMap fun j => if M i j = 0 then none else some (j, M i j))

theorem stored_store (n : Nat) (M : Mat K) : Stored n M (store n M) := by
  have hrow : ∀ i < n, (store n M).row i =
      (List.range n).filterMap fun j => if M i j = 0 then none else some (j, M i j) :=
    fun i hi => row_ofRows_map _ _ _ _ hi
  have hmem : ∀ i < n, ∀ e ∈ (store n M).row i, e.1 < n ∧ e.2 = M i e.1 ∧ e.2 ≠ 0 := by
    intro i hi e he
    rw [hrow i hi, List.mem_filterMap] at he
    obtain ⟨j, hj, he⟩ := he
    split at he
    · cases he
    · rename_i h
      cases he
      exact ⟨List.mem_range.1 hj, rfl, h⟩
  have hnr : (store n M).nrows = n := by simp [store]
  have hnd : (store n M).NoRepeats := by
    intro i hi
    rw [hnr] at hi
    rw [hrow i hi]
    have : ((List.range n).filterMap fun j => if M i j = 0 then none else some (j, M i j)).map Prod.fst =
        (List.range n).filter fun j => decide (M i j ≠ 0) := by
      rw [List.map_filterMap, ← List.filterMap_eq_filter]
      apply List.filterMap_congr
      intro j _
      by_cases h : M i j = 0 <;> simp [h, Option.guard]
    rw [this]
    exact List.nodup_range.filter _
  refine ⟨?_, hnr, rfl, hnd, ?_, fun i hi e he => (hmem i hi e he).2.2⟩
  · apply wf_ofRows
    intro r hr e he
    obtain ⟨i, hi, rfl⟩ := List.mem_map.1 hr
    rw [← hrow i (List.mem_range.1 hi)] at he
    exact (hmem i (List.mem_range.1 hi) e he).1
  · intro i hi j hj
    unfold Csr.val
    by_cases h : M i j = 0
    · rw [h]
      apply sumAt_eq_zero
      rintro e he rfl
      obtain ⟨_, h1, h2⟩ := hmem i hi e he
      exact h2 (h1.trans h)
    · have : (j, M i j) ∈ (store n M).row i := by
        rw [hrow i hi, List.mem_filterMap]
        exact ⟨j, List.mem_range.2 hj, by rw [if_neg h]⟩
      exact sumAt_of_mem _ (hnd i (by rw [hnr]; exact hi)) _ this

theorem Stored.entry {n : Nat} {M : Mat K} {T : Csr K} (h : Stored n M T) {i : Nat} (hi : i < n) :
    ∀ e ∈ T.row i, e.1 < n ∧ M i e.1 = e.2 := by
  intro e he
  have h1 : e.1 < n := by have := h.wf.row_lt i e he; rw [h.cols] at this; exact this
  refine ⟨h1, ?_⟩
  rw [← h.val i hi e.1 h1]
  exact sumAt_of_mem _ (h.once i (by rw [h.rows]; exact hi)) e he

theorem transition_keeps_stationary {n : Nat} {A : Mat K} {E : Mat K → Mat K} (hE : Keeps n E) {p : Nat → K}
    (h : Stationary n p (tstat n A)) (t : Time K) (discrete linearized : Bool) :
    Stationary n p (transition E n A t discrete linearized) := by
  unfold transition
  cases discrete <;> cases t <;> cases linearized
  all_goals first
    | exact Verif.Static.power_stationary h _
    | exact Verif.Static.linear_stationary h _
    | exact hE.stationary p _ _ h

theorem transition_keeps_balanced {n : Nat} {A : Mat K} {E : Mat K → Mat K} (hE : Keeps n E) {p : Nat → K}
    (h : Balanced n p (tstat n A)) (t : Time K) (discrete linearized : Bool) :
    Balanced n p (transition E n A t discrete linearized) := by
  unfold transition
  cases discrete <;> cases t <;> cases linearized
  all_goals first
    | exact Verif.Static.power_balanced h _
    | exact Verif.Static.linear_balanced h _
    | exact hE.balanced p _ _ h

/-- A node without edges stays where it is. -/
theorem row_isolated {n : Nat} {A : Mat K} (hA : Weighted n A) {E : Mat K → Mat K} (hE : Keeps n E) {z : Nat}
    (hz : z < n) (hs : strength n A z = 0) (t : Time K) (discrete linearized : Bool) :
    ∀ j < n, transition E n A t discrete linearized z j = if j = z then 1 else 0 := by
  have hsum : ∀ (M : Mat K) (j : Nat), ∑ i ∈ Finset.range n, (if i = z then (1 : K) else 0) * M i j = M z j := by
    intro M j
    rw [Finset.sum_eq_single z]
    · simp
    · intro i _ hi; simp [hi]
    · intro h; exact absurd (Finset.mem_range.2 hz) h
  have h0 : Stationary n (fun i => if i = z then (1 : K) else 0) (tstat n A) := by
    intro j hj
    rw [hsum, Verif.Static.tstat_walk hA z hz j hj]
    unfold Verif.Static.walk
    rw [if_pos hs]
    by_cases h : z = j
    · simp [h]
    · simp only
      rw [if_neg h, if_neg (fun h' : j = z => h h'.symm)]
  intro j hj
  have := transition_keeps_stationary hE h0 t discrete linearized j hj
  rw [hsum] at this
  exact this

/-- Nobody reaches a node without edges. -/
theorem col_isolated {n : Nat} {A : Mat K} (hA : Weighted n A) (hsym : Symm n A) {E : Mat K → Mat K} (hE : Keeps n E)
    {z : Nat} (hz : z < n) (hs : strength n A z = 0) (t : Time K) (discrete linearized : Bool) :
    ∀ i < n, i ≠ z → transition E n A t discrete linearized i z = 0 := by
  intro i hi hiz
  by_cases h : strength n A i = 0
  · rw [row_isolated hA hE hi h t discrete linearized z hz, if_neg (fun h => hiz h.symm)]
  · have hb : Balanced n (fun i => strength n A i / 1) (tstat n A) :=
      Verif.Static.balanced_congr (Verif.Static.tstat_walk hA) (Verif.Static.balanced_walk hA hsym 1)
    have := transition_keeps_balanced hE hb t discrete linearized i hi z hz
    simp only [hs, div_one, zero_mul] at this
    exact (mul_eq_zero.1 this).resolve_left h

theorem keeps_expm (n : Nat) : Keeps (K := ℝ) n (Verif.Trans.expm n) :=
  ⟨fun _ _ t h => Verif.Static.expm_stationary h t, fun _ _ t h => Verif.Static.expm_balanced h t⟩

/-- **C110.** For every undirected sparse network whose last node has no edge, every time and all options:
if the first pass over the nodes improves the stability and leaves so few clusters that their pairs
are fewer than the stored numbers, the search returns no partition; its second pass reads outside
the arrays. -/
theorem C110_last_isolated_violated (eig : Mat K → EigPair K) {E : Mat K → Mat K} {z : Nat} (hE : Keeps (z + 1) E)
    (A : Mat K) (hA : Weighted (z + 1) A) (hsym : Symm (z + 1) A) (hm : twoM (z + 1) A ≠ 0)
    (hiso : NoEdge (z + 1) A z) (t : Time K) (discrete linearized : Bool) (T : Csr K)
    (hT : Stored (z + 1) (transition E (z + 1) A t discrete linearized) T) (sc : Sched) (par : Params K)
    (hthr : par.thr < 1) (hsub : 1 < par.nSub) (hmeta : 1 ≤ par.nMeta) {c : SClu K}
    (hc : staticSparse eig (z + 1) A T false = .ok c) (hz : c.A.isAllZeros = false) {d : K} {k : Nat} {mp : Part}
    (hpass : firstPass sc par c = .ok (d, k, mp)) (hd : par.thr < d) (hmerge : mp.clusters.length < z + 1)
    (hfew : mp.clusters.length ^ 2 < T.data.length) :
    (∀ idx, (c.A.aggregate (mp.clusters.map listSet)).deltaOut (mp.clusters.length - 1) idx = .error .outOfBounds) ∧
      ∃ e, sFindLouvain sc par c = .error e := by
  have hs : strength (z + 1) A z = 0 := Finset.sum_eq_zero fun j hj => (hiso j (Finset.mem_range.1 hj)).1
  unfold staticSparse at hc
  rw [Verif.Static.undirected_stationary eig hm] at hc
  simp only at hc
  have hmk : mkS (fromT T (some fun i => strength (z + 1) A i / twoM (z + 1) A)
      (some fun i => strength (z + 1) A i / twoM (z + 1) A)) .none = .ok c := by
    split at hc
    · cases hc
    · rename_i c' h
      cases hc
      exact h
  refine C110_stored_violated sc par hthr hsub hmeta T hT.wf (by rw [hT.cols, hT.rows]) hT.once _ hT.rows ?_ ?_
    (by simp only [hs, zero_div]) hmk hz hpass hd (by rw [hT.rows]; exact hmerge) hfew
  · intro e he
    obtain ⟨h1, h2⟩ := hT.entry (by omega) e he
    rw [row_isolated hA hE (by omega) hs t discrete linearized e.1 h1] at h2
    by_contra hne
    rw [if_neg hne] at h2
    exact hT.nonzero z (by omega) e he h2.symm
  · intro i hi e he hez
    rw [hT.rows] at hi
    obtain ⟨h1, h2⟩ := hT.entry hi e he
    by_contra hne
    rw [hez, col_isolated hA hsym hE (by omega) hs t discrete linearized i hi hne] at h2
    exact hT.nonzero i hi e he h2.symm

/-- The stored covariance of a positive distribution and a matrix of probabilities. -/
theorem fit_fromT {n : Nat} (hn : 0 < n) {M : Mat K} {T : Csr K} (hT : Stored n M T) (hM : Stoch n M) {p : Nat → K}
    (hp : ∀ i < n, 0 < p i) (hp1 : ∑ i ∈ Finset.range n, p i = 1) :
    Fit (fromT T (some p) (some p)) ∧
      Dense (fromT T (some p) (some p)) (computeS p p M none) M := by
  have hwf := wf_diagMatmul hT.wf p
  have hsq : T.ncols = T.nrows := by rw [hT.cols, hT.rows]
  have hnr := nrows_fromT T (some p) (some p)
  have hval : ∀ i < n, ∀ j < n, (fromT T (some p) (some p)).PT.val i j = M i j * p i := by
    intro i hi j hj
    rw [← hT.val i hi j hj]
    show (sortIndices (diagMatmul T p)).val i j = _
    rw [val_sortIndices hwf _ _ (by rw [diagMatmul, nrows_mapVals, hT.rows]; exact hi),
      val_diagMatmul _ _ _ _ (by rw [hT.rows]; exact hi)]
  have hpos : ∀ i < n, ∀ e ∈ T.row i, 0 < e.2 := by
    intro i hi e he
    obtain ⟨h1, h2⟩ := hT.entry hi e he
    rw [← h2]
    refine lt_of_le_of_ne ((hM i hi).1 e.1 h1) ?_
    rw [h2]
    exact (hT.nonzero i hi e he).symm
  refine ⟨⟨good_fromT T hT.wf hsq hT.once _ _, ?_, ?_, ?_, by rw [hnr, hT.rows]; exact hn, ?_⟩, ?_, ?_, ?_⟩
  · intro h
    simp [fromT, mkAutocov] at h
  · rw [hnr, hT.rows]
    exact ⟨hp1, hp1⟩
  · refine tight_mk _ _ _ hwf (by rw [diagMatmul, nrows_mapVals, ncols_mapVals, hsq]) ?_
    rw [diagMatmul, nrows_mapVals, hT.rows]
    intro i hi e he
    change e ∈ (mapVals T _).row i at he
    rw [row_mapVals _ _ _ (by rw [hT.rows]; exact hi), List.mem_map] at he
    obtain ⟨g, hg, rfl⟩ := he
    exact mul_pos (hpos i hi g hg) (hp i hi)
  · rw [hnr, hT.rows]
    intro i hi he
    have h1 : 0 < ∑ j ∈ Finset.range n, (fromT T (some p) (some p)).PT.val i j := by
      rw [Finset.sum_congr rfl fun j hj => hval i hi j (Finset.mem_range.1 hj), ← Finset.sum_mul, (hM i hi).2, one_mul]
      exact hp i hi
    unfold Csr.val at h1
    rw [he] at h1
    simp [sumAt] at h1
  · rw [hnr, hT.rows]
    intro i hi j hj
    unfold Autocov.toarray
    rw [hval i hi j hj]
    show M i j * p i - p i * p j = p i * M i j - p i * p j
    ring
  · rw [hnr, hT.rows]
    exact fun i hi j hj => (hM i hi).1 j hj
  · rw [hnr, hT.rows]
    intro i hi j hj
    rw [hval i hi j hj]
    exact (mul_pos_iff_of_pos_right (hp i hi)).symm

/-- **C110, partial.** If every node has an edge, the matrix at time `t` has no negative entry and the two tests for a
covariance that is zero agree, then the clustering of the sparse network is that of the array: same number of loops, same partition. -/
theorem C110_same_partial (eig : Mat ℝ → EigPair ℝ) {n : Nat} (hn : 0 < n) (A : Mat ℝ) (hA : Weighted n A)
    (hdeg : ∀ i < n, 0 < strength n A i) (t : Time ℝ) (discrete linearized : Bool)
    (ht : 0 ≤ t.val) (hlin : linearized = true → t.val ≤ 1) (T : Csr ℝ)
    (hT : Stored n (transition (Verif.Trans.expm n) n A t discrete linearized) T) (sc : Sched) (par : Params ℝ) :
    ∃ c dc, staticSparse eig n A T false = .ok c ∧
      staticClustering (Verif.Trans.expm n) eig n A t discrete linearized false = .ok dc ∧
      ((c.A.isAllZeros = true ↔ sIsZero n dc.S) → sFindLouvain sc par c = lift (findLouvain sc par dc)) := by
  have hm : twoM n A ≠ 0 := by
    have : 0 < ∑ i ∈ Finset.range n, strength n A i :=
      Finset.sum_pos (fun i hi => hdeg i (Finset.mem_range.1 hi)) ⟨0, Finset.mem_range.2 hn⟩
    exact ne_of_gt this
  have hm0 : 0 < twoM n A := by
    have : 0 < ∑ i ∈ Finset.range n, strength n A i :=
      Finset.sum_pos (fun i hi => hdeg i (Finset.mem_range.1 hi)) ⟨0, Finset.mem_range.2 hn⟩
    exact this
  have hst := Verif.Static.undirected_stationary eig hm
  have hdist := Verif.Static.distribution_strength hA hm
  have hrow : RowsOne n (transition (Verif.Trans.expm n) n A t discrete linearized) :=
    Verif.Static.transition_rows hA t discrete linearized
  obtain ⟨dc, h1, _, h3, h4, h5, -, -⟩ := Verif.Static.mkClu_ok (n := n)
    (T := transition (Verif.Trans.expm n) n A t discrete linearized)
    (S := computeS (fun i => strength n A i / twoM n A) (fun i => strength n A i / twoM n A)
      (transition (Verif.Trans.expm n) n A t discrete linearized) none) (Verif.Static.rowsOk_of_one hrow)
  have hdc : staticClustering (Verif.Trans.expm n) eig n A t discrete linearized false = .ok dc := by
    unfold staticClustering
    rw [hst]
    simp only [h1]
  have hM : Stoch n (transition (Verif.Trans.expm n) n A t discrete linearized) := by
    have := Verif.Static.C73_probabilities eig n A hA t discrete linearized false ht hlin dc hdc
    rw [h4] at this
    exact this
  obtain ⟨f, g⟩ := fit_fromT (p := fun i => strength n A i / twoM n A) hn hT hM (fun i hi => div_pos (hdeg i hi) hm0) hdist.2
  obtain ⟨q, hq, -⟩ := Verif.Louvain.mk'_none (fromT T (some fun i => strength n A i / twoM n A)
    (some fun i => strength n A i / twoM n A)).PT.nrows false
  have hmk : mkS (fromT T (some fun i => strength n A i / twoM n A) (some fun i => strength n A i / twoM n A)) .none =
      .ok ⟨fromT T (some fun i => strength n A i / twoM n A) (some fun i => strength n A i / twoM n A), q⟩ := by
    unfold mkS; rw [hq]
  refine ⟨⟨fromT T (some fun i => strength n A i / twoM n A) (some fun i => strength n A i / twoM n A), q⟩, dc, ?_, hdc, ?_⟩
  · unfold staticSparse
    rw [hst]
    simp only [hmk]
  · intro hz
    have hnr : (fromT T (some fun i => strength n A i / twoM n A)
        (some fun i => strength n A i / twoM n A)).PT.nrows = n := (nrows_fromT _ _ _).trans hT.rows
    refine (C69_same_as_dense_partial sc par _ f _ _ g ?_ _ hmk dc ?_).1
    · rw [hnr, ← h5]
      exact hz
    · rw [hnr]
      exact h1

/-! ### Examples -/

/-- A triangle and a node without edges. -/
def exA : Mat ℚ := fun i j => if i < 3 ∧ j < 3 ∧ i ≠ j then 1 else 0

/-- One step in place of the exponential. -/
def exE : Mat ℚ → Mat ℚ := fun L i j => eye i j + L i j

theorem keeps_exE (n : Nat) : Keeps n exE := by
  have he : ∀ (M : Mat ℚ) (t : ℚ), exE (fun i j => -t * (eye i j - M i j)) = fun i j => eye i j - t * (eye i j - M i j) := by
    intro M t
    funext i j
    unfold exE
    ring
  constructor
  · intro p M t h
    rw [he]
    exact Verif.Static.linear_stationary h t
  · intro p M t h
    rw [he]
    exact Verif.Static.linear_balanced h t

/-- The walk on the example, stored. -/
def exT : Csr ℚ := store 4 (transition exE 4 exA (.int 1) true false)

/-- The object of the example. -/
def exObject : Option (SClu ℚ) := (staticSparse (fun _ => ⟨0, 0, fun _ => 0, fun _ => 0⟩) 4 exA exT false).toOption

/-- What the first pass of the example leaves: gain, clusters. -/
def exPass : Option (ℚ × List (List Nat)) :=
  match exObject with
  | none => none
  | some c =>
    match firstPass Verif.Louvain.exSched Verif.Louvain.exPar c with
    | .error _ => none
    | .ok (d, _, mp) => some (d, mp.clusters.map listSet)

/-- Non-vacuity of `C110_last_isolated_violated` and `C110_stored_violated`: the first pass joins the triangle. -/
example : Keeps 4 exE ∧ Weighted 4 exA ∧ Symm 4 exA ∧ twoM 4 exA ≠ 0 ∧ NoEdge 4 exA 3 ∧
    Stored 4 (transition exE 4 exA (.int 1) true false) exT ∧
    exObject.map (fun c => c.A.isAllZeros) = some false ∧ exPass = some (1 / 3, [[0, 1, 2], [3]]) ∧
    2 ^ 2 < exT.data.length ∧ Verif.Louvain.exPar.thr < 1 / 3 := by
  refine ⟨keeps_exE 4, ?_, ?_, ?_, ?_, stored_store _ _, ?_, ?_, ?_, ?_⟩
  · unfold Weighted; decide +kernel
  · unfold Symm; decide +kernel
  · decide +kernel
  · unfold NoEdge; decide +kernel
  · decide +kernel
  · decide +kernel
  · decide +kernel
  · decide +kernel

/-- The array of the same network is clustered without error. -/
example : (match staticClustering exE (fun _ => ⟨0, 0, fun _ => 0, fun _ => 0⟩) 4 exA (.int 1) true false false with
    | .error _ => none
    | .ok c => match findLouvain Verif.Louvain.exSched Verif.Louvain.exPar c with
      | .error _ => none
      | .ok (_, p) => some (p.clusters.map listSet)) = some [[0, 1, 2], [3]] := by decide +kernel

/-- Non-vacuity of `C110_same_partial`: two nodes and an edge, any time, the exponential. -/
example : Weighted 2 (fun i j => if i = j then (0 : ℝ) else 1) ∧
    (∀ i < 2, 0 < strength 2 (fun i j => if i = j then (0 : ℝ) else 1) i) ∧ 0 ≤ (Time.num (1 / 2 : ℝ)).val ∧
    Stored 2 (transition (Verif.Trans.expm 2) 2 (fun i j => if i = j then (0 : ℝ) else 1) (.num (1 / 2)) false false)
      (store 2 (transition (Verif.Trans.expm 2) 2 (fun i j => if i = j then (0 : ℝ) else 1) (.num (1 / 2)) false false)) := by
  refine ⟨?_, ?_, by norm_num [Time.val], stored_store _ _⟩
  · intro i _ j _
    simp only
    split <;> norm_num
  · intro i hi
    unfold strength
    rw [Finset.sum_range_succ, Finset.sum_range_one]
    match i, hi with
    | 0, _ => norm_num
    | 1, _ => norm_num

end Verif.StaticSparse
