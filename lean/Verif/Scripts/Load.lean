import Verif.Scripts.LoadSpec
import Verif.Scripts.CompPool
import Verif.Scripts.Cov
import Verif.Flow.Props

/-!
# C72: the covariance that is clustered is that of the saved flow
-/

set_option linter.unusedSectionVars false
set_option linter.unusedSimpArgs false
set_option linter.dupNamespace false

namespace Verif.Scripts.Load

open Verif.Trans Verif.Flow Verif.Scripts Verif.Autocov Verif.Csr Verif.SparseLouvain Verif.Comps

variable {K : Type} [Field K] [LinearOrder K] [IsStrictOrderedRing K]

/-! ## Sparse matrices from dense ones -/

theorem row_ofMat (n : Nat) (A : Mat K) (i : Nat) (hi : i < n) :
    (ofMat n A).row i = (List.range n).filterMap fun j => if A i j = 0 then none else some (j, A i j) :=
  row_ofRows_map _ _ _ _ hi

theorem nrows_ofMat (n : Nat) (A : Mat K) : (ofMat n A).nrows = n := by
  unfold ofMat
  simp

theorem mem_row_ofMat {n : Nat} {A : Mat K} {i : Nat} (hi : i < n) {e : Nat × K} :
    e ∈ (ofMat n A).row i ↔ e.1 < n ∧ e.2 = A i e.1 ∧ A i e.1 ≠ 0 := by
  rw [row_ofMat n A i hi, List.mem_filterMap]
  constructor
  · rintro ⟨j, hj, h⟩
    split at h
    · simp at h
    · next h0 =>
      injection h with h
      subst h
      exact ⟨List.mem_range.1 hj, rfl, h0⟩
  · rintro ⟨h1, h2, h3⟩
    refine ⟨e.1, List.mem_range.2 h1, ?_⟩
    rw [if_neg h3, ← h2]

theorem sumAt_filterMap (f : Nat → K) (l : List Nat) (hl : l.Nodup) (j : Nat) :
    sumAt (l.filterMap fun j => if f j = 0 then none else some (j, f j)) j = if j ∈ l then f j else 0 := by
  induction l with
  | nil => simp [sumAt_nil]
  | cons a l ih =>
    rw [List.nodup_cons] at hl
    rw [List.filterMap_cons]
    by_cases ha : f a = 0
    · simp only [ha, if_true]
      rw [ih hl.2]
      by_cases hj : j = a
      · subst hj
        simp [hl.1, ha]
      · simp [hj]
    · simp only [ha, if_false]
      rw [sumAt_cons, ih hl.2]
      by_cases hj : j = a
      · subst hj
        simp [hl.1]
      · have : a ≠ j := fun h => hj h.symm
        simp [hj, this]

theorem val_ofMat (n : Nat) (A : Mat K) {i j : Nat} (hi : i < n) (hj : j < n) : (ofMat n A).val i j = A i j := by
  unfold Csr.val
  rw [row_ofMat n A i hi, sumAt_filterMap _ _ List.nodup_range, if_pos (List.mem_range.2 hj)]

theorem wf_ofMat (n : Nat) (A : Mat K) : (ofMat n A).WF := by
  apply wf_ofRows
  intro r hr e he
  obtain ⟨i, hi, rfl⟩ := List.mem_map.1 hr
  obtain ⟨j, hj, h⟩ := List.mem_filterMap.1 he
  split at h
  · simp at h
  · injection h with h
    subst h
    exact List.mem_range.1 hj

theorem noRepeats_ofMat (n : Nat) (A : Mat K) : (ofMat n A).NoRepeats := by
  intro i hi
  rw [nrows_ofMat] at hi
  rw [row_ofMat n A i hi]
  have : ∀ l : List Nat, (l.filterMap fun j => if A i j = 0 then none else some (j, A i j)).map Prod.fst =
      l.filter fun j => decide (A i j ≠ 0) := by
    intro l
    induction l with
    | nil => rfl
    | cons a l ih =>
      rw [List.filterMap_cons, List.filter_cons]
      by_cases ha : A i a = 0
      · simpa [ha] using ih
      · simpa [ha] using ih
  rw [this]
  exact List.nodup_range.filter _

/-- A nonnegative symmetric matrix is turned into an object that is fit for the search. -/
theorem fit_ofMat {n : Nat} (hn : 0 < n) {A : Mat K} (h0 : ∀ i < n, ∀ j < n, 0 ≤ A i j)
    (hs : ∀ i < n, ∀ j < n, A i j = A j i) {w : Weights K} (hw : Normalised n w) :
    Loaded (mkAutocov (ofMat n A) w true) ∧ (mkAutocov (ofMat n A) w true).PT.nrows = n ∧
      (∀ i < n, ∀ j < n, (mkAutocov (ofMat n A) w true).toarray i j = A i j - w.p0 i j) ∧
      ∀ i < n, (∑ j ∈ Finset.range n, A i j) ≠ 0 → (mkAutocov (ofMat n A) w true).PT.row i ≠ [] := by
  have hnr : (mkAutocov (ofMat n A) w true).PT.nrows = n := by rw [nrows_mk, nrows_ofMat]
  have hrow : ∀ i < n, (mkAutocov (ofMat n A) w true).PT.row i = sortRow n ((ofMat n A).row i) := by
    intro i hi
    exact row_sortIndices _ _ (by rw [nrows_ofMat]; exact hi)
  have hmem : ∀ i < n, ∀ e ∈ (mkAutocov (ofMat n A) w true).PT.row i, 0 < e.2 ∧ e.1 < n := by
    intro i hi e he
    rw [hrow i hi] at he
    have he' := (perm_sortRow n _ (fun e he => (mem_row_ofMat hi).1 he |>.1)).mem_iff.1 he
    obtain ⟨h1, h2, h3⟩ := (mem_row_ofMat hi).1 he'
    exact ⟨by rw [h2]; exact lt_of_le_of_ne (h0 i hi _ h1) (Ne.symm h3), h1⟩
  have hsym : ∀ i j, i < (ofMat n A).nrows → j < (ofMat n A).nrows → (ofMat n A).val i j = (ofMat n A).val j i := by
    intro i j hi hj
    rw [nrows_ofMat] at hi hj
    rw [val_ofMat n A hi hj, val_ofMat n A hj hi, hs i hi j hj]
  refine ⟨⟨⟨good_mk _ _ _ (wf_ofMat n A) (by rw [nrows_ofMat]; rfl) (noRepeats_ofMat n A) (fun _ => hsym), ?_,
    by rw [hnr]; exact hw, ⟨?_, ?_⟩, by rw [hnr]; exact hn⟩, rfl⟩, hnr, ?_, ?_⟩
  · intro _ i j hi hj
    rw [hnr] at hi hj
    show (sortIndices (ofMat n A)).val i j = (sortIndices (ofMat n A)).val j i
    rw [val_sortIndices (wf_ofMat n A) _ _ (by rw [nrows_ofMat]; exact hi),
      val_sortIndices (wf_ofMat n A) _ _ (by rw [nrows_ofMat]; exact hj)]
    exact hsym i j (by rw [nrows_ofMat]; exact hi) (by rw [nrows_ofMat]; exact hj)
  · intro i hi e he
    rw [hnr] at hi
    exact (hmem i hi e he).1
  · intro i hi e he
    rw [hnr] at hi ⊢
    exact hmem i hi e he
  · intro i hi j hj
    rw [toarray_mk _ _ _ (wf_ofMat n A) _ _ (by rw [nrows_ofMat]; exact hi), val_ofMat n A hi hj]
  · intro i hi hne hnil
    apply hne
    apply Finset.sum_eq_zero
    intro j hj
    by_contra h
    have : (j, A i j) ∈ (ofMat n A).row i := (mem_row_ofMat hi).2 ⟨Finset.mem_range.1 hj, rfl, h⟩
    rw [hrow i hi] at hnil
    have := (perm_sortRow n _ (fun e he => (mem_row_ofMat hi).1 he |>.1)).mem_iff.2 this
    rw [hnil] at this
    simp at this

/-! ## Normalisation -/

theorem normRows_exact {n : Nat} {p : Nat → K} {A : Mat K} {i : Nat}
    (h : ∑ j ∈ Finset.range n, A i j = p i) (j : Nat) : normRows n p A i j = A i j := by
  unfold normRows
  simp only [h]
  by_cases h0 : p i = 0
  · rw [if_pos h0]
  · rw [if_neg h0, if_neg h0, div_self h0, div_one]

theorem normIter_congr {n : Nat} {p : Nat → K} (m : Nat) {A B : Mat K} (h : EqOn n A B)
    (hs : ∀ i < n, ∀ j < n, B i j = B j i) (hr : ∀ i < n, ∑ j ∈ Finset.range n, B i j = p i) :
    EqOn n (normIter n p m A) B := by
  induction m generalizing A with
  | zero => exact h
  | succ m ih =>
    apply ih
    have hA : ∀ i < n, ∑ j ∈ Finset.range n, A i j = p i := by
      intro i hi
      rw [← hr i hi]
      exact Finset.sum_congr rfl fun j hj => h i hi j (Finset.mem_range.1 hj)
    intro i hi j hj
    simp only
    rw [normRows_exact (hA i hi), normRows_exact (hA j hj), h i hi j hj, h j hj i hi, hs j hj i hi]
    ring

theorem normIter_snoc (n : Nat) (p : Nat → K) (m : Nat) (A : Mat K) :
    normIter n p (m + 1) A =
      fun i j => (normRows n p (normIter n p m A) i j + normRows n p (normIter n p m A) j i) / 2 := by
  induction m generalizing A with
  | zero => rfl
  | succ m ih =>
    show normIter n p (m + 1) _ = _
    rw [ih]
    rfl

/-- With positive wanted sums, a nonnegative matrix without zero rows stays one. -/
theorem normIter_pos {n : Nat} {p : Nat → K} (hp : ∀ i < n, 0 < p i) (m : Nat) {A : Mat K}
    (h0 : ∀ i < n, ∀ j < n, 0 ≤ A i j) (hs : ∀ i < n, ∀ j < n, A i j = A j i)
    (hr : ∀ i < n, 0 < ∑ j ∈ Finset.range n, A i j) :
    (∀ i < n, ∀ j < n, 0 ≤ normIter n p m A i j) ∧
    (∀ i < n, ∀ j < n, normIter n p m A i j = normIter n p m A j i) ∧
    (∀ i < n, 0 < ∑ j ∈ Finset.range n, normIter n p m A i j) ∧
    (0 < m → ∑ i ∈ Finset.range n, ∑ j ∈ Finset.range n, normIter n p m A i j = ∑ i ∈ Finset.range n, p i) := by
  induction m with
  | zero => exact ⟨h0, hs, hr, fun h => absurd h (lt_irrefl _)⟩
  | succ m ih =>
    obtain ⟨i1, i2, i3, _⟩ := ih
    rw [normIter_snoc]
    set B := normIter n p m A with hB
    have hN : ∀ i < n, ∀ j, normRows n p B i j = B i j / ((∑ k ∈ Finset.range n, B i k) / p i) := by
      intro i hi j
      unfold normRows
      simp only
      rw [if_neg (i3 i hi).ne', if_neg (hp i hi).ne']
    have hN0 : ∀ i < n, ∀ j < n, 0 ≤ normRows n p B i j := by
      intro i hi j hj
      rw [hN i hi]
      exact div_nonneg (i1 i hi j hj) (div_pos (i3 i hi) (hp i hi)).le
    have hNs : ∀ i < n, ∑ j ∈ Finset.range n, normRows n p B i j = p i := by
      intro i hi
      rw [Finset.sum_congr rfl fun j _ => hN i hi j, ← Finset.sum_div]
      have := (i3 i hi).ne'
      have := (hp i hi).ne'
      field_simp
    refine ⟨?_, ?_, ?_, ?_⟩
    · intro i hi j hj
      have := hN0 i hi j hj
      have := hN0 j hj i hi
      positivity
    · intro i _ j _
      simp only
      rw [add_comm]
    · intro i hi
      simp only
      rw [← Finset.sum_div, Finset.sum_add_distrib, hNs i hi]
      have : 0 ≤ ∑ j ∈ Finset.range n, normRows n p B j i :=
        Finset.sum_nonneg fun j hj => hN0 j (Finset.mem_range.1 hj) i hi
      have := hp i hi
      positivity
    · intro _
      have h1 : ∑ i ∈ Finset.range n, ∑ j ∈ Finset.range n, normRows n p B i j = ∑ i ∈ Finset.range n, p i :=
        Finset.sum_congr rfl fun i hi => hNs i (Finset.mem_range.1 hi)
      have h2 : ∑ i ∈ Finset.range n, ∑ j ∈ Finset.range n, normRows n p B j i = ∑ i ∈ Finset.range n, p i := by
        rw [Finset.sum_comm]; exact h1
      simp only [← Finset.sum_div, Finset.sum_add_distrib, h1, h2]
      ring

/-! ## The saved integral and the mean covariance -/

theorem covAt_meet (n : Nat) (T : Mat K) (i j : Nat) :
    covAt n (uniform n) T i j = meet n T i j * (1 / (n : K)) * (1 / (n : K)) - 1 / (n : K) * (1 / (n : K)) := by
  unfold covAt meet uniform
  rw [Finset.sum_mul, Finset.sum_mul]
  congr 1
  apply Finset.sum_congr rfl
  intro k _
  split
  · simp
  · ring

theorem map_getD_range {α : Type} (l : List α) (d : α) : (List.range l.length).map (fun m => l.getD m d) = l := by
  apply List.ext_getElem
  · simp
  · intro i h1 h2
    simp [List.getD_eq_getElem?_getD, List.getElem?_eq_getElem h2]

theorem weights_flowOf (n : Nat) (l : List (Mat K × K)) : ((flowOf n l).map (·.1)).sum = (l.map (·.2)).sum := by
  unfold flowOf
  rw [List.map_map]
  conv_rhs => rw [← map_getD_range l (eye, 0), List.map_map]
  rfl

theorem meanCov_flowOf (n : Nat) (l : List (Mat K × K)) (hW : (l.map (·.2)).sum ≠ 0) (i j : Nat) :
    meanCov n (uniform n) (flowOf n l) i j =
      flowSum n l i j * (1 / (l.map (·.2)).sum) * (1 / (n : K)) * (1 / (n : K)) - 1 / (n : K) * (1 / (n : K)) := by
  unfold meanCov
  rw [weights_flowOf]
  have h : ((flowOf n l).map fun e => e.1 * covAt n (uniform n) e.2 i j).sum =
      flowSum n l i j * (1 / (n : K)) * (1 / (n : K)) - ((flowOf n l).map (·.1)).sum * (1 / (n : K) * (1 / (n : K))) := by
    unfold flowSum flowOf
    rw [List.map_map, List.map_map, ← List.sum_map_mul_right, ← List.sum_map_mul_right, ← List.sum_map_mul_right]
    generalize List.range l.length = r
    induction r with
    | nil => simp
    | cons a r ih =>
      simp only [List.map_cons, List.sum_cons, Function.comp] at ih ⊢
      rw [ih, covAt_meet]
      ring
  rw [h, weights_flowOf]
  field_simp

theorem meet_symm (n : Nat) (T : Mat K) (i j : Nat) : meet n T i j = meet n T j i := by
  unfold meet
  apply Finset.sum_congr rfl
  intro k _
  split
  · rfl
  · ring

theorem flowSum_symm (n : Nat) (l : List (Mat K × K)) (i j : Nat) : flowSum n l i j = flowSum n l j i := by
  unfold flowSum
  congr 1
  apply List.map_congr_left
  intro m _
  rw [meet_symm]

theorem meet_nonneg {n : Nat} {T : Mat K} (hT : ∀ i < n, ∀ j < n, 0 ≤ T i j) {i j : Nat} (hi : i < n) (hj : j < n) :
    0 ≤ meet n T i j := by
  unfold meet
  apply Finset.sum_nonneg
  intro k hk
  split
  · exact le_rfl
  · refine div_nonneg (mul_nonneg (hT i hi k (Finset.mem_range.1 hk)) (hT j hj k (Finset.mem_range.1 hk))) ?_
    exact Finset.sum_nonneg fun a ha => mul_nonneg (by positivity) (hT a (Finset.mem_range.1 ha) k (Finset.mem_range.1 hk))

/-- A list of stochastic matrices, each with a time that is not negative. -/
def FlowOk (n : Nat) (l : List (Mat K × K)) : Prop := ∀ e ∈ l, Stoch n e.1 ∧ 0 ≤ e.2

theorem stoch_flowOf {n : Nat} {l : List (Mat K × K)} (h : FlowOk n l) :
    ∀ e ∈ flowOf n l, 0 ≤ e.1 ∧ Stoch n e.2 := by
  intro e he
  obtain ⟨m, hm, rfl⟩ := List.mem_map.1 he
  rw [List.mem_range] at hm
  refine ⟨?_, ?_⟩
  · have h1 : l.getD m (eye, 0) = l[m] := by
      simp [List.getD_eq_getElem?_getD, List.getElem?_eq_getElem hm]
    simp only [h1]
    exact (h _ (List.getElem_mem hm)).2
  · apply stoch_prod
    intro A hA
    obtain ⟨x, hx, rfl⟩ := List.mem_map.1 hA
    exact (h x (List.mem_of_mem_take hx)).1

theorem flowSum_nonneg {n : Nat} {l : List (Mat K × K)} (h : FlowOk n l) {i j : Nat} (hi : i < n) (hj : j < n) :
    0 ≤ flowSum n l i j := by
  unfold flowSum
  apply List.sum_nonneg
  intro x hx
  obtain ⟨m, hm, rfl⟩ := List.mem_map.1 hx
  have := stoch_flowOf h _ (List.mem_map.2 ⟨m, hm, rfl⟩)
  exact mul_nonneg this.1 (meet_nonneg (fun a ha b hb => (this.2 a ha).1 b hb) hi hj)

theorem distribution_uniform {n : Nat} (hn : 0 < n) : Distribution n (uniform n : Nat → K) := by
  have h : (n : K) ≠ 0 := by exact_mod_cast hn.ne'
  refine ⟨fun i _ => by unfold uniform; positivity, ?_⟩
  unfold uniform
  rw [Finset.sum_const, Finset.card_range, nsmul_eq_mul, mul_one_div_cancel h]

/-- The values of the matrix that is loaded from the upper triangle of an integral. -/
theorem unpacked {n : Nat} {A : Mat K} {F : Mat K} (hF : ∀ i j, F i j = F j i)
    (hA : ∀ i < n, ∀ j < n, A i j = if i ≤ j then F i j else 0) (c : K) {i j : Nat} (hi : i < n) (hj : j < n) :
    bothTriangles (fun i j => A i j * c) i j = F i j * c := by
  unfold bothTriangles
  beta_reduce
  rw [hA i hi j hj, hA j hj i hi, hA i hi i hi]
  rcases lt_trichotomy i j with h | h | h
  · rw [if_pos h.le, if_neg (by omega), if_neg h.ne]
    ring
  · subst h
    simp
  · rw [if_neg (by omega), if_pos h.le, if_neg h.ne', hF j i]
    ring

/-- The core: an integral of a proper flow, saved as its upper triangle. -/
theorem load_flow {n : Nat} (hn : 0 < n) {l : List (Mat K × K)} (hl : FlowOk n l) (hW : 0 < (l.map (·.2)).sum)
    {v : Saved K} (ht : v.time = (l.map (·.2)).sum)
    (hv : ∀ i < n, ∀ j < n, v.itpt i j = if i ≤ j then flowSum n l i j else 0) (norm : Option Nat) :
    ∃ S, loadUniform n none norm (pickled v) = .ok S ∧ S.PT.nrows = n ∧ Fit S ∧ Loaded S ∧
      EqOn n S.toarray (meanCov n (uniform n) (flowOf n l)) := by
  set B : Mat K := fun i j => flowSum n l i j * (1 / (l.map (·.2)).sum) * uniform n i * uniform n j with hB
  have hBs : ∀ i < n, ∀ j < n, B i j = B j i := by
    intro i _ j _
    simp only [hB]
    rw [flowSum_symm]
    ring
  have hmean : ∀ i j, meanCov n (uniform n) (flowOf n l) i j = B i j - 1 / (n : K) * (1 / (n : K)) :=
    fun i j => meanCov_flowOf n l hW.ne' i j
  have hrows : ∀ i < n, ∑ j ∈ Finset.range n, B i j = uniform n i := by
    intro i hi
    have h1 := (meanCov_covariance (distribution_uniform hn) (stoch_flowOf hl)).2.1 i hi
    simp only [hmean, Finset.sum_sub_distrib, Finset.sum_const, Finset.card_range, nsmul_eq_mul] at h1
    rw [sub_eq_zero] at h1
    rw [h1]
    have h : (n : K) ≠ 0 := by exact_mod_cast hn.ne'
    unfold uniform
    field_simp
  set A : Mat K := match norm with
    | none => fun i j => bothTriangles (fun i j => v.itpt i j * (1 / v.time)) i j * uniform n i * uniform n j
    | some m => normIter n (uniform n) m
        fun i j => bothTriangles (fun i j => v.itpt i j * (1 / v.time)) i j * uniform n i * uniform n j with hA
  have hbase : EqOn n (fun i j => bothTriangles (fun i j => v.itpt i j * (1 / v.time)) i j * uniform n i * uniform n j) B := by
    intro i hi j hj
    simp only [hB]
    rw [unpacked (flowSum_symm n l) hv _ hi hj, ht]
  have hAB : EqOn n A B := by
    rw [hA]
    cases norm with
    | none => exact hbase
    | some m => exact normIter_congr m hbase hBs hrows
  have hB0 : ∀ i < n, ∀ j < n, 0 ≤ B i j := by
    intro i hi j hj
    have := flowSum_nonneg hl hi hj
    simp only [hB, uniform]
    positivity
  have hw : Normalised n (.scalars (1 / (n : K)) (1 / (n : K))) := rfl
  obtain ⟨h1, h2, h3, h4⟩ := fit_ofMat hn (A := A) (fun i hi j hj => by rw [hAB i hi j hj]; exact hB0 i hi j hj)
    (fun i hi j hj => by rw [hAB i hi j hj, hAB j hj i hi]; exact hBs i hi j hj) hw
  refine ⟨mkAutocov (ofMat n A) (.scalars (1 / (n : K)) (1 / (n : K))) true, ?_, h2,
    ⟨h1.fit.good, h1.fit.sym, h1.fit.norm, h1.fit.tight, h1.fit.pos, ?_⟩, h1, ?_⟩
  · unfold loadUniform pickled setToZeroes
    simp only [hA]
    all_goals cases norm <;> rfl
  · intro i hi
    rw [h2] at hi
    apply h4 i hi
    rw [Finset.sum_congr rfl fun j hj => hAB i hi j (Finset.mem_range.1 hj), hrows i hi]
    unfold uniform
    have h : (n : K) ≠ 0 := by exact_mod_cast hn.ne'
    exact one_div_ne_zero h
  · intro i hi j hj
    rw [h3 i hi j hj, hAB i hi j hj, hmean]
    rfl

/-! ## Clustering a loaded covariance -/

theorem pairStability_insideSum {n : Nat} {S M : Mat K} (h : EqOn n S M) {p : Verif.Partition.Part}
    (hn : p.numNodes = n) : Verif.Louvain.pairStability S p = insideSum n M p.clusters := by
  unfold Verif.Louvain.pairStability insideSum
  rw [hn]
  apply Finset.sum_congr rfl
  intro i hi
  apply Finset.sum_congr rfl
  intro j hj
  have : Verif.Partition.Together p.clusters i j ↔ ∃ c ∈ p.clusters, i ∈ c ∧ j ∈ c := by
    unfold Verif.Partition.Together Verif.Partition.At
    constructor
    · rintro ⟨k, ⟨c, hc, h1⟩, ⟨d, hd, h2⟩⟩
      rw [hc] at hd
      injection hd with hd
      subst hd
      exact ⟨c, List.mem_of_getElem? hc, h1, h2⟩
    · rintro ⟨c, hc, h1, h2⟩
      obtain ⟨k, hk⟩ := List.getElem?_of_mem hc
      exact ⟨k, ⟨c, hk, h1⟩, ⟨c, hk, h2⟩⟩
  simp only [this, h i (Finset.mem_range.1 hi) j (Finset.mem_range.1 hj)]

/-- A run on a covariance that is fit for the search. -/
theorem run_fit (sc : Verif.Louvain.Sched) (par : Verif.Louvain.Params K) {S : Autocov K} (f : Fit S) {n : Nat}
    (hn : S.PT.nrows = n) {M : Mat K} (h : EqOn n S.toarray M) :
    ∃ cl, runWhole sc par S = .ok (cl, insideSum n M cl) ∧ Verif.Partition.IsPartition n cl ∧
      (S.isAllZeros = false → ∑ v ∈ Finset.range n, M v v ≤ insideSum n M cl) := by
  have hmk : ∃ c, mkS S .none = .ok c ∧ c.A = S ∧ Fresh c := by
    unfold mkS
    match hm : Verif.Partition.mk' S.PT.nrows .none false with
    | .error e => simp [Verif.Partition.mk'] at hm
    | .ok p =>
      refine ⟨⟨S, p⟩, rfl, rfl, ?_⟩
      unfold Fresh mkS
      simp only [hm]
  obtain ⟨c, hc, rfl, hf⟩ := hmk
  unfold runWhole
  rw [hc]
  simp only
  cases hz : c.A.isAllZeros with
  | true =>
    obtain ⟨p, h1, h2, h3, _⟩ := C69_all_zeros sc par c hz f.pos
    refine ⟨p.clusters, ?_, ?_, by simp⟩
    · rw [h1]
      simp only
      rw [C69_stability_exact _ _ h2, pairStability_insideSum h (h3.trans hn)]
    · rw [← hn, ← h3]; exact h2.1
  | false =>
    obtain ⟨k, p, h1, h2, h3, _, h5⟩ := C69_no_worse_partial sc par c f hf hz
    refine ⟨p.clusters, ?_, ?_, ?_⟩
    · rw [h1]
      simp only
      rw [C69_stability_exact _ _ h2, pairStability_insideSum h (h3.trans hn)]
    · rw [← hn, ← h3]; exact h2.1
    · intro _
      obtain ⟨g1, g2, g3⟩ := fresh_part hf
      rw [C69_stability_exact _ _ h2, pairStability_insideSum h (h3.trans hn),
        C69_stability_exact _ _ g1, pairStability_insideSum h (g2.trans hn), g3] at h5
      refine le_trans (le_of_eq ?_) h5
      unfold insideSum
      apply Finset.sum_congr rfl
      intro v hv
      rw [Finset.sum_eq_single v]
      · rw [if_pos]
        exact ⟨{v}, by simp only [Verif.Partition.singletons, List.mem_map, List.mem_range]; exact ⟨v, by
          rw [hn]; exact Finset.mem_range.1 hv, rfl⟩, by simp, by simp⟩
      · intro u _ huv
        rw [if_neg]
        rintro ⟨d, hd, h1, h2⟩
        simp only [Verif.Partition.singletons, List.mem_map, List.mem_range] at hd
        obtain ⟨w, _, rfl⟩ := hd
        rw [Finset.mem_singleton] at h1 h2
        exact huv (h2.trans h1.symm)
      · intro h; exact absurd hv h

/-! ## Steps of the saved files -/

theorem sum_flatMap_map {α : Type} (f : Nat → List (α × K)) (ks : List Nat) :
    ((ks.flatMap f).map (·.2)).sum = (ks.map fun k => ((f k).map (·.2)).sum).sum := by
  induction ks with
  | nil => rfl
  | cons k ks ih => rw [List.flatMap_cons, List.map_append, List.sum_append, ih, List.map_cons, List.sum_cons]

theorem span_steps {slices : Nat → Option (Slice K)} (h : Timed slices) (reverse : Bool) (a b : Nat) :
    ((stepsOf slices reverse a b).map (·.2)).sum = spanOf slices reverse a b := by
  have hk : ∀ k, ((((slices k).map Slice.inter).getD []).map (·.2)).sum =
      ((slices k).map Slice.span).getD 0 := by
    intro k
    cases hs : slices k with
    | none => rfl
    | some s => exact ((h k s hs).1).symm
  unfold stepsOf spanOf
  cases reverse
  · simp only [Bool.false_eq_true, if_false]
    rw [sum_flatMap_map]
    congr 1
    exact List.map_congr_left fun k _ => hk k
  · simp only [if_true]
    rw [List.map_reverse, List.sum_reverse, sum_flatMap_map]
    congr 1
    exact List.map_congr_left fun k _ => hk k

theorem flowOk_steps {cfg : Cfg K} {start : Nat} (h : Usable cfg start) {kind : Kind} (hu : cfg.use kind = true)
    (ht : Timed (cfg.slices kind)) {stop : Nat} (hs : stop ∈ cfg.allInds) (reverse : Bool) :
    FlowOk cfg.n (stepsOf (cfg.slices kind) reverse start stop) := by
  have hstart : start ∈ cfg.allInds := List.mem_of_getElem? h.start
  have key : ∀ (k : Nat), k < start ∨ k < stop →
      ∀ e ∈ ((cfg.slices kind k).map Slice.inter).getD [], Stoch cfg.n e.1 ∧ 0 ≤ e.2 := by
    intro k hk e he
    have : ∃ s, cfg.slices kind k = some s ∧ s.Sound cfg.n := by
      rcases hk with hk | hk
      · exact h.files kind hu start hstart k hk
      · exact h.files kind hu stop hs k hk
    obtain ⟨s, h1, h2⟩ := this
    rw [h1] at he
    exact ⟨h2.1 e he, (ht k s h1).2 e he⟩
  intro e he
  unfold stepsOf at he
  cases reverse
  · simp only [Bool.false_eq_true, if_false] at he
    obtain ⟨k, hk, he⟩ := List.mem_flatMap.1 he
    rw [List.mem_range'_1] at hk
    exact key k (Or.inr (by omega)) e he
  · simp only [if_true] at he
    rw [List.mem_reverse] at he
    obtain ⟨k, hk, he⟩ := List.mem_flatMap.1 he
    rw [List.mem_range'_1] at hk
    exact key k (Or.inl (by omega)) e he

theorem mem_intStops {allInds : List Nat} {indStart : Nat} {onlyOne reverse : Bool} {stops : List Nat}
    (h : intStops allInds indStart onlyOne reverse = .ok stops) {s : Nat} (hs : s ∈ stops) : s ∈ allInds := by
  have hrev : ∀ l : List Nat, l = (if indStart = 0 then allInds.reverse else (allInds.take indStart).reverse) →
      ∀ x ∈ l, x ∈ allInds := by
    intro l hl x hx
    rw [hl] at hx
    split at hx
    · exact List.mem_reverse.1 hx
    · exact List.mem_of_mem_take (List.mem_reverse.1 hx)
  unfold intStops at h
  split at h
  · dsimp only at h
    split at h
    · split at h
      · simp at h
      · next heq =>
        injection h with h
        subst h
        rw [List.mem_singleton] at hs
        exact hrev _ heq.symm _ (by rw [hs]; exact List.mem_cons_self)
    · injection h with h
      exact hrev _ h.symm _ hs
  · split at h
    · split at h
      · simp at h
      · next heq =>
        injection h with h
        subst h
        rw [List.mem_singleton] at hs
        rw [hs]
        exact List.mem_of_getElem? heq
    · injection h with h
      subst h
      exact List.mem_of_mem_drop hs

/-! ## The statements -/

/-- **C72, partial.** A complete file of `run_cov_integrals` is loaded without exception if no
tolerance is given, with or without normalisation and however many iterations it has.  The loaded
covariance is the mean, over the integrated time, of the covariances of the flow with uniform
initial probabilities: symmetric, with zero row sums, positive semidefinite, and fit for both the
search on the whole network and on components. -/
theorem C72_loaded_partial {cfg : Cfg K} {start : Nat} (h : Usable cfg start) (hn : 0 < cfg.n) {kind : Kind}
    (hu : cfg.use kind = true) (ht : Timed (cfg.slices kind)) {stop : Nat} (hs : stop ∈ cfg.allInds) {reverse : Bool}
    {v : Saved K} (hv : Complete cfg reverse kind start stop (some (.whole v))) (norm : Option Nat) :
    ∃ S, loadUniform cfg.n none norm (pickled v) = .ok S ∧ S.PT.nrows = cfg.n ∧ Fit S ∧ Loaded S ∧
      EqOn cfg.n S.toarray
        (meanCov cfg.n (uniform cfg.n) (flowOf cfg.n (stepsOf (cfg.slices kind) reverse start stop))) ∧
      Covariance cfg.n S.toarray := by
  obtain ⟨h1, h2, h3⟩ := hv
  have hok := flowOk_steps h hu ht hs reverse
  rw [← span_steps ht] at h1 h2
  obtain ⟨S, s1, s2, s3, s4, s5⟩ := load_flow hn hok h1 h2 h3 norm
  exact ⟨S, s1, s2, s3, s4, s5,
    Covariance.congr s5 (meanCov_covariance (distribution_uniform hn) (stoch_flowOf hok))⟩

/-- **C72, partial.** From the transition matrices to the clusters: after any number of
interrupted runs of `run_cov_integrals` with one kind of transition matrices, one more run leaves
for every end point with a positive integrated time a file from which `run_clusterings` computes,
for all random orders, a partition of the nodes and the sum of the mean covariance of the flow
inside its clusters; it is at least that of the partition into single nodes, unless the covariance
passes the all-zeros test. -/
theorem C72_end_to_end_partial {cfg : Cfg K} {start : Nat} (h : Usable cfg start) (hn : 0 < cfg.n)
    (hone : cfg.use .lin ≠ cfg.use .expm) {d : Disk K} (hd : Crashes cfg d) {reverse : Bool}
    (hr : reverse = true → 0 < cfg.indStart) {stops : List Nat}
    (hst : intStops cfg.allInds cfg.indStart cfg.onlyOne reverse = .ok stops) {kind : Kind}
    (hu : cfg.use kind = true) (ht : Timed (cfg.slices kind)) {stop : Nat} (hs : stop ∈ stops)
    (hpos : 0 < spanOf (cfg.slices kind) reverse start stop) (norm : Option Nat)
    (sc : Verif.Louvain.Sched) (par : Verif.Louvain.Params K) :
    ∃ v S cl, (worker cfg reverse d).disk.integral kind stop = some (.whole v) ∧
      loadUniform cfg.n none norm (pickled v) = .ok S ∧
      runWhole sc par S = .ok (cl, insideSum cfg.n
        (meanCov cfg.n (uniform cfg.n) (flowOf cfg.n (stepsOf (cfg.slices kind) reverse start stop))) cl) ∧
      Verif.Partition.IsPartition cfg.n cl ∧
      (S.isAllZeros = false →
        ∑ v ∈ Finset.range cfg.n,
          meanCov cfg.n (uniform cfg.n) (flowOf cfg.n (stepsOf (cfg.slices kind) reverse start stop)) v v ≤
        insideSum cfg.n
          (meanCov cfg.n (uniform cfg.n) (flowOf cfg.n (stepsOf (cfg.slices kind) reverse start stop))) cl) := by
  have hs' := mem_intStops hst hs
  have hc := (C50_resumed_partial h hone hd hr hst).2 kind hu stop hs
  match hf : (worker cfg reverse d).disk.integral kind stop with
  | none => rw [hf] at hc; exact absurd hpos (not_lt.2 hc)
  | some .torn => rw [hf] at hc; exact hc.elim
  | some (.whole v) =>
    rw [hf] at hc
    obtain ⟨S, s1, s2, s3, _, s5, _⟩ := C72_loaded_partial h hn hu ht hs' hc norm
    obtain ⟨cl, c1, c2, c3⟩ := run_fit sc par s3 s2 s5
    exact ⟨v, S, cl, rfl, s1, c1, c2, c3⟩

/-- **C72.** The normalisation, whatever the saved numbers are: if they are not negative and no
node has only zeros, after at least one iteration the covariance is symmetric and its entries sum
to zero. -/
theorem C72_normalised (n : Nat) (hn : 0 < n) (f : Pickle K) (ht : 0 < f.time)
    (h0 : ∀ i < n, ∀ j < n, 0 ≤ f.itpt.mat i j)
    (hr : ∀ i < n, ∃ j < n, f.itpt.mat i j ≠ 0 ∨ f.itpt.mat j i ≠ 0) (m : Nat) :
    ∃ S, loadUniform n none (some (m + 1)) f = .ok S ∧ S.PT.nrows = n ∧ Fit S ∧ Loaded S ∧
      (∀ i < n, ∀ j < n, S.toarray i j = S.toarray j i) ∧
      ∑ i ∈ Finset.range n, ∑ j ∈ Finset.range n, S.toarray i j = 0 := by
  have hnK : (0 : K) < n := by exact_mod_cast hn
  set A : Mat K := fun i j => bothTriangles (fun i j => f.itpt.mat i j * (1 / f.time)) i j * uniform n i * uniform n j with hA
  have hu : ∀ i, (0 : K) < uniform n i := fun i => by unfold uniform; positivity
  have hb0 : ∀ i < n, ∀ j < n, 0 ≤ bothTriangles (fun i j => f.itpt.mat i j * (1 / f.time)) i j := by
    intro i hi j hj
    unfold bothTriangles
    by_cases hij : i = j
    · subst hij
      have := h0 i hi i hi
      simp only [if_true, add_sub_cancel_right]
      positivity
    · have := h0 i hi j hj
      have := h0 j hj i hi
      simp only [hij, if_false, sub_zero]
      positivity
  have hA0 : ∀ i < n, ∀ j < n, 0 ≤ A i j := by
    intro i hi j hj
    exact mul_nonneg (mul_nonneg (hb0 i hi j hj) (hu i).le) (hu j).le
  have hAs : ∀ i < n, ∀ j < n, A i j = A j i := by
    intro i _ j _
    simp only [hA, bothTriangles]
    by_cases hij : i = j
    · subst hij; rfl
    · rw [if_neg hij, if_neg (fun h => hij h.symm)]
      ring
  have hAr : ∀ i < n, 0 < ∑ j ∈ Finset.range n, A i j := by
    intro i hi
    obtain ⟨j, hj, hne⟩ := hr i hi
    refine Finset.sum_pos' (fun j hj => hA0 i hi j (Finset.mem_range.1 hj)) ⟨j, Finset.mem_range.2 hj, ?_⟩
    refine mul_pos (mul_pos ?_ (hu i)) (hu j)
    unfold bothTriangles
    have g1 := h0 i hi j hj
    have g2 := h0 j hj i hi
    have gt : 0 < 1 / f.time := by positivity
    by_cases hij : i = j
    · subst hij
      simp only [if_true, add_sub_cancel_right]
      have : f.itpt.mat i i ≠ 0 := by rcases hne with h | h <;> exact h
      exact mul_pos (lt_of_le_of_ne g1 (Ne.symm this)) gt
    · simp only [hij, if_false, sub_zero, ← add_mul]
      refine mul_pos ?_ gt
      rcases hne with h | h
      · exact add_pos_of_pos_of_nonneg (lt_of_le_of_ne g1 (Ne.symm h)) g2
      · exact add_pos_of_nonneg_of_pos g1 (lt_of_le_of_ne g2 (Ne.symm h))
  obtain ⟨i1, i2, i3, i4⟩ := normIter_pos (fun i _ => hu i) (m + 1) hA0 hAs hAr
  have hw : Normalised n (.scalars (1 / (n : K)) (1 / (n : K))) := rfl
  obtain ⟨f1, f2, f3, f4⟩ := fit_ofMat hn i1 i2 hw
  refine ⟨_, rfl, f2, ⟨f1.fit.good, f1.fit.sym, f1.fit.norm, f1.fit.tight, f1.fit.pos, ?_⟩, f1, ?_, ?_⟩
  · intro i hi
    rw [f2] at hi
    exact f4 i hi (i3 i hi).ne'
  · intro i hi j hj
    rw [f3 i hi j hj, f3 j hj i hi, i2 i hi j hj]
    rfl
  · have : ∀ i ∈ Finset.range n, ∑ j ∈ Finset.range n,
        (mkAutocov (ofMat n (normIter n (uniform n) (m + 1) A)) (.scalars (1 / (n : K)) (1 / (n : K))) true).toarray i j =
        ∑ j ∈ Finset.range n, normIter n (uniform n) (m + 1) A i j - 1 / (n : K) := by
      intro i hi
      rw [Finset.sum_congr rfl fun j hj => f3 i (Finset.mem_range.1 hi) j (Finset.mem_range.1 hj),
        Finset.sum_sub_distrib]
      congr 1
      simp only [Weights.p0, Finset.sum_const, Finset.card_range, nsmul_eq_mul]
      field_simp
    rw [Finset.sum_congr rfl this, Finset.sum_sub_distrib, i4 (by omega), (distribution_uniform hn).2]
    simp only [Finset.sum_const, Finset.card_range, nsmul_eq_mul]
    field_simp
    ring

/-- **C72, partial.** Files with initial probabilities: if the file holds the upper triangle of a
symmetric nonnegative matrix whose rows sum to the probabilities, times the integrated time, the
loaded covariance is this matrix over time minus the products of the probabilities, with or without
normalisation. -/
theorem C72_init_partial (n : Nat) (hn : 0 < n) (forward : Bool) (norm : Option Nat) (f : Pickle K) (m : Stored K)
    (p : Nat → K) (hm : (if forward then some f.itpt else f.back) = some m)
    (hp : (if forward then f.p1 else f.p2) = some p) (hd : Distribution n p) (ht : 0 < f.time)
    (F : Mat K) (hF0 : ∀ i < n, ∀ j < n, 0 ≤ F i j) (hFs : ∀ i j, F i j = F j i)
    (hFr : ∀ i < n, ∑ j ∈ Finset.range n, F i j = p i * f.time)
    (hmat : ∀ i < n, ∀ j < n, m.mat i j = if i ≤ j then F i j else 0) :
    ∃ S, loadInit n forward none norm f = .ok S ∧ S.PT.nrows = n ∧ Loaded S ∧
      (∀ i < n, ∀ j < n, S.toarray i j = F i j / f.time - p i * p j) ∧
      ∀ i < n, ∑ j ∈ Finset.range n, S.toarray i j = 0 := by
  set B : Mat K := fun i j => F i j * (1 / f.time) with hB
  set A : Mat K := bothTriangles (fun i j => m.mat i j * (1 / f.time)) with hA
  have hAB : EqOn n A B := fun i hi j hj => unpacked hFs hmat _ hi hj
  have hBs : ∀ i < n, ∀ j < n, B i j = B j i := fun i _ j _ => by simp only [hB, hFs i j]
  have hBr : ∀ i < n, ∑ j ∈ Finset.range n, B i j = p i := by
    intro i hi
    simp only [hB, ← Finset.sum_mul, hFr i hi]
    field_simp
  have hz : zeroRows n p A = [] := by
    unfold zeroRows
    rw [List.filter_eq_nil_iff]
    intro i hi
    rw [List.mem_range] at hi
    simp only [Bool.and_eq_true, decide_eq_true_eq, not_and]
    intro hpi
    rw [Finset.sum_congr rfl fun j hj => hAB i hi j (Finset.mem_range.1 hj), hBr i hi]
    exact hpi.ne'
  have hload : ∃ C, loadInit n forward none norm f = .ok (mkAutocov (ofMat n C) (.vectors p p) true) ∧ EqOn n C B := by
    unfold loadInit
    rw [hm]
    simp only [setToZeroes]
    rw [hp]
    simp only
    cases norm with
    | none => exact ⟨A, rfl, hAB⟩
    | some k =>
      simp only [← hA, hz, fillDiag]
      exact ⟨_, rfl, normIter_congr k hAB hBs hBr⟩
  obtain ⟨C, hC, hCB⟩ := hload
  have hw : Normalised n (.vectors p p) := ⟨hd.2, hd.2⟩
  obtain ⟨f1, f2, f3, _⟩ := fit_ofMat hn (A := C)
    (fun i hi j hj => by
      rw [hCB i hi j hj]
      exact mul_nonneg (hF0 i hi j hj) (by positivity))
    (fun i hi j hj => by rw [hCB i hi j hj, hCB j hj i hi]; exact hBs i hi j hj) hw
  have hval : ∀ i < n, ∀ j < n, (mkAutocov (ofMat n C) (.vectors p p) true).toarray i j = F i j / f.time - p i * p j := by
    intro i hi j hj
    rw [f3 i hi j hj, hCB i hi j hj]
    simp only [hB, Weights.p0]
    ring
  refine ⟨_, hC, f2, f1, hval, ?_⟩
  intro i hi
  rw [Finset.sum_congr rfl fun j hj => hval i hi j (Finset.mem_range.1 hj), Finset.sum_sub_distrib,
    ← Finset.sum_div, hFr i hi, ← Finset.mul_sum, hd.2]
  field_simp
  ring

/-- **C72** is violated with a tolerance: the files of `run_cov_integrals` hold `coo` matrices, and
every one of them is rejected.  The complete files are loaded exactly if no tolerance is given. -/
theorem C72_tolerance_violated {cfg : Cfg K} {start : Nat} (h : Usable cfg start) (hn : 0 < cfg.n) {kind : Kind}
    (hu : cfg.use kind = true) (ht : Timed (cfg.slices kind)) {stop : Nat} (hs : stop ∈ cfg.allInds) {reverse : Bool}
    {v : Saved K} (hv : Complete cfg reverse kind start stop (some (.whole v))) (rtol : Option K) (norm : Option Nat) :
    ((∃ S, loadUniform cfg.n rtol norm (pickled v) = .ok S) ↔ rtol = none) ∧
    (loadUniform cfg.n rtol norm (pickled v) = .error .typeError ↔ rtol ≠ none) := by
  obtain ⟨S, hS, -⟩ := C72_loaded_partial h hn hu ht hs hv norm
  cases rtol with
  | none => simp [hS]
  | some tol => simp [loadUniform, setToZeroes, pickled]

/-- **C72** is violated with initial probabilities: the files of `run_cov_integrals` do not hold
them, so every load fails, whatever the other options are. -/
theorem C72_init_violated (n : Nat) (forward : Bool) (rtol : Option K) (norm : Option Nat) (v : Saved K) (S : Autocov K) :
    loadInit n forward rtol norm (pickled v) ≠ .ok S := by
  unfold loadInit pickled
  cases forward
  · simp
  · cases rtol <;> simp [setToZeroes]

/-! ## Examples -/

theorem ex_timed : Timed (exCfg false |>.slices .expm) := by
  intro k s h
  have h : exSlices k = some s := h
  unfold exSlices at h
  split at h
  · injection h with h
    subst h
    exact ⟨by norm_num, by simp⟩
  · split at h
    · injection h with h
      subst h
      exact ⟨by norm_num, by simp⟩
    · split at h
      · injection h with h
        subst h
        exact ⟨by norm_num, by simp⟩
      · simp at h

/-- The hypotheses of the end-to-end statement hold for a run that was stopped after its first
file: the next run finishes it, and the integral up to the third interval is clustered. -/
example (sc : Verif.Louvain.Sched) (par : Verif.Louvain.Params ℝ) : ∃ d : Disk ℝ, Crashes (exCfg false) d ∧
    (d.integral .expm 1).isSome ∧ ∃ v S cl stab, (worker (exCfg false) false d).disk.integral .expm 3 = some (.whole v) ∧
      loadUniform 2 none (some 10) (pickled v) = .ok S ∧ runWhole sc par S = .ok (cl, stab) ∧
      Verif.Partition.IsPartition 2 cl := by
  obtain ⟨v, rest, h⟩ := ex_first false
  have hc : Crashes (exCfg false) ([Write.integral .expm 1 v].foldl Disk.write .empty) :=
    .run false _ .start (by simp) (by rw [h]; exact ⟨rest, rfl⟩)
  refine ⟨_, hc, rfl, ?_⟩
  obtain ⟨v, S, cl, h1, h2, h3, h4, _⟩ := C72_end_to_end_partial (ex_usable false) (by decide) (by simp [exCfg]) hc
    (by simp) (ex_stops false) (kind := .expm) rfl ex_timed (stop := 3) (by simp)
    (by
      show (0 : ℝ) < spanOf exSlices false 0 3
      simp [spanOf, List.range', exSlices]
      norm_num) (some 10) sc par
  exact ⟨v, S, cl, _, h1, h2, h3, h4⟩

/-- A file whose numbers are not exact: rows that do not sum to the probabilities. -/
example : (match loadUniform 2 none (some 1)
      (⟨⟨true, fun i j => if i = 0 then (if j = 0 then 3 else 1) else if j = 0 then 0 else 1⟩, 2, none, none, none⟩ : Pickle ℚ) with
    | .ok S => some (S.toarray 0 0, S.toarray 0 1, S.toarray 1 0, S.toarray 1 1)
    | .error _ => none) = some (1 / 8, - 1 / 16, - 1 / 16, 0) := by decide +kernel

/-- A file with initial probabilities 1/4 and 3/4. -/
example : (match loadInit 2 true none (some 10)
      (⟨⟨true, fun i j => if i = 0 then (if j = 0 then 1 / 4 else 1 / 4) else if j = 0 then 0 else 5 / 4⟩, 2, none,
        some fun i => if i = 0 then 1 / 4 else 3 / 4, none⟩ : Pickle ℚ) with
    | .ok S => some (S.toarray 0 0, S.toarray 0 1, S.toarray 1 0, S.toarray 1 1)
    | .error _ => none) = some (1 / 16, - 1 / 16, - 1 / 16, 1 / 16) := by decide +kernel

end Verif.Scripts.Load
