import Verif.SparseFlow.Refine
import Verif.Flow.Props
import Verif.SparseLouvain.Props
import Verif.Autocov.Props

/-!
# Flow integrals on the stored arrays: properties C103 and C104
-/

set_option linter.dupNamespace false
set_option linter.unusedSectionVars false

namespace Verif.SparseFlow

open Verif.Csr Verif.Autocov Verif.SparseStoch
open Verif.SparseLouvain (Fit Fresh Tight mkS sFindLouvain sStability SErr)
open Verif.Louvain (Sched Params pairStability)
open Verif.Partition (Consistent Together Part singletons)
open Verif.Trans (Mat EqOn Stoch)
open Verif.Flow (meanCov flowSteps along)

variable {K : Type} [Field K] [LinearOrder K] [IsStrictOrderedRing K]

/-- **C103**.  With matrices given as arrays `data`, `indices`, `indptr`, square and of one size,
everything the object holds has the values computed by the textbook operations on matrices: the
constructor fails in the same cases and with the same exception, the times, the grid and the
distribution are the same, every cumulative matrix has the values of the product, and every
covariance those of the value-level computation. -/
theorem C103_values {inp : SInput K} {n : Nat} (hn : 0 < n) (hM : ∀ M ∈ inp.matrices, Sq n M) :
    (∃ e, constructC inp = .error e ∧ Flow.construct (inp.values n) = .error e) ∨
    ∃ o o', constructC inp = .ok o ∧ Flow.construct (inp.values n) = .ok o' ∧ o.n = n ∧ o.p1 = o'.p1 ∧
      o.timeList = o'.timeList ∧ o.kGrid = o'.kGrid ∧ o.tGrid = o'.tGrid ∧
      List.Forall₂ (fun T M => Sq n T ∧ EqOn n T.val M) o.tList o'.tList ∧
      List.Forall₂ (fun A J => A.PT.nrows = n ∧ EqOn n A.toarray J) o.iList o'.iList := by
  rcases construct_ref hn hM with h | ⟨o, o', h1, h2, h3, h4, -, h6, h7, h8, h9, h10⟩
  · exact Or.inl h
  · refine Or.inr ⟨o, o', h1, h2, h3, h4, h7, h8, h9, h6, h10.imp fun A J h => ⟨h.size, fun i hi j hj => ?_⟩⟩
    obtain ⟨C, M, ⟨⟨c1, c2⟩, -⟩, rfl, rfl⟩ := h.from_arrays
    rw [toarray_mk C _ _ c1.wf i j (by rw [c1.rows]; exact hi), c2 i hi j hj, weights_p0 hi hj]

/-- The arguments of the class for a flow: inter-event transition matrices as arrays, increasing
times, one more than matrices, a distribution whose smallest probability is at least `1 / b`, a
tolerance that is not negative, and a square root. -/
structure SRegular (inp : SInput K) (n : Nat) (Ms : List (Csr K)) (ts : List K) (b : K) : Prop where
  mats : inp.mats = some (.inter Ms)
  times : inp.times = some ts
  nonempty : Ms ≠ []
  size : 0 < n
  arrays : ∀ M ∈ Ms, Sq n M
  stoch : ∀ M ∈ Ms, Stoch n M.val
  increasing : ts.Pairwise (· < ·)
  length : ts.length = Ms.length + 1
  dist : Distribution n (inp.p1.getD (uniform n))
  least : AtLeast n (inp.p1.getD (uniform n)) b
  rtol : 0 ≤ inp.rtol
  sqrt : ∀ x : K, 0 ≤ x → inp.sqrt x * inp.sqrt x = x

theorem SRegular.trimmed {inp : SInput K} {n : Nat} {Ms : List (Csr K)} {ts : List K} {b : K}
    (h : SRegular inp n Ms ts b) : Trimmed (inp.values n) (inp.p1.getD (uniform n)) b := by
  refine ⟨rfl, h.rtol, h.sqrt, h.dist, h.least, ?_⟩
  by_contra hb
  have h1 := h.least 0 h.size
  have h2 := mul_nonpos_of_nonpos_of_nonneg (not_lt.1 hb) (h.dist.1 0 h.size)
  linarith

theorem SRegular.regular {inp : SInput K} {n : Nat} {Ms : List (Csr K)} {ts : List K} {b : K}
    (h : SRegular inp n Ms ts b) : Flow.Regular (untrimmed (inp.values n)) (Ms.map Csr.val) ts where
  mats := by
    show (inp.values n).mats = _
    unfold SInput.values
    simp only [h.mats]
  times := h.times
  nonempty := by simpa using h.nonempty
  stoch := by
    intro A hA
    obtain ⟨M, hM, rfl⟩ := List.mem_map.1 hA
    exact h.stoch M hM
  increasing := h.increasing
  length := by rw [h.length, List.length_map]
  dist := h.dist
  exact := exact_untrimmed h.trimmed

theorem SRegular.matrices {inp : SInput K} {n : Nat} {Ms : List (Csr K)} {ts : List K} {b : K}
    (h : SRegular inp n Ms ts b) : ∀ M ∈ inp.matrices, Sq n M := by
  unfold SInput.matrices
  rw [h.mats]
  exact h.arrays

/-- The computation with trimming beside the one without. -/
theorem construct_untrimmed {inp : SInput K} {n : Nat} {Ms : List (Csr K)} {ts : List K} {b : K}
    (h : SRegular inp n Ms ts b) {o : Flow.Obj K} (ho : Flow.construct (inp.values n) = .ok o) :
    ∃ o0, Flow.construct (untrimmed (inp.values n)) = .ok o0 ∧ o0.kGrid = o.kGrid ∧
      o.timeList = along inp.reverse ts ∧ o.p1 = inp.p1.getD (uniform n) ∧
      List.Forall₂ (fun J J0 => ∃ M M0, Close (inp.values n) (inp.p1.getD (uniform n)) b Ms.length M M0 ∧
        (J = fun i j => M i j - inp.p1.getD (uniform n) i * inp.p1.getD (uniform n) j) ∧
        J0 = fun i j => M0 i j - inp.p1.getD (uniform n) i * inp.p1.getD (uniform n) j) o.iList o0.iList := by
  obtain ⟨Ts, htl, hlen, htime, hprod⟩ := Flow.regular_tList h.regular
  rw [List.length_map] at hlen
  have hTst : ∀ T ∈ Ts, Stoch n T := by
    intro T hT
    obtain ⟨k, hk, rfl⟩ := List.getElem_of_mem hT
    refine Trans.stoch_congr (hprod k hk) (Trans.stoch_prod fun A hA => ?_)
    have hA' := List.mem_of_mem_take hA
    refine h.regular.stoch A ?_
    split at hA'
    · exact List.mem_reverse.1 hA'
    · exact hA'
  have htl' : Flow.tList (inp.values n) = .ok Ts := htl
  have htime' : Flow.timeList (inp.values n) Ts.length = along inp.reverse ts := htime
  unfold Flow.construct at ho ⊢
  rw [htl'] at ho
  rw [htl]
  simp only [htime'] at ho
  simp only [htime]
  have hg : Flow.gridIndices (untrimmed (inp.values n)).reverse (along (untrimmed (inp.values n)).reverse ts)
      (untrimmed (inp.values n)).grid = Flow.gridIndices (inp.values n).reverse (along inp.reverse ts) (inp.values n).grid := rfl
  rw [hg]
  revert ho
  cases Flow.gridIndices (inp.values n).reverse (along inp.reverse ts) (inp.values n).grid with
  | error e => intro ho; cases ho
  | ok g =>
    intro ho
    simp only at ho ⊢
    cases ho
    refine ⟨_, rfl, rfl, rfl, rfl, ?_⟩
    simp only
    have hc := integral_close h.trimmed (g.map (·.1)) Ts (along inp.reverse ts) hTst
      (Flow.steps_pos h.increasing inp.reverse)
    rw [hlen] at hc
    rw [List.forall₂_map_left_iff, List.forall₂_map_right_iff]
    exact hc.imp fun M M0 hM => ⟨M, M0, hM, rfl, rfl⟩

/-- What is known of the covariance stored for the first `m` steps. -/
structure Known (inp : SInput K) (n : Nat) (Ms : List (Csr K)) (ts : List K) (b : K) (A : Autocov K) (m : Nat) : Prop where
  size : A.PT.nrows = n
  good : Good A
  symm : A.symmetric = true ∧ ∀ i < n, ∀ j < n, A.toarray i j = A.toarray j i
  normalised : Normalised n A.w
  tight : Tight A
  weights : ∀ i < n, ∀ j < n, A.w.p0 i j = inp.p1.getD (uniform n) i * inp.p1.getD (uniform n) j
  diag : inp.rtol * b < 1 → ∀ i < n, 0 < A.PT.val i i
  le : ∀ i < n, ∀ j < n, A.toarray i j ≤
    meanCov n (inp.p1.getD (uniform n)) (flowSteps n inp.reverse (Ms.map Csr.val) ts m) i j
  ge : ∀ i < n, ∀ j < n, meanCov n (inp.p1.getD (uniform n)) (flowSteps n inp.reverse (Ms.map Csr.val) ts m) i j ≤
    A.toarray i j + inp.rtol * b * Ms.length * (inp.p1.getD (uniform n) i * inp.p1.getD (uniform n) j)

theorem normalised_weightsC {n : Nat} (hn : 0 < n) {p : Nat → K} (hp : Distribution n p) : Normalised n (weightsC n p) := by
  unfold weightsC
  split
  · rename_i h
    show p 0 * p 0 = _
    have h1 := hp.2
    rw [Finset.sum_congr rfl fun i hi => h i (Finset.mem_range.1 hi), Finset.sum_const, Finset.card_range, nsmul_eq_mul] at h1
    have hn' : (n : K) ≠ 0 := by exact_mod_cast hn.ne'
    have : p 0 = 1 / (n : K) := by field_simp; linarith
    rw [this]
  · exact ⟨hp.2, hp.2⟩

theorem known {inp : SInput K} {n : Nat} {Ms : List (Csr K)} {ts : List K} {b : K}
    (h : SRegular inp n Ms ts b) {o : ObjC K} (ho : constructC inp = .ok o) :
    o.n = n ∧ List.Forall₂ (Known inp n Ms ts b) o.iList
      ((List.range' 1 Ms.length).filter fun m => decide (m ∈ o.kGrid)) := by
  rcases construct_ref h.size h.matrices with ⟨e, h1, -⟩ | ⟨o1, o', h1, h2, h3, h4, h5, h6, h7, h8, h9, h10⟩
  · rw [ho] at h1; cases h1
  rw [ho] at h1
  cases h1
  obtain ⟨o0, g1, g2, g3, g4, g5⟩ := construct_untrimmed h h2
  obtain ⟨J, j1, j2⟩ := Flow.C47_integral h.regular g1
  rw [j1, List.length_map, g2, ← h8] at g5
  refine ⟨h3, ?_⟩
  set p := inp.p1.getD (uniform n) with hp
  have hpo : o.p1 = p := h4.trans h5
  have hd : ∀ d ∈ Flow.steps o.timeList, 0 < d := by
    rw [h7, g3]
    exact Flow.steps_pos h.increasing inp.reverse
  rw [List.forall₂_map_right_iff] at g5
  rw [List.forall₂_iff_get] at h10 g5 ⊢
  refine ⟨h10.1.trans g5.1, fun k hk1 hk2 => ?_⟩
  have hk' : k < o'.iList.length := by rw [← h10.1]; exact hk1
  have a1 := h10.2 k hk1 hk'
  obtain ⟨M', M0, a2, a3, a4⟩ := g5.2 k hk' hk2
  rw [hpo] at a1
  have a0 := a1.size
  obtain ⟨C, M, ⟨⟨c1, c2⟩, c3, c4⟩, c5, c6⟩ := a1.from_arrays
  have c7 := c4 hd
  have hMM : M' = M := by
    rw [c6] at a3
    funext i j
    have := congrFun (congrFun a3 i) j
    simp only [sub_left_inj] at this
    exact this.symm
  subst hMM
  generalize (o.iList.get ⟨k, hk1⟩) = A at *
  generalize hm : ((List.range' 1 Ms.length).filter fun m => decide (m ∈ o.kGrid)).get ⟨k, hk2⟩ = m at *
  have hmem : m ∈ (List.range' 1 Ms.length).filter fun m => decide (m ∈ o.kGrid) := by
    rw [← hm]; exact List.get_mem _ _
  have hm' := List.mem_range'_1.1 (List.mem_filter.1 hmem).1
  obtain ⟨j3, -⟩ := j2 m hm'.1 (by rw [List.length_map]; omega)
  have hsym : ∀ i < n, ∀ j < n, C.val i j = C.val j i := by
    intro i hi j hj
    rw [c2 i hi j hj, c2 j hj i hi, a2.symm i hi j hj]
  have hval : ∀ i < n, ∀ j < n, A.toarray i j = M' i j - p i * p j := by
    intro i hi j hj
    rw [c5, toarray_mk C _ _ c1.wf i j (by rw [c1.rows]; exact hi), c2 i hi j hj, weights_p0 hi hj]
  have hmean : ∀ i < n, ∀ j < n, meanCov n p (flowSteps n inp.reverse (Ms.map Csr.val) ts m) i j = M0 i j - p i * p j := by
    intro i hi j hj
    have := j3 i hi j hj
    rw [a4] at this
    exact this.symm
  constructor
  · exact a0
  · rw [c5]
    exact good_mk C _ _ c1.wf (by rw [c1.cols, c1.rows]) c3 fun _ i j hi hj =>
      hsym i (by rw [← c1.rows]; exact hi) j (by rw [← c1.rows]; exact hj)
  · refine ⟨by rw [c5]; rfl, fun i hi j hj => ?_⟩
    rw [hval i hi j hj, hval j hj i hi, a2.symm i hi j hj]
    ring
  · rw [c5]
    exact normalised_weightsC h.size h.dist
  · rw [c5]
    refine SparseLouvain.tight_mk C _ _ c1.wf (by rw [c1.cols, c1.rows]) fun i hi e he => ?_
    have hi' : i < n := by rw [← c1.rows]; exact hi
    have he1 : e.1 < n := by rw [← c1.cols]; exact c1.wf.row_lt i e he
    have hv : C.val i e.1 = e.2 := sumAt_of_mem _ (c3 i hi) e he
    have h0 : 0 ≤ e.2 := by
      rw [← hv, c2 i hi' e.1 he1]
      exact a2.pos i hi' e.1 he1
    exact lt_of_le_of_ne h0 (Ne.symm (c7 i hi e he))
  · intro i hi j hj
    rw [c5]
    exact weights_p0 hi hj
  · intro hlt i hi
    have e1 : A.PT.val i i = C.val i i := by
      rw [c5]
      exact val_sortIndices c1.wf _ _ (by rw [c1.rows]; exact hi)
    rw [e1, c2 i hi i hi]
    exact a2.diag hlt i hi
  · intro i hi j hj
    rw [hval i hi j hj, hmean i hi j hj]
    have := a2.le i hi j hj
    linarith
  · intro i hi j hj
    rw [hval i hi j hj, hmean i hi j hj]
    have := a2.err i hi j hj
    have e : (inp.values n).rtol = inp.rtol := rfl
    rw [e] at this
    linarith

/-- **C103**, how exact the covariances are.  For a flow given by stochastic matrices there is one
covariance for every number `m` of steps on the grid; it is stored sorted, without repeated or
nonpositive entries, and symmetric, and each of its values lies below the mean covariance of the first
`m` steps by at most the tolerance, times the number of matrices and `p i p j` over the smallest
probability.  Without trimming it is exact. -/
theorem C103_integral {inp : SInput K} {n : Nat} {Ms : List (Csr K)} {ts : List K} {b : K}
    (h : SRegular inp n Ms ts b) {o : ObjC K} (ho : constructC inp = .ok o) :
    List.Forall₂ (fun A m => A.PT.nrows = n ∧ Good A ∧ Tight A ∧ (∀ i < n, ∀ j < n, A.toarray i j = A.toarray j i) ∧
      ∀ i < n, ∀ j < n,
        A.toarray i j ≤ meanCov n (inp.p1.getD (uniform n)) (flowSteps n inp.reverse (Ms.map Csr.val) ts m) i j ∧
        meanCov n (inp.p1.getD (uniform n)) (flowSteps n inp.reverse (Ms.map Csr.val) ts m) i j ≤
          A.toarray i j + inp.rtol * b * Ms.length * (inp.p1.getD (uniform n) i * inp.p1.getD (uniform n) j))
      o.iList ((List.range' 1 Ms.length).filter fun m => decide (m ∈ o.kGrid)) :=
  (known h ho).2.imp fun _ _ k => ⟨k.size, k.good, k.tight, k.symm.2, fun i hi j hj => ⟨k.le i hi j hj, k.ge i hi j hj⟩⟩

/-- **C103**: with the default grid the constructor succeeds and there is exactly one covariance,
that of the whole time. -/
theorem C103_default {inp : SInput K} {n : Nat} {Ms : List (Csr K)} {ts : List K} {b : K}
    (h : SRegular inp n Ms ts b) (hg : inp.grid = none) :
    ∃ o A, constructC inp = .ok o ∧ o.iList = [A] ∧ Known inp n Ms ts b A Ms.length := by
  obtain ⟨o0, h0, h0k⟩ := Flow.construct_default h.regular hg
  rcases construct_ref h.size h.matrices with ⟨e, -, h1⟩ | ⟨o, o', h1, h2, -, -, -, -, -, h8, -⟩
  · exfalso
    obtain ⟨Ts, htl, -, htime, -⟩ := Flow.regular_tList h.regular
    have htl' : Flow.tList (inp.values n) = .ok Ts := htl
    have htime' : Flow.timeList (inp.values n) Ts.length = Flow.timeList (untrimmed (inp.values n)) Ts.length := rfl
    unfold Flow.construct at h0 h1
    rw [htl] at h0
    rw [htl'] at h1
    simp only at h0 h1
    have hgg : Flow.gridIndices (untrimmed (inp.values n)).reverse (Flow.timeList (untrimmed (inp.values n)) Ts.length)
      (untrimmed (inp.values n)).grid = Flow.gridIndices (inp.values n).reverse (Flow.timeList (inp.values n) Ts.length)
      (inp.values n).grid := rfl
    rw [hgg] at h0
    revert h0 h1
    cases Flow.gridIndices (inp.values n).reverse (Flow.timeList (inp.values n) Ts.length) (inp.values n).grid with
    | error e => intro _ h0; cases h0
    | ok g => intro h1; cases h1
  · obtain ⟨-, hk⟩ := known h h1
    obtain ⟨o0', g1, g2, -⟩ := construct_untrimmed h h2
    rw [h0] at g1
    cases g1
    rw [h8, ← g2, h0k, List.length_map] at hk
    have hpos := List.length_pos_iff.2 h.nonempty
    have hf : ((List.range' 1 Ms.length).filter fun m => decide (m ∈ [0, Ms.length])) = [Ms.length] := by
      exact Flow.filter_grid (by simp) (by simp; omega)
    rw [hf] at hk
    match hl : o.iList, hk with
    | [A], .cons hA .nil => exact ⟨o, A, h1, hl, hA⟩

/-! ## C104 -/

theorem Known.fit {inp : SInput K} {n : Nat} {Ms : List (Csr K)} {ts : List K} {b : K} {A : Autocov K} {m : Nat}
    (k : Known inp n Ms ts b A m) (hn : 0 < n) (hlt : inp.rtol * b < 1) : Fit A := by
  refine ⟨k.good, ?_, by rw [k.size]; exact k.normalised, k.tight, by rw [k.size]; exact hn, ?_⟩
  · intro _ i j hi hj
    rw [k.size] at hi hj
    have h1 := k.symm.2 i hi j hj
    unfold Autocov.toarray at h1
    rw [k.weights i hi j hj, k.weights j hj i hi, mul_comm (inp.p1.getD (uniform n) j)] at h1
    exact sub_left_inj.1 h1
  · intro i hi hrow
    rw [k.size] at hi
    have := k.diag hlt i hi
    unfold Csr.val at this
    rw [hrow] at this
    simp [sumAt] at this

theorem pairStability_mono {S S' : Nat → Nat → K} (P : Part)
    (h : ∀ i < P.numNodes, ∀ j < P.numNodes, S i j ≤ S' i j) : pairStability S P ≤ pairStability S' P := by
  unfold pairStability
  apply Finset.sum_le_sum
  intro i hi
  apply Finset.sum_le_sum
  intro j hj
  split
  · exact h i (Finset.mem_range.1 hi) j (Finset.mem_range.1 hj)
  · exact le_refl _

theorem pairStability_singletons (S : Nat → Nat → K) (P : Part) (h : P.clusters = singletons P.numNodes) :
    pairStability S P = ∑ i ∈ Finset.range P.numNodes, S i i := by
  unfold pairStability
  rw [h]
  apply Finset.sum_congr rfl
  intro i hi
  rw [Finset.mem_range] at hi
  rw [Finset.sum_eq_single i]
  · rw [if_pos ((Verif.Louvain.together_singletons _ _ _).2 ⟨rfl, hi⟩)]
  · intro j _ hji
    rw [if_neg fun h => hji ((Verif.Louvain.together_singletons _ _ _).1 h).1.symm]
  · intro h
    exact absurd (Finset.mem_range.2 hi) h

/-- **C104, partial.**  If the tolerance is smaller than the smallest probability, then for every
covariance of the object, whatever the random choices and limits of the search, the sparse clustering
raises nothing and reads nothing outside the arrays.  Its partition is valid.  It puts all nodes
together if the covariance passes for zero; otherwise it has no empty cluster, and by the exact mean covariance of
the flow it is worse than leaving every node alone by at most the tolerance, times the number of
matrices and the sum of the squares of the probabilities over the smallest one: without trimming it is never worse.
Missing: starting probabilities that are zero, see below. -/
theorem C104_find_partial {inp : SInput K} {n : Nat} {Ms : List (Csr K)} {ts : List K} {b : K}
    (h : SRegular inp n Ms ts b) (hlt : inp.rtol * b < 1) {o : ObjC K} (ho : constructC inp = .ok o) (sc : Sched)
    (par : Params K) (k : Nat) :
    (o.iList.length ≤ k ∧ findC sc par o k = .error .indexError) ∨
    ∃ A m loops P, o.iList[k]? = some A ∧ ((List.range' 1 Ms.length).filter fun m => decide (m ∈ o.kGrid))[k]? = some m ∧
      findC sc par o k = .ok (loops, P) ∧ Consistent P ∧ P.numNodes = n ∧
      (A.isAllZeros = true → ∀ u < n, ∀ v < n, Together P.clusters u v) ∧
      (A.isAllZeros = false → (∀ cl ∈ P.clusters, cl.Nonempty) ∧
        ∑ i ∈ Finset.range n, meanCov n (inp.p1.getD (uniform n)) (flowSteps n inp.reverse (Ms.map Csr.val) ts m) i i ≤
        pairStability (meanCov n (inp.p1.getD (uniform n)) (flowSteps n inp.reverse (Ms.map Csr.val) ts m)) P +
          inp.rtol * b * Ms.length * ∑ i ∈ Finset.range n, inp.p1.getD (uniform n) i ^ 2) := by
  obtain ⟨-, hk⟩ := known h ho
  by_cases hlen : k < o.iList.length
  swap
  · left
    refine ⟨not_lt.1 hlen, ?_⟩
    unfold findC
    rw [List.getElem?_eq_none (not_lt.1 hlen)]
  right
  rw [List.forall₂_iff_get] at hk
  have hlen' := hk.1 ▸ hlen
  have hA := hk.2 k hlen hlen'
  set A := o.iList.get ⟨k, hlen⟩ with hAdef
  set m := ((List.range' 1 Ms.length).filter fun m => decide (m ∈ o.kGrid)).get ⟨k, hlen'⟩ with hmdef
  have e1 : o.iList[k]? = some A := List.getElem?_eq_getElem hlen
  have e2 : ((List.range' 1 Ms.length).filter fun m => decide (m ∈ o.kGrid))[k]? = some m := List.getElem?_eq_getElem hlen'
  obtain ⟨q, hq, q1, q2, q3⟩ := Verif.Louvain.mk'_none A.PT.nrows false
  have hmk : mkS A .none = .ok ⟨A, q⟩ := by unfold mkS; rw [hq]
  have hfind : ∀ r, sFindLouvain sc par ⟨A, q⟩ = .ok r → findC sc par o k = .ok r := by
    intro r hr
    unfold findC
    rw [e1]
    simp only
    rw [hmk]
    simp only
    rw [hr]
  cases hz : A.isAllZeros with
  | true =>
    obtain ⟨P, p1, p2, p3, p4⟩ := SparseLouvain.C69_all_zeros sc par ⟨A, q⟩ hz (by show 0 < A.PT.nrows; rw [hA.size]; exact h.size)
    refine ⟨A, m, 0, P, e1, e2, hfind _ p1, p2, p3.trans hA.size, fun _ u hu v hv => ?_, fun h => by rw [hz] at h; exact absurd h (by simp)⟩
    have e : (⟨A, q⟩ : SparseLouvain.SClu K).A.PT.nrows = n := hA.size
    rw [e] at p4
    exact p4 u hu v hv
  | false =>
    obtain ⟨loops, P, p1, p2, p3, p4, p5⟩ := SparseLouvain.C69_no_worse_partial sc par ⟨A, q⟩ (hA.fit h.size hlt) hmk hz
    refine ⟨A, m, loops, P, e1, e2, hfind _ p1, p2, p3.trans hA.size, (fun h => by rw [hz] at h; exact absurd h (by simp)), fun _ => ⟨p4, ?_⟩⟩
    have hPn : P.numNodes = n := p3.trans hA.size
    have hqn : q.numNodes = n := q2.trans hA.size
    have p5' : sStability A q ≤ sStability A P := p5
    rw [SparseLouvain.C69_stability_exact A q q1, SparseLouvain.C69_stability_exact A P p2,
      pairStability_singletons _ q (by rw [q3, q2]), hqn] at p5'
    have h1 := pairStability_mono P (S := A.toarray)
      (S' := meanCov n (inp.p1.getD (uniform n)) (flowSteps n inp.reverse (Ms.map Csr.val) ts m))
      (by rw [hPn]; exact hA.le)
    have h2 : ∑ i ∈ Finset.range n, meanCov n (inp.p1.getD (uniform n)) (flowSteps n inp.reverse (Ms.map Csr.val) ts m) i i ≤
        ∑ i ∈ Finset.range n, A.toarray i i + inp.rtol * b * Ms.length * ∑ i ∈ Finset.range n, inp.p1.getD (uniform n) i ^ 2 := by
      rw [Finset.mul_sum, ← Finset.sum_add_distrib]
      apply Finset.sum_le_sum
      intro i hi
      rw [Finset.mem_range] at hi
      have := hA.ge i hi i hi
      rw [sq]
      exact this
    linarith

/-! ### Probabilities that are zero -/

theorem out_stored {inp : Flow.Input K} {p : Nat → K} {ks : List Nat} {Q : Mat K → Prop}
    (hst : ∀ (s : Flow.Loop K) e, (inp.mkl = false → ∀ i j, s.ipt i j = s.ipt j i) →
      Q (Flow.stored inp p (Flow.step inp p ks s e).ipt (Flow.step inp p ks s e).total)) (hsp : inp.sparse = true) :
    ∀ (l : List ((Mat K × K) × Nat)) (s : Flow.Loop K), (inp.mkl = false → ∀ i j, s.ipt i j = s.ipt j i) →
      (∀ M ∈ s.out, Q M) → ∀ M ∈ (l.foldl (Flow.step inp p ks) s).out, Q M
  | [], _, _, h => h
  | e :: l, s, hs, h => by
    rw [List.foldl_cons]
    refine out_stored hst hsp l _ ?_ ?_
    · intro hm i j
      show (if inp.sparse then _ else _ : Mat K) i j = (if inp.sparse then _ else _ : Mat K) j i
      rw [hsp]
      simp only [if_true]
      have hg : Flow.stepMatrix inp p e.1.1 e.1.2 i j = Flow.stepMatrix inp p e.1.1 e.1.2 j i := by
        unfold Flow.stepMatrix
        simp only [hsp, if_true, hm, Bool.false_and, Bool.false_eq_true, if_false]
        congr 1
        exact Finset.sum_congr rfl fun k _ => mul_comm _ _
      rw [trim_symm (hs hm i j), trim_symm hg]
    · have e1 : (Flow.step inp p ks s e).out = if e.2 + 1 ∈ ks then
        s.out ++ [Flow.stored inp p (Flow.step inp p ks s e).ipt (Flow.step inp p ks s e).total] else s.out := rfl
      rw [e1]
      split
      · intro M hM
        rcases List.mem_append.1 hM with hM | hM
        · exact h M hM
        · rw [List.mem_singleton.1 hM]
          exact hst s e hs
      · exact h

theorem integral_symm {inp : Flow.Input K} (hsp : inp.sparse = true) (p : Nat → K) (Ts : List (Mat K)) (ts : List K)
    (ks : List Nat) : ∀ M ∈ Flow.integral inp p Ts ts ks, (∀ i j, M i j = M j i) ∧ ∀ i, p i = 0 → ∀ j, M i j = 0 := by
  unfold Flow.integral
  refine out_stored (fun s e hs => ?_) hsp _ _ (fun _ _ _ => rfl) (by simp)
  have hs' : inp.mkl = false → ∀ i j, (Flow.step inp p ks s e).ipt i j = (Flow.step inp p ks s e).ipt j i := by
    intro hm i j
    show (if inp.sparse then _ else _ : Mat K) i j = (if inp.sparse then _ else _ : Mat K) j i
    rw [hsp]
    simp only [if_true]
    have hg : Flow.stepMatrix inp p e.1.1 e.1.2 i j = Flow.stepMatrix inp p e.1.1 e.1.2 j i := by
      unfold Flow.stepMatrix
      simp only [hsp, if_true, hm, Bool.false_and, Bool.false_eq_true, if_false]
      congr 1
      exact Finset.sum_congr rfl fun k _ => mul_comm _ _
    rw [trim_symm (hs hm i j), trim_symm hg]
  generalize (Flow.step inp p ks s e).ipt = I at *
  generalize (Flow.step inp p ks s e).total = t at *
  unfold Flow.stored
  rw [hsp, Bool.true_and]
  cases hm : inp.mkl
  · simp only [Bool.false_eq_true, if_false]
    refine ⟨fun i j => ?_, fun i hi j => by rw [hi]; ring⟩
    rw [hs' hm i j]
    ring
  · simp only [if_true]
    refine ⟨fun i j => ?_, fun i hi j => ?_⟩
    · by_cases hij : i = j
      · subst hij; rfl
      · rw [if_neg hij, if_neg (Ne.symm hij)]
        ring
    · by_cases hij : i = j
      · subst hij; rw [if_pos rfl, hi]; ring
      · rw [if_neg hij, hi]; ring

/-- Every covariance of the object is stored in good order, and the row of a node that starts with
probability zero stores nothing. -/
theorem zero_rows {inp : SInput K} {n : Nat} (hn : 0 < n) (hM : ∀ M ∈ inp.matrices, Sq n M) {o : ObjC K}
    (ho : constructC inp = .ok o) (hd : ∀ d ∈ Flow.steps o.timeList, 0 < d) :
    o.p1 = inp.p1.getD (uniform n) ∧
    ∀ A ∈ o.iList, Good A ∧ A.PT.nrows = n ∧ ∀ i < n, o.p1 i = 0 → A.PT.row i = [] := by
  rcases construct_ref hn hM with ⟨e, h1, -⟩ | ⟨o1, o', h1, h2, h3, h4, h5, -, -, -, -, h10⟩
  · rw [ho] at h1; cases h1
  rw [ho] at h1
  cases h1
  refine ⟨h4.trans h5, fun A hA => ?_⟩
  obtain ⟨k, hk, rfl⟩ := List.getElem_of_mem hA
  rw [List.forall₂_iff_get] at h10
  have hk' : k < o'.iList.length := by rw [← h10.1]; exact hk
  have hc := h10.2 k hk hk'
  have hJ : ∃ M : Mat K, o'.iList.get ⟨k, hk'⟩ = (fun i j => M i j - o.p1 i * o.p1 j) ∧ (∀ i j, M i j = M j i) ∧
      ∀ i, o.p1 i = 0 → ∀ j, M i j = 0 := by
    unfold Flow.construct at h2
    split at h2
    · cases h2
    · simp only at h2
      split at h2
      · cases h2
      · cases h2
        simp only at h4
        have hmem := List.get_mem _ (⟨k, hk'⟩ : Fin _)
        simp only at hmem
        obtain ⟨M, hM1, hM2⟩ := List.mem_map.1 hmem
        rw [h4]
        exact ⟨M, hM2.symm, integral_symm rfl _ _ _ _ M hM1⟩
  obtain ⟨M', hJ1, hJ2, hJ3⟩ := hJ
  obtain ⟨C, M, ⟨⟨c1, c2⟩, c3, c4⟩, c5, c6⟩ := hc.from_arrays
  have c7 := c4 hd
  have hMM : M = M' := by
    rw [hJ1] at c6
    funext i j
    have := congrFun (congrFun c6 i) j
    simp only [sub_left_inj] at this
    exact this.symm
  subst hMM
  have e0 : o.iList[k] = mkAutocov C (weightsC n o.p1) true := c5
  rw [e0]
  refine ⟨good_mk C _ _ c1.wf (by rw [c1.cols, c1.rows]) c3 fun _ i j hi hj => ?_, ?_, fun i hi hpi => ?_⟩
  · rw [c1.rows] at hi hj
    rw [c2 i hi j hj, c2 j hj i hi, hJ2]
  · have := hc.size
    rw [c5] at this
    exact this
  · have e1 : (mkAutocov C (weightsC n o.p1) true).PT.row i = sortRow C.ncols (C.row i) :=
      row_sortIndices C i (by rw [c1.rows]; exact hi)
    rw [e1]
    have : C.row i = [] := by
      rw [List.eq_nil_iff_forall_not_mem]
      intro e he
      have hi' : i < C.nrows := by rw [c1.rows]; exact hi
      apply c7 i hi' e he
      have hv : C.val i e.1 = e.2 := sumAt_of_mem _ (c3 i hi') e he
      rw [← hv, c2 i hi e.1 (by rw [← c1.cols]; exact c1.wf.row_lt i e he), hJ3 i hpi]
    have hp := perm_sortRow C.ncols (C.row i) (c1.wf.row_lt i)
    rw [this] at hp ⊢
    exact hp.eq_nil

theorem sVisit_empty {A : Autocov K} {v : Nat} (h : ∀ idx, A.deltaOut v idx = .error .outOfBounds)
    (it : Finset Int → List Int) (P : Part) : ∃ e, SparseLouvain.sVisit A it P v = .error e := by
  unfold SparseLouvain.sVisit
  split
  · exact ⟨_, rfl⟩
  · unfold SparseLouvain.sDeltaOut
    split
    · rename_i e he
      exact ⟨e, rfl⟩
    · rename_i ci _ r hr
      exfalso
      revert hr
      split
      · intro hr; cases hr
      · split
        · intro hr; cases hr
        · rw [h]
          intro hr; cases hr

theorem sSweep_empty {A : Autocov K} {v : Nat} (h : ∀ idx, A.deltaOut v idx = .error .outOfBounds)
    (it : Nat → Finset Int → List Int) : ∀ (l : List Nat) (d : K) (P : Part), v ∈ l →
      ∃ e, SparseLouvain.sSweep A it l d P = .error e
  | [], _, _, hv => by simp at hv
  | u :: l, d, P, hv => by
    unfold SparseLouvain.sSweep
    cases hvis : SparseLouvain.sVisit A (it u) P u with
    | error e => exact ⟨e, rfl⟩
    | ok r =>
      obtain ⟨g, P'⟩ := r
      simp only
      rcases List.mem_cons.1 hv with rfl | hv
      · obtain ⟨e, he⟩ := sVisit_empty h (it v) P
        rw [he] at hvis
        cases hvis
      · exact sSweep_empty h it l _ _ hv

/-- **C104, a starting probability that is zero.**  If the last node starts with probability zero,
then the search never returns a partition, unless the covariance passes for zero: for all matrices, times, grids
and random choices, the first pass over the nodes reads outside the arrays when it comes to that node. -/
theorem C104_zero_probability_violated {inp : SInput K} {n : Nat} (hn : 0 < n) (hM : ∀ M ∈ inp.matrices, Sq n M)
    {o : ObjC K} (ho : constructC inp = .ok o) (hd : ∀ d ∈ Flow.steps o.timeList, 0 < d)
    (hp : inp.p1.getD (uniform n) (n - 1) = 0) (sc : Sched) (par : Params K) (hthr : par.thr < 1) (hsub : 1 < par.nSub)
    {k : Nat} {A : Autocov K} (hA : o.iList[k]? = some A) (hz : A.isAllZeros = false) :
    (∀ idx, A.deltaOut (n - 1) idx = .error .outOfBounds) ∧ ∃ e, findC sc par o k = .error (.clustering e) := by
  obtain ⟨h1, h2⟩ := zero_rows hn hM ho hd
  obtain ⟨g1, g2, g3⟩ := h2 A (List.mem_of_getElem? hA)
  rw [h1] at g3
  have hrow := g3 (n - 1) (by omega) hp
  have hfail : ∀ idx, A.deltaOut (n - 1) idx = .error .outOfBounds := fun idx =>
    (C19_trailing_empty_rows_fail A g1 (n - 1) (by rw [g2]; omega) (fun i hi1 hi2 => by
      rw [g2] at hi2
      have : i = n - 1 := by omega
      rw [this]; exact hrow) idx).2
  refine ⟨hfail, ?_⟩
  obtain ⟨q, hq, q1, q2, q3⟩ := Verif.Louvain.mk'_none A.PT.nrows false
  have hmk : mkS A .none = .ok ⟨A, q⟩ := by unfold mkS; rw [hq]
  have hsame := SparseLouvain.mkS_same (c := ⟨A, q⟩) hmk
  have hfind : ∃ e, sFindLouvain sc par ⟨A, q⟩ = .error e := by
    unfold sFindLouvain
    rw [hz, if_neg (by simp), hsame]
    simp only
    unfold SparseLouvain.sMetaLoop
    rw [if_neg (by
      rintro (h | h | h)
      · exact absurd h (not_le.2 hthr)
      · cases h
      · omega)]
    simp only
    have : ∃ e, SparseLouvain.sMoveNodes sc (0 + 1) par.thr par.nSub ⟨A, q⟩ (par.nSub + 1) = .error e := by
      unfold SparseLouvain.sMoveNodes SparseLouvain.sMoveLoop
      rw [if_pos ⟨hthr, hsub⟩]
      obtain ⟨e, he⟩ := sSweep_empty hfail (sc.listing (0 + 1) 1) (sc.order (0 + 1) 1 A.PT.nrows) 0 q
        ((sc.order_perm _ _ _).mem_iff.2 (List.mem_range.2 (by rw [g2]; omega)))
      simp only
      rw [he]
      exact ⟨e, rfl⟩
    obtain ⟨e, he⟩ := this
    rw [he]
    exact ⟨e, rfl⟩
  obtain ⟨e, he⟩ := hfind
  refine ⟨e, ?_⟩
  unfold findC
  rw [hA]
  simp only
  rw [hmk]
  simp only
  rw [he]

end Verif.SparseFlow
