import Verif.SparseFlow.Lemmas
import Verif.SparseFlow.Bounds

/-!
# The stored arrays follow the values
-/

set_option linter.dupNamespace false
set_option linter.unusedSectionVars false

namespace Verif.SparseFlow

open Verif.Csr Verif.Autocov Verif.SparseStoch
open Verif.Trans (Mat EqOn)

variable {K : Type} [Field K] [LinearOrder K] [IsStrictOrderedRing K]

/-- The matrices of the input. -/
def SInput.matrices (inp : SInput K) : List (Csr K) :=
  match inp.mats with
  | none => []
  | some (.cumulative l) => l
  | some (.inter l) => l

/-- The same input with the values of the matrices. -/
def SInput.values (inp : SInput K) (n : Nat) : Flow.Input K where
  n := n
  sparse := true
  mats := match inp.mats with
    | none => none
    | some (.cumulative l) => some (.cumulative (l.map Csr.val))
    | some (.inter l) => some (.inter (l.map Csr.val))
  p1 := inp.p1
  times := inp.times
  grid := inp.grid
  reverse := inp.reverse
  rtol := inp.rtol
  mkl := inp.mkl
  sqrt := inp.sqrt

/-- A stored matrix and its values. -/
def Rep (n : Nat) (C : Csr K) (M : Mat K) : Prop := Sq n C ∧ EqOn n C.val M

theorem mul_congr {n : Nat} {A A' B B' : Mat K} (hA : EqOn n A A') (hB : EqOn n B B') :
    EqOn n (Trans.mul n A B) (Trans.mul n A' B') := by
  intro i hi j hj
  unfold Trans.mul
  apply Finset.sum_congr rfl
  intro k hk
  rw [Finset.mem_range] at hk
  rw [hA i hi k hk, hB k hk j hj]

theorem rowNormalize_congr {n : Nat} {A A' : Mat K} (hA : EqOn n A A') :
    EqOn n (Trans.rowNormalize n A) (Trans.rowNormalize n A') := by
  intro i hi j hj
  unfold Trans.rowNormalize
  have : ∑ k ∈ Finset.range n, A i k = ∑ k ∈ Finset.range n, A' i k :=
    Finset.sum_congr rfl fun k hk => hA i hi k (Finset.mem_range.1 hk)
  rw [this, hA i hi j hj]

theorem getLastD_rel {α β : Type} {R : α → β → Prop} {l : List α} {l' : List β} (h : List.Forall₂ R l l') (hne : l ≠ [])
    (a : α) (b : β) : R (l.getLastD a) (l'.getLastD b) := by
  induction h with
  | nil => exact absurd rfl hne
  | @cons x y xs ys h1 h2 ih =>
    cases h2 with
    | nil => exact h1
    | cons h3 h4 => exact ih (by simp)

theorem products_ref {n : Nat} (be : Backend) (Ms : List (Csr K)) (hM : ∀ M ∈ Ms, Sq n M) (hne : Ms ≠ []) :
    ∃ Ts Ts', productsC be Ms = .ok Ts ∧ Flow.products n true (Ms.map Csr.val) = .ok Ts' ∧ Ts ≠ [] ∧
      List.Forall₂ (Rep n) Ts Ts' := by
  obtain ⟨M, rest, rfl⟩ := List.exists_cons_of_ne_nil hne
  refine ⟨_, _, rfl, rfl, ?_⟩
  have key : ∀ (rest : List (Csr K)) (acc : List (Csr K)) (acc' : List (Mat K)), acc ≠ [] → (∀ M ∈ rest, Sq n M) →
      List.Forall₂ (Rep n) acc acc' →
      (rest.foldl (fun acc T => acc ++ [SparseStoch.rowNormalize be 1 ((acc.getLastD M).matmul T)]) acc) ≠ [] ∧
      List.Forall₂ (Rep n)
        (rest.foldl (fun acc T => acc ++ [SparseStoch.rowNormalize be 1 ((acc.getLastD M).matmul T)]) acc)
        ((rest.map Csr.val).foldl (fun acc T => acc ++ [if true then
          Trans.rowNormalize n (Trans.mul n (acc.getLastD Trans.eye) T) else Trans.mul n (acc.getLastD Trans.eye) T]) acc') := by
    intro rest
    induction rest with
    | nil => intro acc acc' h1 _ h3; exact ⟨h1, h3⟩
    | cons T rest ih =>
      intro acc acc' h1 h2 h3
      rw [List.map_cons, List.foldl_cons, List.foldl_cons]
      refine ih _ _ (by simp) (fun M hM => h2 M (by simp [hM])) (forall₂_append_singleton h3 ?_)
      obtain ⟨l1, l2⟩ := getLastD_rel h3 h1 M Trans.eye
      have hT := h2 T (by simp)
      obtain ⟨s1, s2⟩ := val_rowNormalize (sq_matmul l1 hT) be
      refine ⟨s1, fun i hi j hj => ?_⟩
      rw [s2 i hi j hj, if_pos rfl]
      refine rowNormalize_congr (fun i hi j hj => ?_) i hi j hj
      rw [val_matmulSq l1 hT i hi j hj]
      exact mul_congr l2 (fun _ _ _ _ => rfl) i hi j hj
  exact key rest [M] [M.val] (by simp) (fun T hT => hM T (by simp [hT])) (.cons ⟨hM M (by simp), fun _ _ _ _ => rfl⟩ .nil)

/-! ## One step -/

theorem mass_ref {n : Nat} {p : Nat → K} {T : Csr K} {T' : Mat K} (h : Rep n T T') {k : Nat} (hk : k < n) :
    vecMat p T k = Flow.massAt n p T' k := by
  unfold vecMat Flow.massAt
  rw [h.1.rows]
  apply Finset.sum_congr rfl
  intro i hi
  rw [h.2 i (Finset.mem_range.1 hi) k hk]

theorem stepMatrix_ref {inp : SInput K} {n : Nat} {p : Nat → K} {T : Csr K} {T' : Mat K} (h : Rep n T T') (dt : K) :
    Rep n (stepMatrixC inp p T dt) (Flow.stepMatrix (inp.values n) p T' dt) ∧ (stepMatrixC inp p T dt).NoRepeats := by
  unfold stepMatrixC
  set B := matmulDiag T fun k => inp.sqrt (invOrOne (vecMat p T) k) with hB
  have hBs : Sq n B := sq_mapVals h.1 _
  obtain ⟨g1, g2, g3⟩ := gram_shape hBs inp.mkl
  refine ⟨⟨sq_scale g1 dt, fun i hi j hj => ?_⟩, noRepeats_scale g2 dt⟩
  rw [val_scale, g3 i hi j hj]
  have hBv : ∀ i < n, ∀ k < n, B.val i k = T' i k * inp.sqrt (invOrOne (Flow.massAt n p T') k) := by
    intro i hi k hk
    rw [hB, val_matmulDiag _ _ _ _ (by rw [h.1.rows]; exact hi), h.2 i hi k hk]
    congr 2
    unfold invOrOne
    rw [mass_ref h hk]
  have hsum : ∑ k ∈ Finset.range n, B.val i k * B.val j k = ∑ k ∈ Finset.range n,
      T' i k * inp.sqrt (invOrOne (Flow.massAt n p T') k) * (T' j k * inp.sqrt (invOrOne (Flow.massAt n p T') k)) := by
    apply Finset.sum_congr rfl
    intro k hk
    rw [hBv i hi k (Finset.mem_range.1 hk), hBv j hj k (Finset.mem_range.1 hk)]
  rw [hsum]
  unfold Flow.stepMatrix
  show _ = if inp.mkl && decide (j < i) then 0 else _
  split
  · rw [zero_mul]
  · rfl

theorem val_storedBase {n : Nat} {p : Nat → K} {C : Csr K} {M : Mat K} (h : Rep n C M) (total : K) {i j : Nat}
    (hi : i < n) (hj : j < n) :
    ((dropZeros (matmulDiag (diagMatmul C p) p)).scale (1 / total)).val i j = p i * M i j * p j * (1 / total) := by
  have s1 : Sq n (diagMatmul C p) := sq_mapVals h.1 _
  have s2 : Sq n (matmulDiag (diagMatmul C p) p) := sq_mapVals s1 _
  rw [val_scale, val_dropZeros s2 hi, val_matmulDiag _ _ _ _ (by rw [s1.rows]; exact hi),
    val_diagMatmul _ _ _ _ (by rw [h.1.rows]; exact hi), h.2 i hi j hj]
  ring

theorem stored_ref {inp : SInput K} {n : Nat} {p : Nat → K} {C : Csr K} {M : Mat K} (h : Rep n C M) (hr : C.NoRepeats)
    (total : K) :
    Rep n (storedC inp p C total) (Flow.stored (inp.values n) p M total) ∧ (storedC inp p C total).NoRepeats ∧
      (total ≠ 0 → (storedC inp p C total).NoZeros) := by
  have s1 : Sq n (diagMatmul C p) := sq_mapVals h.1 _
  have s2 : Sq n (matmulDiag (diagMatmul C p) p) := sq_mapVals s1 _
  set B := (dropZeros (matmulDiag (diagMatmul C p) p)).scale (1 / total) with hB
  have hBs : Sq n B := sq_scale s2.dropZeros _
  have hBr : B.NoRepeats := noRepeats_scale (noRepeats_dropZeros s2 (noRepeats_mapVals (noRepeats_mapVals hr _) _)) _
  have hBv : ∀ i < n, ∀ j < n, B.val i j = p i * M i j * p j * (1 / total) := fun i hi j hj => val_storedBase h total hi hj
  have hst : storedC inp p C total = if inp.mkl then subDiagC (addC B B.transpose) B else B := rfl
  rw [hst]
  unfold Flow.stored
  have hsm : ((inp.values n).sparse && (inp.values n).mkl) = inp.mkl := Bool.true_and _
  simp only [hsm]
  cases hm : inp.mkl
  · simp only [Bool.false_eq_true, if_false]
    refine ⟨⟨hBs, hBv⟩, hBr, fun h0 => noZeros_scale (noZeros_dropZeros s2) (one_div_ne_zero h0)⟩
  · simp only [if_true]
    refine ⟨⟨sq_subDiagC _ (sq_addC hBs), fun i hi j hj => ?_⟩, noRepeats_subDiagC _ (sq_addC hBs),
      fun _ => noZeros_subDiagC _ (sq_addC hBs)⟩
    rw [val_subDiagC _ (sq_addC hBs) hi hj, val_addC hBs hi hj,
      val_transpose B j i (by rw [hBs.rows]; exact hj) (by rw [hBs.cols]; exact hi), hBv i hi j hj, hBv j hj i hi]
    show _ = p i * M i j * p j * (1 / total) + p j * M j i * p i * (1 / total) -
      if i = j then p i * M i i * p i * (1 / total) else 0
    split
    · rw [hBv i hi i hi]
    · rfl

/-- A matrix in the list of the integrals and its values; `hd` says that the steps are positive. -/
def Out (hd : Prop) (n : Nat) (C : Csr K) (M : Mat K) : Prop := Rep n C M ∧ C.NoRepeats ∧ (hd → C.NoZeros)

/-- The loop on the stored arrays and the loop on the values. -/
structure Same (hd : Prop) (n : Nat) (s : LoopC K) (s' : Flow.Loop K) : Prop where
  ipt : Rep n s.ipt s'.ipt
  noRepeats : s.ipt.NoRepeats
  total : s.total = s'.total
  nonneg : hd → 0 ≤ s.total
  out : List.Forall₂ (Out hd n) s.out s'.out

theorem Same.step {inp : SInput K} {hd : Prop} {n : Nat} {p : Nat → K} (ks : List Nat) {s : LoopC K} {s' : Flow.Loop K}
    (h : Same hd n s s') {T : Csr K} {T' : Mat K} (hT : Rep n T T') (dt : K) (hdt : hd → 0 < dt) (k : Nat) :
    Same hd n (stepC inp p ks s ((T, dt), k)) (Flow.step (inp.values n) p ks s' ((T', dt), k)) := by
  obtain ⟨⟨m1, m2⟩, m3⟩ := stepMatrix_ref (inp := inp) (p := p) hT dt
  set P := stepMatrixC inp p T dt with hP
  set P' := Flow.stepMatrix (inp.values n) p T' dt with hP'
  have hi : Rep n (addC (trimC inp.rtol s.ipt) (trimC inp.rtol P))
      (fun i j => Flow.trim n inp.rtol s'.ipt i j + Flow.trim n inp.rtol P' i j) := by
    refine ⟨sq_addC (h.ipt.1.trimC _), fun i hi j hj => ?_⟩
    rw [val_addC (h.ipt.1.trimC _) hi hj, val_trimC h.ipt.1 h.noRepeats _ i hi j hj, val_trimC m1 m3 _ i hi j hj,
      trim_congr h.ipt.2 _ i hi j hj, trim_congr m2 _ i hi j hj]
  have hr : (addC (trimC inp.rtol s.ipt) (trimC inp.rtol P)).NoRepeats := noRepeats_addC (h.ipt.1.trimC _)
  have hpos : hd → 0 < s.total + dt := fun hh => add_pos_of_nonneg_of_pos (h.nonneg hh) (hdt hh)
  refine ⟨hi, hr, ?_, fun hh => (hpos hh).le, ?_⟩
  · show s.total + dt = s'.total + dt
    rw [h.total]
  · show List.Forall₂ _ (if k + 1 ∈ ks then _ else _) (if k + 1 ∈ ks then _ else _)
    split
    · refine forall₂_append_singleton h.out ?_
      obtain ⟨a, b, c⟩ := stored_ref (inp := inp) (p := p) hi hr (s.total + dt)
      refine ⟨?_, b, fun hh => c (hpos hh).ne'⟩
      rw [h.total] at a
      show Rep n (storedC inp p (addC (trimC inp.rtol s.ipt) (trimC inp.rtol P)) (s.total + dt)) _
      rw [h.total]
      exact a
    · exact h.out

theorem loop_same {inp : SInput K} {hd : Prop} {n : Nat} {p : Nat → K} (ks : List Nat) {l : List (Csr K)} {l' : List (Mat K)}
    (h : List.Forall₂ (Rep n) l l') : ∀ (ds : List K) (k : Nat) (s : LoopC K) (s' : Flow.Loop K),
      (hd → ∀ d ∈ ds, 0 < d) → Same hd n s s' →
      Same hd n (((l.zip ds).zipIdx k).foldl (stepC inp p ks) s)
        (((l'.zip ds).zipIdx k).foldl (Flow.step (inp.values n) p ks) s') := by
  induction h with
  | nil => intro ds k s s' _ hs; simpa using hs
  | @cons T T' l l' hT _ ih =>
    intro ds k s s' hd hs
    cases ds with
    | nil => simpa using hs
    | cons d ds =>
      rw [List.zip_cons_cons, List.zip_cons_cons, List.zipIdx_cons, List.zipIdx_cons, List.foldl_cons, List.foldl_cons]
      exact ih ds (k + 1) _ _ (fun hh d hd' => hd hh d (by simp [hd'])) (hs.step ks hT d (fun hh => hd hh d (by simp)) k)

theorem integral_ref {inp : SInput K} {n : Nat} {p : Nat → K} (ks : List Nat) {Ts : List (Csr K)} {Ts' : List (Mat K)}
    (h : List.Forall₂ (Rep n) Ts Ts') (ts : List K) :
    List.Forall₂ (Out (∀ d ∈ Flow.steps ts, 0 < d) n) (integralC inp n p Ts ts ks)
      (Flow.integral (inp.values n) p Ts' ts ks) := by
  unfold integralC Flow.integral
  refine (loop_same ks h (Flow.steps ts) 0 _ _ (fun h => h)
    ⟨⟨sq_emptyC n, fun i hi j _ => val_emptyC hi j⟩, ?_, rfl, fun _ => le_refl _, .nil⟩).out
  intro i hi
  rw [(sq_emptyC n : Sq n (emptyC n : Csr K)).rows] at hi
  rw [row_emptyC hi]
  simp

/-! ## The constructor -/

theorem forall₂_head {α β : Type} {R : α → β → Prop} {l : List α} {l' : List β} (h : List.Forall₂ R l l') (hne : l ≠ []) :
    ∃ a r, l = a :: r ∧ ∃ b r', l' = b :: r' ∧ R a b := by
  cases h with
  | nil => exact absurd rfl hne
  | cons h1 _ => exact ⟨_, _, rfl, _, _, rfl, h1⟩

theorem forall₂_vals {n : Nat} {l : List (Csr K)} (h : ∀ M ∈ l, Sq n M) : List.Forall₂ (Rep n) l (l.map Csr.val) := by
  induction l with
  | nil => exact .nil
  | cons M l ih => exact .cons ⟨h M (by simp), fun _ _ _ _ => rfl⟩ (ih fun M hM => h M (by simp [hM]))

theorem tList_ref {inp : SInput K} {n : Nat} (hM : ∀ M ∈ inp.matrices, Sq n M) :
    (∃ e, tListC inp = .error e ∧ Flow.tList (inp.values n) = .error e) ∨
    ∃ Ts Ts', tListC inp = .ok Ts ∧ Flow.tList (inp.values n) = .ok Ts' ∧ Ts ≠ [] ∧ List.Forall₂ (Rep n) Ts Ts' := by
  unfold SInput.matrices at hM
  unfold tListC Flow.tList SInput.values
  match hm : inp.mats with
  | none => exact Or.inl ⟨_, rfl, rfl⟩
  | some (.cumulative []) => exact Or.inl ⟨_, rfl, rfl⟩
  | some (.cumulative (T :: l)) =>
    rw [hm] at hM
    exact Or.inr ⟨_, _, rfl, rfl, by simp, forall₂_vals hM⟩
  | some (.inter l) =>
    rw [hm] at hM
    simp only at hM ⊢
    have hmap : (if inp.reverse then (l.map Csr.val).reverse else l.map Csr.val) =
        (if inp.reverse then l.reverse else l).map Csr.val := by
      split <;> simp
    rw [hmap]
    by_cases hne : l = []
    · subst hne
      left
      refine ⟨.indexError, ?_, ?_⟩ <;> split <;> rfl
    · right
      exact products_ref inp.be _ (fun M hM' => hM M (by split at hM' <;> simpa using hM')) (by split <;> simpa using hne)

/-- The covariance object of a stored matrix, and the matrix of its values. -/
structure CovOf (hd : Prop) (n : Nat) (p : Nat → K) (A : Autocov K) (J : Mat K) : Prop where
  size : A.PT.nrows = n
  from_arrays : ∃ C M, Out hd n C M ∧ A = mkAutocov C (weightsC n p) true ∧ J = fun i j => M i j - p i * p j

theorem weights_p0 {n : Nat} {p : Nat → K} {i j : Nat} (hi : i < n) (hj : j < n) : (weightsC n p).p0 i j = p i * p j := by
  unfold weightsC
  split
  · rename_i h
    show p 0 * p 0 = _
    rw [h i hi, h j hj]
  · rfl

/-- The constructor on the stored arrays and on the values. -/
theorem construct_ref {inp : SInput K} {n : Nat} (hn : 0 < n) (hM : ∀ M ∈ inp.matrices, Sq n M) :
    (∃ e, constructC inp = .error e ∧ Flow.construct (inp.values n) = .error e) ∨
    ∃ o o', constructC inp = .ok o ∧ Flow.construct (inp.values n) = .ok o' ∧ o.n = n ∧ o.p1 = o'.p1 ∧
      o'.p1 = inp.p1.getD (uniform n) ∧ List.Forall₂ (Rep n) o.tList o'.tList ∧
      o.timeList = o'.timeList ∧ o.kGrid = o'.kGrid ∧ o.tGrid = o'.tGrid ∧
      List.Forall₂ (CovOf (∀ d ∈ Flow.steps o.timeList, 0 < d) n o.p1) o.iList o'.iList := by
  rcases tList_ref hM with ⟨e, h1, h2⟩ | ⟨Ts, Ts', h1, h2, h3, h4⟩
  · refine Or.inl ⟨e, ?_, ?_⟩
    · unfold constructC; rw [h1]
    · unfold Flow.construct; rw [h2]
  · obtain ⟨T0, Tr, rfl, T0', Tr', rfl, h5⟩ := forall₂_head h4 h3
    have hlen := h4.length_eq
    have ht : timeListC inp (T0 :: Tr).length = Flow.timeList (inp.values n) (T0' :: Tr').length := by
      rw [hlen]; rfl
    unfold constructC Flow.construct
    rw [h1, h2]
    simp only
    rw [ht]
    have hg : Flow.gridIndices (inp.values n).reverse (Flow.timeList (inp.values n) (T0' :: Tr').length) (inp.values n).grid =
      Flow.gridIndices inp.reverse (Flow.timeList (inp.values n) (T0' :: Tr').length) inp.grid := rfl
    rw [hg]
    cases Flow.gridIndices inp.reverse (Flow.timeList (inp.values n) (T0' :: Tr').length) inp.grid with
    | error e => exact Or.inl ⟨e, rfl, rfl⟩
    | ok g =>
      right
      simp only
      rw [if_neg (by rw [h5.1.rows]; omega), h5.1.rows]
      refine ⟨_, _, rfl, rfl, rfl, rfl, rfl, h4, rfl, rfl, rfl, ?_⟩
      simp only
      have hi := integral_ref (inp := inp) (p := inp.p1.getD (uniform n)) (g.map (·.1)) h4
        (Flow.timeList (inp.values n) (T0' :: Tr').length)
      rw [List.forall₂_map_left_iff, List.forall₂_map_right_iff]
      refine hi.imp fun C M hCM => ⟨?_, C, M, hCM, rfl, rfl⟩
      show (sortIndices C).nrows = n
      rw [nrows_sortIndices, hCM.1.1.rows]

end Verif.SparseFlow
