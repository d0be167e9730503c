import Verif.Widths.Model
import Verif.SparseStoch.Props

/-!
# C88: compressed matrices after row normalisation
-/

namespace Verif.Widths

set_option linter.unusedSectionVars false

open Verif.Csr Verif.SparseStoch

variable {K : Type} [Field K] [LinearOrder K] [IsStrictOrderedRing K]

/-! ## Helper lemmas -/

theorem built_ok (m : SSM K) : built (.ok m) = .ok ⟨m, .int32⟩ := rfl

theorem wScaledBy_cases (A : WMat K) (hA : A.mat.WF) (b : K) :
    ∃ C, wScaledBy A b = .ok C ∧ A.mat.scaledBy b = .ok C.mat ∧ C.mat.WF ∧
      C.mat.size = A.mat.size ∧ C.width = (if b = 1 then A.width else .int32) := by
  obtain ⟨C, h1, h2, h3, _, _⟩ := scaled_ok hA b
  by_cases hb : b = 1
  · refine ⟨A, by rw [wScaledBy, if_pos hb], by rw [SSM.scaledBy, if_pos hb], hA, rfl, ?_⟩
    rw [if_pos hb]
  · refine ⟨⟨C, .int32⟩, ?_, h1, h2, h3, by rw [if_neg hb]⟩
    rw [SSM.scaledBy, if_neg hb] at h1
    rw [wScaledBy, if_neg hb, h1]; rfl

/-- Whether a product meets an index array of the wrong type. -/
def blocked (be : Backend) (A B : WMat K) : Prop :=
  be = .compiled ∧
    ((A.width = .int64 ∧ B.mat.diag = 1) ∨ (B.width = .int64 ∧ A.mat.diag = 1))

theorem width_ne {w : Width} : w ≠ .int32 ↔ w = .int64 := by cases w <;> simp

theorem accepts_iff (be : Backend) (v w : Width) :
    (accepts32 be v && accepts32 be w) = true ↔ ¬ (be = .compiled ∧ (v = .int64 ∨ w = .int64)) := by
  cases be <;> cases v <;> cases w <;> decide

/-- Products of well-formed matrices: blocked, or exactly the product of the numbers. -/
theorem wMatmul_cases (be : Backend) (A B : WMat K) (hA : A.mat.WF) (hB : B.mat.WF)
    (hsize : A.mat.size = B.mat.size) :
    (blocked be A B → wMatmul be A B = .error .bufferType) ∧
    (¬ blocked be A B → ∃ C, A.mat.matmul B.mat = .ok C ∧ wMatmul be A B = .ok ⟨C, .int32⟩) := by
  obtain ⟨aB, ha1, ha2, ha3, ha4, ha5⟩ := wScaledBy_cases B hB A.mat.diag
  obtain ⟨bA, hb1, hb2, hb3, hb4, hb5⟩ := wScaledBy_cases A hA B.mat.diag
  obtain ⟨S, hs1, hs2, hs3, _, _⟩ := addWith_ok id rfl (fun _ _ => rfl) hb3 ha3
    (by rw [hb4, ha4, hsize])
  obtain ⟨D, hd1, hd2, hd3, _, _⟩ := subDiag_ok hs2 (A.mat.diag * B.mat.diag)
  have hadd : bA.mat.add aB.mat = .ok S := hs1
  have hacc : (accepts32 be bA.width && accepts32 be aB.width) = true ↔ ¬ blocked be A B := by
    rw [accepts_iff, hb5, ha5]
    unfold blocked
    by_cases h1 : B.mat.diag = 1 <;> by_cases h2 : A.mat.diag = 1 <;> simp [h1, h2]
  have hDsize : D.size = A.mat.size := by rw [hd3, hs3, hb4]
  by_cases hint : interLen A.mat B.mat = 0
  · constructor
    · intro hbl
      have : ¬ (accepts32 be bA.width && accepts32 be aB.width) = true := fun h => hacc.1 h hbl
      simp only [wMatmul, ha1, hb1, bind, Except.bind, hint, if_true, wAdd, if_neg this]
    · intro hbl
      refine ⟨D, ?_, ?_⟩
      · unfold SSM.matmul
        simp only [ha2, hb2, hadd, hint, bind, Except.bind, if_true]
        exact hd1
      · simp only [wMatmul, ha1, hb1, bind, Except.bind, hint, if_true, wAdd, if_pos (hacc.2 hbl),
          hadd, built_ok, wSubDiag, hd1]
  · have hmem : ∀ x, x ∈ unique (A.mat.nz ++ B.mat.nz) ↔ x ∈ A.mat.nz ∨ x ∈ B.mat.nz := by
      intro x; rw [mem_unique, List.mem_append]
    have hc := sorted_unique (A.mat.nz ++ B.mat.nz)
    generalize hcnz : unique (A.mat.nz ++ B.mat.nz) = cnz at hmem hc
    have hAs : ∀ x ∈ A.mat.nz, x ∈ cnz := fun x h => (hmem x).2 (Or.inl h)
    have hBs : ∀ x ∈ B.mat.nz, x ∈ cnz := fun x h => (hmem x).2 (Or.inr h)
    have hin : ∀ x ∈ cnz, x < A.mat.size := by
      intro x hx
      rcases (hmem x).1 hx with h | h
      · exact hA.inside x h
      · exact hsize ▸ hB.inside x h
    obtain ⟨am, af, hm1, hm2, hm3, hm4, hm5, hm6⟩ := moved_ok hA cnz hc hAs
    obtain ⟨bm, bf, hn1, hn2, hn3, hn4, hn5, hn6⟩ := moved_ok hB cnz hc hBs
    have hr : (af.matmul bf).nrows = cnz.length := by rw [nrows_matmul, hm4]
    have hcc : (af.matmul bf).ncols = cnz.length := by rw [ncols_matmul, hn5]
    have hcm := fromSmall_ok A.mat.size (af.matmul bf) cnz (0 : K) (wf_matmul _ _) hr hcc hc
    have hcmwf : (SSM.mk A.mat.size cnz (af.matmul bf) (0 : K)).WF :=
      ⟨hc, hin, wf_matmul _ _, hr, hcc⟩
    obtain ⟨C, hC1, _, _, _, _⟩ :=
      addWith_ok id rfl (fun _ _ => rfl) hcmwf hd2 hDsize.symm
    have hC1' : (SSM.mk A.mat.size cnz (af.matmul bf) (0 : K)).add D = .ok C := hC1
    constructor
    · intro hbl
      have : ¬ (accepts32 be bA.width && accepts32 be aB.width) = true := fun h => hacc.1 h hbl
      simp only [wMatmul, ha1, hb1, bind, Except.bind, hint, if_false, hcnz,
        colMap_ok hc A.mat.nz hA.sorted hAs 0 (by simp),
        colMap_ok hc B.mat.nz hB.sorted hBs 0 (by simp), hm1, hn1, hm2, hn2, hcm, built_ok,
        wAdd, if_neg this]
    · intro hbl
      refine ⟨C, ?_, ?_⟩
      · unfold SSM.matmul
        simp only [ha2, hb2, hadd, hint, bind, Except.bind, if_false, hcnz,
          colMap_ok hc A.mat.nz hA.sorted hAs 0 (by simp),
          colMap_ok hc B.mat.nz hB.sorted hBs 0 (by simp), hm1, hn1, hm2, hn2, hcm, hd1, hC1']
      · have h32 : (accepts32 be .int32 && accepts32 be .int32) = true := by cases be <;> rfl
        simp only [wMatmul, ha1, hb1, bind, Except.bind, hint, if_false, hcnz,
          colMap_ok hc A.mat.nz hA.sorted hAs 0 (by simp),
          colMap_ok hc B.mat.nz hB.sorted hBs 0 (by simp), hm1, hn1, hm2, hn2, hcm, built_ok,
          wAdd, if_pos (hacc.2 hbl), hadd, wSubDiag, hd1, if_pos h32, hC1']

theorem trim_wf (tol : Option K) {A : SSM K} (h : A.WF) :
    (setToZeroesSSM tol true false A).WF ∧ (setToZeroesSSM tol true false A).size = A.size := by
  unfold setToZeroesSSM
  cases tol with
  | none => exact ⟨h, rfl⟩
  | some t =>
    obtain ⟨h1, h2, h3⟩ := setToZeroes_wf t true false h.block
    exact ⟨⟨h.sorted, h.inside, h1, h2.trans h.rows, h3.trans h.cols⟩, rfl⟩

theorem prepare_wf (be : Backend) (tol : Option K) {A : WMat K} (h : A.mat.WF) :
    (prepare be tol A).mat.WF ∧ (prepare be tol A).mat.size = A.mat.size := by
  cases tol with
  | none => exact ⟨h, rfl⟩
  | some t =>
    obtain ⟨h1, h2⟩ := trim_wf (some t) h
    exact ⟨(C15_compressed_rows be 1 _ h1).1, h2⟩

theorem finish_wf (be : Backend) (tol : Option K) {A : WMat K} (h : A.mat.WF) :
    (finish be tol A).mat.WF ∧ (finish be tol A).mat.size = A.mat.size := by
  obtain ⟨h1, h2⟩ := trim_wf tol h
  exact ⟨(C15_compressed_rows be 1 _ h1).1, h2⟩

theorem normalize_one (A : WMat K) : wNormalize .compiled 1 A = wNormalize .python 1 A := by
  unfold wNormalize SSM.rowNormalize SparseStoch.rowNormalize normData
  have : ∀ l : List K, normVals .compiled (1 : K) l = normVals .python 1 l := by
    intro l
    unfold normVals
    simp
  simp only [this]

theorem not_blocked_python (A B : WMat K) : ¬ blocked .python A B := fun h => nomatch h.1

/-! ## Specification -/

/-- Matrices of one network: well-formed, all of `n` nodes. -/
def AllWF (n : Nat) (l : List (WMat K)) : Prop := ∀ A ∈ l, A.mat.WF ∧ A.mat.size = n

/-- Every row sums to 1. -/
def Stochastic (n : Nat) (A : SSM K) : Prop :=
  ∀ i < n, ∑ j ∈ Finset.range n, A.dense i j = 1

/-- `D · A₁ · A₂ ⋯` for the matrices of a list. -/
def chain (n : Nat) (D : Nat → Nat → K) : List (WMat K) → Nat → Nat → K
  | [] => D
  | A :: rest => chain n (fun i j => ∑ k ∈ Finset.range n, D i k * A.mat.dense k j) rest

/-- A matrix as `from_full_csr_matrix` and `from_small_csr_matrix` make it: 32-bit
indices and, by default, ones on the rest of the diagonal. -/
def Fresh (A : WMat K) : Prop := A.width = .int32 ∧ A.mat.diag = 1

/-! ## Single operations -/

/-- **C88** (single operations, Python routines).  Addition, subtraction, product and
conversion give the same whatever the type of the index arrays, that is whether or not the
operands were row-normalised before. -/
theorem C88_python_operations (A B : WMat K) (T : Csr K) (w : Width) (d : K)
    (hA : A.mat.WF) (hB : B.mat.WF) (hsize : A.mat.size = B.mat.size) :
    wAdd .python A B = built (A.mat.add B.mat) ∧
    wSub .python A B = built (A.mat.sub B.mat) ∧
    wFromFull .python T w d = built (fromFull .python T d) ∧
    ∃ C, wMatmul .python A B = .ok C ∧ C.mat.WF ∧
      ∀ i j, i < A.mat.size → j < A.mat.size →
        C.mat.dense i j = ∑ k ∈ Finset.range A.mat.size, A.mat.dense i k * B.mat.dense k j := by
  refine ⟨rfl, rfl, rfl, ?_⟩
  obtain ⟨C, h1, h2⟩ := (wMatmul_cases .python A B hA hB hsize).2 (not_blocked_python A B)
  obtain ⟨C', h3, h4, _, h5⟩ := C13_matmul_exact A.mat B.mat hA hB hsize
  rw [h1] at h3
  cases h3
  exact ⟨⟨C, .int32⟩, h2, h4, h5⟩

/-- **C88** (single operations, compiled routines) is violated.  A matrix that was
row-normalised in place can no longer be added to, subtracted from or multiplied with
another one, in either position: `A + B`, `A - B` fail whenever one of them was
normalised; `A @ B` fails exactly when a normalised one meets an operand with ones on the
rest of its diagonal.  A CSR matrix that was row-normalised in place cannot be converted. -/
theorem C88_compiled_operations_violated (A B : WMat K) (s : K) (T : Csr K) (d : K) (hA : A.mat.WF) (hB : B.mat.WF)
    (hsize : A.mat.size = B.mat.size) :
    (wAdd .compiled (wNormalize .compiled s A) B = .error .bufferType ∧
      wAdd .compiled B (wNormalize .compiled s A) = .error .bufferType ∧
      wSub .compiled (wNormalize .compiled s A) B = .error .bufferType ∧
      wSub .compiled B (wNormalize .compiled s A) = .error .bufferType ∧
      wFromFull .compiled (csrNormalize .compiled s T).1 (csrNormalize .compiled s T).2 d =
        .error .bufferType) ∧
    (wMatmul .compiled (wNormalize .compiled s A) B = .error .bufferType ↔
      B.mat.diag = 1 ∨ (B.width = .int64 ∧ s = 1)) ∧
    (wMatmul .compiled B (wNormalize .compiled s A) = .error .bufferType ↔
      B.mat.diag = 1 ∨ (B.width = .int64 ∧ s = 1)) := by
  have hN : (wNormalize .compiled s A).mat.WF := (C15_compressed_rows .compiled s _ hA).1
  have hNs : (wNormalize .compiled s A).mat.size = A.mat.size := rfl
  have hd : (wNormalize .compiled s A).mat.diag = s := rfl
  have hw : (wNormalize .compiled s A).width = .int64 := rfl
  refine ⟨⟨?_, ?_, ?_, ?_, rfl⟩, ?_, ?_⟩
  · simp [wAdd, accepts32, hw]
  · simp [wAdd, accepts32, hw]
  · simp [wSub, accepts32, hw]
  · simp [wSub, accepts32, hw]
  · obtain ⟨h1, h2⟩ := wMatmul_cases .compiled _ B hN hB (hNs.trans hsize)
    constructor
    · intro h
      by_contra hc
      obtain ⟨C, _, h3⟩ := h2 (fun hb => hc (by
        rcases hb.2 with h | h
        · exact Or.inl h.2
        · exact Or.inr ⟨h.1, hd ▸ h.2⟩))
      rw [h3] at h
      cases h
    · rintro (h | h)
      · exact h1 ⟨rfl, Or.inl ⟨hw, h⟩⟩
      · exact h1 ⟨rfl, Or.inr ⟨h.1, hd.trans h.2⟩⟩
  · obtain ⟨h1, h2⟩ := wMatmul_cases .compiled B _ hB hN (hNs.trans hsize).symm
    constructor
    · intro h
      by_contra hc
      obtain ⟨C, _, h3⟩ := h2 (fun hb => hc (by
        rcases hb.2 with h | h
        · exact Or.inr ⟨h.1, hd ▸ h.2⟩
        · exact Or.inl h.2))
      rw [h3] at h
      cases h
    · rintro (h | h)
      · exact h1 ⟨rfl, Or.inr ⟨hw, h⟩⟩
      · exact h1 ⟨rfl, Or.inl ⟨h.1, hd.trans h.2⟩⟩

/-- **C88** (single operations, compiled routines, exact guard).  Operands whose index
arrays are still 32-bit behave as with the Python routines. -/
theorem C88_compiled_operations_partial (A B : WMat K) (T : Csr K) (d : K) (hA : A.mat.WF) (hB : B.mat.WF)
    (hsize : A.mat.size = B.mat.size) (h1 : A.width = .int32) (h2 : B.width = .int32) :
    wAdd .compiled A B = wAdd .python A B ∧ wSub .compiled A B = wSub .python A B ∧
    wFromFull .compiled T .int32 d = built (fromFull .compiled T d) ∧
    wMatmul .compiled A B = wMatmul .python A B := by
  refine ⟨by simp [wAdd, accepts32, h1, h2], by simp [wSub, accepts32, h1, h2], rfl, ?_⟩
  have hb : ¬ blocked .compiled A B := by
    rintro ⟨_, h | h⟩
    · rw [h1] at h; exact nomatch h.1
    · rw [h2] at h; exact nomatch h.1
  obtain ⟨C, h3, h4⟩ := (wMatmul_cases .compiled A B hA hB hsize).2 hb
  obtain ⟨C', h5, h6⟩ := (wMatmul_cases .python A B hA hB hsize).2 (not_blocked_python A B)
  rw [h3] at h5
  cases h5
  rw [h4, h6]

/-! ## Cumulative transition matrices -/

/-- A product that is row-stochastic is not changed by the normalisation. -/
theorem finish_stochastic (be : Backend) {n : Nat} (C : WMat K) (hC : C.mat.WF)
    (hn : C.mat.size = n) (hs : Stochastic n C.mat) :
    ∀ i < n, ∀ j < n, (finish be none C).mat.dense i j = C.mat.dense i j := by
  intro i hi j hj
  subst hn
  obtain ⟨_, h⟩ := C15_compressed_rows be (1 : K) C.mat hC
  obtain ⟨_, h2, _, _⟩ := h i hi
  have h3 := h2 (by rw [hs i hi]; exact one_ne_zero) one_ne_zero j hj
  rw [hs i hi] at h3
  have : (finish be none C).mat = C.mat.rowNormalize be 1 := rfl
  rw [this, h3]
  simp

theorem chain_congr (n : Nat) (l : List (WMat K)) : ∀ (D E : Nat → Nat → K),
    (∀ i < n, ∀ j < n, D i j = E i j) → ∀ i < n, ∀ j < n, chain n D l i j = chain n E l i j := by
  induction l with
  | nil => intro D E h; exact h
  | cons A rest ih =>
    intro D E h
    refine ih _ _ ?_
    intro i hi j hj
    refine Finset.sum_congr rfl ?_
    intro k hk
    rw [h i hi k (Finset.mem_range.1 hk)]

theorem stochastic_mul {n : Nat} {A B : SSM K} {D : Nat → Nat → K} (hA : Stochastic n A)
    (hB : Stochastic n B)
    (hD : ∀ i j, i < n → j < n → D i j = ∑ k ∈ Finset.range n, A.dense i k * B.dense k j) :
    ∀ i < n, ∑ j ∈ Finset.range n, D i j = 1 := by
  intro i hi
  rw [Finset.sum_congr rfl (fun j hj => hD i j hi (Finset.mem_range.1 hj)), Finset.sum_comm]
  rw [Finset.sum_congr rfl (fun k hk => by
    rw [← Finset.mul_sum, hB k (Finset.mem_range.1 hk), mul_one])]
  exact hA i hi

/-- The list that is stored: all the products, or the last one. -/
def stored (save : Bool) (T : List (WMat K)) (Ts : List (WMat K)) : List (WMat K) :=
  if save then T ++ Ts else match Ts.getLast? with
    | none => T
    | some C => [C]

theorem stored_nil (save : Bool) (T : List (WMat K)) : stored save T [] = T := by
  cases save <;> simp [stored]

theorem stored_keep (save : Bool) (T : List (WMat K)) (C : WMat K) (Ts : List (WMat K)) :
    stored save (keep save T C) Ts = stored save T (C :: Ts) := by
  cases save with
  | true => simp [stored, keep]
  | false =>
    cases Ts with
    | nil => simp [stored, keep]
    | cons a l =>
      simp only [stored, keep, Bool.false_eq_true, if_false]
      rw [List.getLast?_cons_cons]
      cases h : (a :: l).getLast? with
      | none => simp at h
      | some x => rfl

theorem python_loop (tol : Option K) (save : Bool) (n : Nat) (rest : List (WMat K)) :
    ∀ (before : List (WMat K)) (cur : WMat K) (T : List (WMat K)),
    cur.mat.WF → cur.mat.size = n → AllWF n rest →
    ∃ Ts, productLoop .python tol save before cur T rest =
        (⟨before ++ rest.map (prepare .python tol), some (stored save T Ts)⟩, .done) ∧
      Ts.length = rest.length ∧
      (tol = none → Stochastic n cur.mat → (∀ A ∈ rest, Stochastic n A.mat) →
        ∀ k, ∀ hk : k < Ts.length, ∀ i < n, ∀ j < n,
          (Ts[k]).mat.dense i j = chain n cur.mat.dense (rest.take (k + 1)) i j) := by
  induction rest with
  | nil =>
    intro before cur T _ _ _
    exact ⟨[], by simp [productLoop, stored_nil], rfl,
      fun _ _ _ k hk => absurd hk (Nat.not_lt_zero _)⟩
  | cons B rest ih =>
    intro before cur T hcur hn hall
    obtain ⟨hB, hBn⟩ := hall B (List.mem_cons_self ..)
    obtain ⟨hP, hPn⟩ := prepare_wf .python tol hB
    have hsz : cur.mat.size = (prepare .python tol B).mat.size := by rw [hPn, hBn, hn]
    obtain ⟨C, hc1, hc2⟩ := (wMatmul_cases .python cur _ hcur hP hsz).2 (not_blocked_python _ _)
    obtain ⟨C', h3, hC, hCn, hCd⟩ := C13_matmul_exact cur.mat _ hcur hP hsz
    rw [hc1] at h3
    cases h3
    obtain ⟨hF, hFn⟩ := finish_wf .python tol (A := ⟨C, .int32⟩) hC
    obtain ⟨Ts, ht1, ht2, ht3⟩ := ih (before ++ [prepare .python tol B])
      (finish .python tol ⟨C, .int32⟩) (keep save T (finish .python tol ⟨C, .int32⟩)) hF
      (hFn.trans (hCn.trans hn)) (fun A hA => hall A (List.mem_cons_of_mem _ hA))
    refine ⟨finish .python tol ⟨C, .int32⟩ :: Ts, ?_, by simp [ht2], ?_⟩
    · rw [productLoop]
      simp only [hc2]
      rw [ht1, stored_keep]
      simp
    · intro htol hs hrest k hk i hi j hj
      subst htol
      have hBs := hrest B (List.mem_cons_self ..)
      have hCs : Stochastic n C := by
        refine stochastic_mul (A := cur.mat) (B := B.mat) hs hBs ?_
        intro i j hi hj
        have := hCd i j (hn ▸ hi) (hn ▸ hj)
        rw [hn] at this
        exact this
      have hfin := finish_stochastic .python ⟨C, .int32⟩ hC (hCn.trans hn) hCs
      have hd : ∀ i < n, ∀ j < n, (finish .python none ⟨C, .int32⟩).mat.dense i j =
          ∑ k ∈ Finset.range n, cur.mat.dense i k * B.mat.dense k j := by
        intro i hi j hj
        rw [hfin i hi j hj]
        have := hCd i j (hn ▸ hi) (hn ▸ hj)
        rw [hn] at this
        exact this
      cases k with
      | zero => exact hd i hi j hj
      | succ k =>
        have hFs : Stochastic n (finish .python none ⟨C, .int32⟩).mat := by
          intro i hi
          rw [Finset.sum_congr rfl (fun j hj => hfin i hi j (Finset.mem_range.1 hj))]
          exact hCs i hi
        have := ht3 rfl hFs (fun A hA => hrest A (List.mem_cons_of_mem _ hA)) k
          (by simpa using hk) i hi j hj
        rw [List.getElem_cons_succ, this, List.take_succ_cons]
        exact chain_congr n _ _ _ hd i hi j hj

/-- **C88** (cumulative matrices, Python routines).  `compute_transition_matrices` on
compressed inter-event matrices never raises.  Without tolerance the inter-event matrices
are left as they were, and when they are row-stochastic the `k`-th stored matrix is the
product of the first `k + 1` of them; without saving, the last product alone is stored. -/
theorem C88_python_chain (n : Nat) (A : WMat K) (rest : List (WMat K)) (save : Bool)
    (tol : Option K) (hall : AllWF n (A :: rest)) :
    ∃ l, computeT .python tol save ⟨A :: rest, none⟩ =
        (⟨(A :: rest).map (prepare .python tol), some l⟩, .done) ∧
      l.length = (if save then rest.length + 1 else 1) ∧
      (tol = none → (∀ B ∈ A :: rest, Stochastic n B.mat) →
        (computeT .python tol save ⟨A :: rest, none⟩).1.inter = A :: rest ∧
        ∀ k, ∀ hk : k < l.length, ∀ i < n, ∀ j < n,
          (l[k]).mat.dense i j =
            chain n A.mat.dense (rest.take (if save then k else rest.length)) i j) := by
  obtain ⟨hA, hAn⟩ := hall A (List.mem_cons_self ..)
  obtain ⟨hP, hPn⟩ := prepare_wf .python tol hA
  obtain ⟨Ts, h1, h2, h3⟩ := python_loop tol save n rest [prepare .python tol A]
    (prepare .python tol A) [prepare .python tol A] hP (hPn.trans hAn)
    (fun B hB => hall B (List.mem_cons_of_mem _ hB))
  have hcomp : computeT .python tol save ⟨A :: rest, none⟩ =
      (⟨(A :: rest).map (prepare .python tol),
        some (stored save [prepare .python tol A] Ts)⟩, .done) := by
    rw [computeT]
    simp only [h1]
    simp
  refine ⟨_, hcomp, ?_, ?_⟩
  · cases save with
    | true => simp [stored, h2]
    | false =>
      simp only [stored]
      cases hl : Ts.getLast? with
      | none => simp
      | some C => simp
  · intro htol hs
    subst htol
    have hAs := hs A (List.mem_cons_self ..)
    have hrs : ∀ B ∈ rest, Stochastic n B.mat := fun B hB => hs B (List.mem_cons_of_mem _ hB)
    have hmap : ∀ l : List (WMat K), l.map (prepare .python none) = l := by
      intro l
      exact (List.map_congr_left (fun _ _ => rfl)).trans (List.map_id l)
    refine ⟨by rw [hcomp]; exact hmap _, ?_⟩
    intro k hk i hi j hj
    cases save with
    | true =>
      simp only [stored, if_true] at hk ⊢
      cases k with
      | zero => simp [chain, prepare]
      | succ k =>
        simp only [List.cons_append, List.nil_append, List.getElem_cons_succ]
        exact h3 rfl hAs hrs k (by simpa using hk) i hi j hj
    | false =>
      have key : ∀ l : List (WMat K), l = stored false [prepare .python none A] Ts →
          ∀ hk : k < l.length, (l[k]).mat.dense i j = chain n A.mat.dense rest i j := by
        intro l hl hk
        by_cases hne : Ts = []
        · have hr : rest = [] := List.length_eq_zero_iff.1 (by rw [← h2, hne]; rfl)
          rw [hne, stored_nil] at hl
          subst hl hr
          simp [chain, prepare]
        · have hpos : 0 < Ts.length := List.length_pos_iff.2 hne
          have hst : stored false [prepare .python none A] Ts = [Ts[Ts.length - 1]'(Nat.sub_lt hpos Nat.one_pos)] := by
            simp only [stored, Bool.false_eq_true, if_false]
            rw [List.getLast?_eq_some_getLast hne, List.getLast_eq_getElem]
          rw [hst] at hl
          subst hl
          have := h3 rfl hAs hrs (Ts.length - 1) (by omega) i hi j hj
          rw [List.getElem_singleton, this, Nat.sub_add_cancel hpos, h2, List.take_length]
          rfl
      have := key _ rfl hk
      simpa using this

/-- **C88** (cumulative matrices, compiled routines, exact guard).  With at most two
inter-event matrices and no tolerance, or with one and a tolerance, the compiled routines
give the same as the Python ones. -/
theorem C88_compiled_chain_partial (n : Nat) (l : List (WMat K)) (save : Bool) (tol : Option K)
    (hall : AllWF n l) (hf : ∀ A ∈ l, A.width = .int32)
    (hlen : l.length ≤ (if tol = none then 2 else 1)) :
    computeT .compiled tol save ⟨l, none⟩ = computeT .python tol save ⟨l, none⟩ := by
  have hprep : ∀ A : WMat K, prepare .compiled tol A = prepare .python tol A := by
    intro A
    cases tol with
    | none => rfl
    | some t => exact normalize_one _
  have hfin : ∀ A : WMat K, finish .compiled tol A = finish .python tol A :=
    fun A => normalize_one _
  cases l with
  | nil => rfl
  | cons A rest =>
    cases rest with
    | nil => simp only [computeT, productLoop, hprep]
    | cons B rest =>
      cases tol with
      | some t => simp at hlen
      | none =>
        cases rest with
        | cons C rest => simp at hlen
        | nil =>
          obtain ⟨hA, hAn⟩ := hall A (by simp)
          obtain ⟨hB, hBn⟩ := hall B (by simp)
          have := (C88_compiled_operations_partial A B ⟨0, 0, [], [], []⟩ 1 hA hB (hAn.trans hBn.symm)
            (hf A (by simp)) (hf B (by simp))).2.2.2
          simp only [computeT, productLoop, prepare, this, hfin]

/-- **C88** (cumulative matrices, compiled routines) is violated.  With three or more
inter-event matrices, or two when a tolerance is given, `compute_transition_matrices`
always raises; the products made so far stay stored, and calling it again returns without
error and without completing them. -/
theorem C88_compiled_chain_violated (n : Nat) (l : List (WMat K)) (save : Bool)
    (tol : Option K) (hall : AllWF n l) (hf : ∀ A ∈ l, Fresh A)
    (hlen : (if tol = none then 2 else 1) < l.length) :
    (computeT .compiled tol save ⟨l, none⟩).2 = .raised .bufferType ∧
    ∃ T, (computeT .compiled tol save ⟨l, none⟩).1.T = some T ∧
      T.length = (if save && tol.isNone then 2 else 1) ∧
      ∀ tol' save', computeT .compiled tol' save' (computeT .compiled tol save ⟨l, none⟩).1 =
        ((computeT .compiled tol save ⟨l, none⟩).1, .done) := by
  have main : ∃ i T, computeT .compiled tol save ⟨l, none⟩ = (⟨i, some T⟩, .raised .bufferType) ∧
      T.length = (if save && tol.isNone then 2 else 1) := by
    cases l with
    | nil => simp at hlen
    | cons A rest =>
      cases rest with
      | nil =>
        exfalso
        cases tol <;> simp at hlen
      | cons B rest =>
        obtain ⟨hA, hAn⟩ := hall A (by simp)
        obtain ⟨hB, hBn⟩ := hall B (by simp)
        cases tol with
        | some t =>
          obtain ⟨hPA, hPAn⟩ := prepare_wf .compiled (some t) hA
          obtain ⟨hPB, hPBn⟩ := prepare_wf .compiled (some t) hB
          have hbl := (wMatmul_cases .compiled _ _ hPA hPB
            (hPAn.trans (hAn.trans (hBn.symm.trans hPBn.symm)))).1 ⟨rfl, Or.inl ⟨rfl, rfl⟩⟩
          refine ⟨[prepare .compiled (some t) A] ++ prepare .compiled (some t) B :: rest,
            [prepare .compiled (some t) A], ?_, ?_⟩
          · simp only [computeT]
            rw [productLoop]
            simp only [hbl]
          · simp
        | none =>
          cases rest with
          | nil => simp at hlen
          | cons D rest =>
            obtain ⟨hD, hDn⟩ := hall D (by simp)
            have hfA := hf A (by simp)
            have hfB := hf B (by simp)
            have hfD := hf D (by simp)
            have hnb : ¬ blocked .compiled A B := by
              rintro ⟨_, h | h⟩
              · rw [hfA.1] at h; exact nomatch h.1
              · rw [hfB.1] at h; exact nomatch h.1
            obtain ⟨C, hc1, hc2⟩ :=
              (wMatmul_cases .compiled A B hA hB (hAn.trans hBn.symm)).2 hnb
            obtain ⟨C', h3, hC, hCn, _⟩ := C13_matmul_exact A.mat B.mat hA hB (hAn.trans hBn.symm)
            rw [hc1] at h3
            cases h3
            obtain ⟨hF, hFn⟩ := finish_wf .compiled none (A := ⟨C, .int32⟩) hC
            have hbl := (wMatmul_cases .compiled (finish .compiled none ⟨C, .int32⟩) D hF hD
              (hFn.trans (hCn.trans (hAn.trans hDn.symm)))).1
              ⟨rfl, Or.inl ⟨rfl, hfD.2⟩⟩
            refine ⟨[A] ++ [B] ++ D :: rest, keep save [A] (finish .compiled none ⟨C, .int32⟩), ?_, ?_⟩
            · simp only [computeT]
              rw [productLoop]
              simp only [prepare, hc2]
              rw [productLoop]
              simp only [prepare, hbl]
            · cases save <;> simp [keep]
  obtain ⟨i, T, h1, h2⟩ := main
  rw [h1]
  exact ⟨rfl, T, rfl, h2, fun tol' save' => rfl⟩

/-! ## The hypotheses can be met -/

/-- Three stochastic matrices of three nodes as the conversion makes them. -/
def exL : List (WMat ℚ) :=
  [⟨exA, .int32⟩, ⟨⟨3, [1, 2], ⟨2, 2, [0, 2, 3], [1, 0, 0], [2/3, 1/3, 1]⟩, 1⟩, .int32⟩,
    ⟨exA, .int32⟩]

theorem exL_wf : AllWF 3 exL := by
  intro A hA
  simp only [exL, List.mem_cons, List.not_mem_nil, or_false] at hA
  rcases hA with rfl | rfl | rfl
  · exact ⟨exA_wf, rfl⟩
  · exact ⟨⟨by decide, by decide, ⟨by decide, by decide, by decide, by decide, by decide,
      by decide⟩, by decide, by decide⟩, rfl⟩
  · exact ⟨exA_wf, rfl⟩

theorem exL_stochastic : ∀ A ∈ exL, Stochastic 3 A.mat := by
  unfold Stochastic
  decide +kernel

example : AllWF 3 exL ∧ (∀ A ∈ exL, Fresh A) ∧ (∀ A ∈ exL, Stochastic 3 A.mat) ∧
    2 < exL.length := by
  refine ⟨exL_wf, ?_, exL_stochastic, by decide⟩
  unfold Fresh
  decide +kernel

/-- The third matrix of the Python run is not the second: the compiled run misses it. -/
example : chain 3 exA.dense (exL.tail.take 2) 0 0 ≠ chain 3 exA.dense (exL.tail.take 1) 0 0 := by
  decide +kernel

/-- One operand normalised, the other fresh, of the same size. -/
example : (⟨exA, .int32⟩ : WMat ℚ).mat.WF ∧ exD.WF ∧ exA.size = exD.size ∧ exD.diag = 1 :=
  ⟨exA_wf, exD_wf, rfl, rfl⟩

end Verif.Widths
