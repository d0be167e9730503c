import Verif.SparseStoch.Spec
import Verif.Csr.Lemmas
import Mathlib.Data.List.Sort
import Mathlib.Data.List.Perm.Basic

/-!
# Lemmas about compressed stochastic matrices
-/

namespace Verif.SparseStoch

set_option linter.unusedSectionVars false

open Verif.Csr

variable {K : Type} [Field K] [LinearOrder K] [IsStrictOrderedRing K]

/-! ## Strictly increasing lists -/

theorem nodup_of_sorted {l : List Nat} (h : l.Pairwise (· < ·)) : l.Nodup :=
  h.imp (fun hab => Nat.ne_of_lt hab)

theorem sorted_ext {l m : List Nat} (hl : l.Pairwise (· < ·)) (hm : m.Pairwise (· < ·))
    (h : ∀ x, x ∈ l ↔ x ∈ m) : l = m := by
  apply List.Perm.eq_of_pairwise (le := (· < ·)) _ hl hm
  · exact (List.perm_ext_iff_of_nodup (nodup_of_sorted hl) (nodup_of_sorted hm)).2 h
  · intro a b _ _ hab hba
    omega

theorem le_foldr_max (l : List Nat) : ∀ x ∈ l, x ≤ l.foldr max 0 := by
  induction l with
  | nil => simp
  | cons a l ih =>
    intro x hx
    rw [List.foldr_cons]
    rcases List.mem_cons.1 hx with rfl | hx
    · omega
    · have := ih x hx
      omega

theorem sorted_range (n : Nat) : (List.range n).Pairwise (· < ·) := List.pairwise_lt_range

theorem sorted_unique (l : List Nat) : (unique l).Pairwise (· < ·) :=
  (sorted_range _).filter _

theorem mem_unique (l : List Nat) (x : Nat) : x ∈ unique l ↔ x ∈ l := by
  unfold unique
  rw [List.mem_filter, List.mem_range, decide_eq_true_eq]
  constructor
  · exact fun h => h.2
  · intro h
    have := le_foldr_max l x h
    exact ⟨by omega, h⟩

theorem unique_sorted {l : List Nat} (h : l.Pairwise (· < ·)) : unique l = l :=
  sorted_ext (sorted_unique l) h (mem_unique l)

theorem idxOf_getElem {l : List Nat} (h : l.Nodup) (k : Nat) (hk : k < l.length) :
    l.idxOf l[k] = k := h.idxOf_getElem k hk

theorem idxOf_lt {l : List Nat} {x : Nat} (h : x ∈ l) : l.idxOf x < l.length :=
  List.idxOf_lt_length_iff.2 h

theorem getElem_idx {l : List Nat} {x : Nat} (h : x ∈ l) :
    l[l.idxOf x]'(idxOf_lt h) = x := List.getElem_idxOf _

theorem getD_idx {l : List Nat} {x : Nat} (h : x ∈ l) : l.getD (l.idxOf x) 0 = x := by
  have := getElem_idx h
  simp [List.getD_eq_getElem?_getD, List.getElem?_eq_getElem (idxOf_lt h), this]

theorem idxOf_inj {l : List Nat} {x y : Nat} (hx : x ∈ l) (hy : y ∈ l)
    (h : l.idxOf x = l.idxOf y) : x = y := by
  rw [← getD_idx hx, h, getD_idx hy]

theorem getD_lt {l : List Nat} {k : Nat} (h : k < l.length) : l.getD k 0 = l[k] := by
  simp [List.getD_eq_getElem?_getD, h]

theorem idxOf_mono {l : List Nat} (h : l.Pairwise (· < ·)) {x y : Nat} (hx : x ∈ l)
    (hy : y ∈ l) (hxy : x < y) : l.idxOf x < l.idxOf y := by
  by_contra hlt
  have hle : l.idxOf y ≤ l.idxOf x := by omega
  rcases Nat.lt_or_ge (l.idxOf y) (l.idxOf x) with h1 | h1
  · have := List.pairwise_iff_getElem.1 h _ _ (idxOf_lt hy) (idxOf_lt hx) h1
    rw [getElem_idx hx, getElem_idx hy] at this
    omega
  · have h2 : l.idxOf x = l.idxOf y := by omega
    have h3 := getElem_idx hx
    have h4 := getElem_idx hy
    simp only [h2] at h3
    omega

/-- Position of an element of a sorted sublist: how many of its elements come earlier. -/
theorem idxOf_split {cnz nz pre post : List Nat} {i : Nat} (hc : cnz.Pairwise (· < ·))
    (hn : nz.Pairwise (· < ·)) (hsub : ∀ x ∈ nz, x ∈ cnz) (hsplit : cnz = pre ++ i :: post)
    (hi : i ∈ nz) : nz.idxOf i = (pre.filter fun x => decide (x ∈ nz)).length := by
  have hnz : nz = cnz.filter fun x => decide (x ∈ nz) := by
    apply sorted_ext hn (hc.filter _)
    intro x
    rw [List.mem_filter, decide_eq_true_eq]
    exact ⟨fun h => ⟨hsub x h, h⟩, fun h => h.2⟩
  have hpre : i ∉ pre := by
    rw [hsplit] at hc
    have := List.pairwise_append.1 hc
    intro h
    have := this.2.2 i h i (by simp)
    omega
  have h1 : cnz.filter (fun x => decide (x ∈ nz)) =
      pre.filter (fun x => decide (x ∈ nz)) ++ i :: post.filter (fun x => decide (x ∈ nz)) := by
    rw [hsplit, List.filter_append, List.filter_cons_of_pos (by simpa using hi)]
  have h2 : i ∉ pre.filter (fun x => decide (x ∈ nz)) := fun h => hpre (List.mem_filter.1 h).1
  have h3 : (pre.filter (fun x => decide (x ∈ nz)) ++
      i :: post.filter (fun x => decide (x ∈ nz))).idxOf i =
      (pre.filter fun x => decide (x ∈ nz)).length := by
    rw [List.idxOf_append_of_notMem h2]; simp
  rw [← h1, ← hnz] at h3
  exact h3

/-! ## Constructors -/

theorem fromSmall_ok (size : Nat) (T : Csr K) (nz : List Nat) (d : K) (hT : T.WF)
    (hr : T.nrows = nz.length) (hc : T.ncols = nz.length) (hs : nz.Pairwise (· < ·)) :
    fromSmall size T nz d = .ok ⟨size, nz, T, d⟩ := by
  have h1 := hT.last
  have h2 := hT.lens
  rw [hr] at h1
  unfold fromSmall mkSSM
  dsimp only
  rw [if_neg (by rw [hT.ptrLen, hr]; simp), if_neg (by rw [hT.ptrZero]; simp),
    if_neg (by rw [List.length_zip]; omega), unique_sorted hs,
    List.take_of_length_le (by rw [List.length_zip]; omega)]
  unfold Build.toCsr
  dsimp only
  rw [List.map_fst_zip (by omega), List.map_snd_zip (by omega)]
  cases T
  dsimp only at hr hc ⊢
  rw [hr, hc]

theorem mkSSM_ofRows (size : Nat) (rows : List (List (Nat × K))) (nz : List Nat) (d : K)
    (hr : rows.length = nz.length) :
    mkSSM size (Build.ofRows rows) nz d = .ok ⟨size, unique nz, ofRows nz.length rows, d⟩ := by
  unfold mkSSM
  have h1 : (Build.ofRows rows).indptr.length = nz.length + 1 := by
    rw [ofRows_indptr]; simp [hr]
  have h2 : (Build.ofRows rows).indptr.getD 0 0 = 0 := by
    rw [ofRows_indptr_getD _ _ (by omega)]; simp
  have h3 : (Build.ofRows rows).indptr.getD nz.length 0 = (Build.ofRows rows).entries.length := by
    rw [ofRows_indptr_getD _ _ (by omega), ofRows_entries, List.take_of_length_le (by omega)]
  rw [if_neg (by rw [h1]; simp), if_neg (by rw [h2]; simp), if_neg (by rw [h3]; simp), h3,
    List.take_length]
  simp [ofRows, hr]

theorem WF.dense_getElem {A : SSM K} (h : A.WF) (a b : Nat) (ha : a < A.nz.length)
    (hb : b < A.nz.length) : A.dense A.nz[a] A.nz[b] = A.small.val a b := by
  unfold SSM.dense
  rw [if_pos ⟨List.getElem_mem _, List.getElem_mem _⟩,
    idxOf_getElem (nodup_of_sorted h.sorted), idxOf_getElem (nodup_of_sorted h.sorted)]

theorem dense_not_mem {A : SSM K} {i j : Nat} (h : i ∉ A.nz ∨ j ∉ A.nz) :
    A.dense i j = if i = j then A.diag else 0 := by
  unfold SSM.dense
  rw [if_neg]
  rintro ⟨h1, h2⟩
  rcases h with h | h
  · exact h h1
  · exact h h2

theorem dense_mem {A : SSM K} {i j : Nat} (hi : i ∈ A.nz) (hj : j ∈ A.nz) :
    A.dense i j = A.small.val (A.nz.idxOf i) (A.nz.idxOf j) := by
  unfold SSM.dense
  rw [if_pos ⟨hi, hj⟩]

theorem dense_mk_mem {size : Nat} {nz : List Nat} {M : Csr K} {d : K} {i j : Nat}
    (hi : i ∈ nz) (hj : j ∈ nz) :
    (SSM.mk size nz M d).dense i j = M.val (nz.idxOf i) (nz.idxOf j) :=
  dense_mem (A := SSM.mk size nz M d) hi hj

theorem dense_mk_not {size : Nat} {nz : List Nat} {M : Csr K} {d : K} {i j : Nat}
    (h : i ∉ nz ∨ j ∉ nz) :
    (SSM.mk size nz M d).dense i j = if i = j then d else 0 :=
  dense_not_mem (A := SSM.mk size nz M d) h

/-! ## Expansion -/

/-- Row `i` of the expanded matrix. -/
def fullRow (T : Csr K) (nz : List Nat) (diag : K) (i : Nat) : List (Nat × K) :=
  if i ∈ nz then (T.row (nz.idxOf i)).map fun e => (nz.getD e.1 0, e.2)
  else if diag ≠ 0 then [(i, diag)] else []

theorem rebuild_fold (T : Csr K) (nz : List Nat) (size : Nat) (diag : K)
    (hs : nz.Pairwise (· < ·)) (hin : ∀ i ∈ nz, i < size) (k : Nat) (hk : k ≤ size) :
    (List.range k).foldl (rebuildRow T nz diag) (0, Build.empty) =
      (((List.range k).filter fun x => decide (x ∈ nz)).length,
        Build.ofRows ((List.range k).map (fullRow T nz diag))) := by
  induction k with
  | zero => rfl
  | succ k ih =>
    rw [List.range_succ, List.foldl_append, ih (by omega), List.map_append, List.filter_append]
    simp only [List.foldl_cons, List.foldl_nil, List.map_cons, List.map_nil]
    rw [ofRows_snoc]
    unfold rebuildRow
    dsimp only
    by_cases hmem : k ∈ nz
    · have hsplit : List.range size = List.range k ++ k :: (List.range' (k + 1) (size - k - 1)) := by
        rw [List.range_eq_range', List.range_eq_range',
          show size = k + (1 + (size - k - 1)) by omega, ← List.range'_append_1,
          ← List.range'_append_1]
        simp
      have hidx := idxOf_split (sorted_range size) hs
        (fun x hx => List.mem_range.2 (hin x hx)) hsplit hmem
      rw [if_pos hmem, List.filter_cons_of_pos (by simpa using hmem)]
      unfold fullRow
      rw [if_pos hmem, ← hidx]
      simp [hidx]
    · rw [if_neg hmem, List.filter_cons_of_neg (by simpa using hmem)]
      unfold fullRow
      rw [if_neg hmem]
      by_cases hd : diag ≠ 0
      · rw [if_pos hd, if_pos hd]; simp
      · rw [if_neg hd, if_neg hd]; simp

theorem rebuild_ok (T : Csr K) (nz : List Nat) (size : Nat) (diag : K) (hT : T.WF)
    (hc : T.ncols = nz.length)
    (hs : nz.Pairwise (· < ·)) (hin : ∀ i ∈ nz, i < size) :
    rebuild T nz size diag =
      .ok (ofRows size ((List.range size).map (fullRow T nz diag))) := by
  unfold rebuild
  rw [if_neg, rebuild_fold T nz size diag hs hin size (le_refl _)]
  · simp [ofRows]
  · intro h
    rw [List.any_eq_true] at h
    obtain ⟨c, hc1, hc2⟩ := h
    rw [decide_eq_true_eq] at hc2
    have := hT.bound c hc1
    omega

theorem mem_fullRow_lt (T : Csr K) (nz : List Nat) (size : Nat) (diag : K) (hT : T.WF)
    (hc : T.ncols = nz.length) (hin : ∀ i ∈ nz, i < size) (i : Nat) (hi : i < size) :
    ∀ e ∈ fullRow T nz diag i, e.1 < size := by
  intro e he
  unfold fullRow at he
  split at he
  · rw [List.mem_map] at he
    obtain ⟨f, hf, rfl⟩ := he
    have hlt := hT.row_lt _ f hf
    dsimp only
    rw [hc] at hlt
    rw [getD_lt hlt]
    exact hin _ (List.getElem_mem _)
  · split at he
    · simp at he; rw [he]; exact hi
    · simp at he

/-- A kept row, with its columns renamed to full columns. -/
theorem sumAt_renamed (r : List (Nat × K)) (nz : List Nat) (hn : nz.Nodup)
    (hr : ∀ e ∈ r, e.1 < nz.length) (j : Nat) :
    sumAt (r.map fun e => (nz.getD e.1 0, e.2)) j =
      if j ∈ nz then sumAt r (nz.idxOf j) else 0 := by
  split
  · rename_i hj
    have h1 := getD_idx hj
    conv_lhs => rw [← h1]
    apply sumAt_map_inj r (fun c => nz.getD c 0)
    intro e he h
    rw [h1, getD_lt (hr e he)] at h
    rw [← h, idxOf_getElem hn]
  · rename_i hj
    apply sumAt_eq_zero
    intro e he h
    rw [List.mem_map] at he
    obtain ⟨f, hf, rfl⟩ := he
    dsimp only at h
    rw [getD_lt (hr f hf)] at h
    exact hj (h ▸ List.getElem_mem _)

theorem sumAt_fullRow {A : SSM K} (h : A.WF) (i j : Nat) :
    sumAt (fullRow A.small A.nz A.diag i) j = A.dense i j := by
  unfold fullRow
  split
  · rename_i hi
    rw [sumAt_renamed _ _ (nodup_of_sorted h.sorted)]
    · split
      · rename_i hj
        rw [dense_mem hi hj]; rfl
      · rename_i hj
        rw [dense_not_mem (Or.inr hj), if_neg]
        rintro rfl; exact hj hi
    · intro e he
      have := h.block.row_lt _ e he
      rw [h.cols] at this
      exact this
  · rename_i hi
    rw [dense_not_mem (Or.inl hi)]
    split
    · rw [sumAt_cons, sumAt_nil, add_zero]
    · rename_i hd
      simp only [ne_eq, not_not] at hd
      rw [hd]; simp

theorem toFull_ok {A : SSM K} (h : A.WF) :
    ∃ M, A.toFull = .ok M ∧ M.WF ∧ M.nrows = A.size ∧ M.ncols = A.size ∧
      ∀ i j, i < A.size → M.val i j = A.dense i j := by
  refine ⟨_, rebuild_ok A.small A.nz A.size A.diag h.block h.cols h.sorted h.inside, ?_, ?_, rfl,
    ?_⟩
  · apply wf_ofRows
    intro r hr e he
    rw [List.mem_map] at hr
    obtain ⟨i, hi, rfl⟩ := hr
    exact mem_fullRow_lt A.small A.nz A.size A.diag h.block h.cols h.inside i
      (List.mem_range.1 hi) e he
  · simp
  · intro i j hi
    unfold Csr.val
    rw [row_ofRows_map _ _ _ _ hi, sumAt_fullRow h]

/-! ## Transpose, scalars, diagonal shifts -/

/-- Replacing the block by another one of the same shape. -/
theorem wf_of_block {A : SSM K} (h : A.WF) (M : Csr K) (d : K) (hM : M.WF)
    (hr : M.nrows = A.nz.length) (hc : M.ncols = A.nz.length) :
    (SSM.mk A.size A.nz M d).WF :=
  ⟨h.sorted, h.inside, hM, hr, hc⟩

theorem transpose_ok {A : SSM K} (h : A.WF) :
    ∃ C, A.transpose = .ok C ∧ C.WF ∧ C.size = A.size ∧ ∀ i j, C.dense i j = A.dense j i := by
  have hr : A.small.transpose.nrows = A.nz.length := by rw [nrows_transpose, h.cols]
  have hc : A.small.transpose.ncols = A.nz.length := by rw [ncols_transpose, h.rows]
  refine ⟨_, fromSmall_ok _ _ _ _ (wf_transpose _) hr hc h.sorted,
    wf_of_block h _ _ (wf_transpose _) hr hc, rfl, ?_⟩
  intro i j
  by_cases hij : i ∈ A.nz ∧ j ∈ A.nz
  · rw [dense_mk_mem hij.1 hij.2, dense_mem hij.2 hij.1]
    rw [val_transpose]
    · rw [h.rows]; exact idxOf_lt hij.2
    · rw [h.cols]; exact idxOf_lt hij.1
  · have h1 : i ∉ A.nz ∨ j ∉ A.nz := by
      by_contra hc; exact hij (by simpa [not_or] using hc)
    rw [dense_mk_not h1, dense_not_mem h1.symm]
    by_cases hij : i = j
    · rw [if_pos hij, if_pos hij.symm]
    · rw [if_neg hij, if_neg (Ne.symm hij)]

theorem smul_ok {A : SSM K} (h : A.WF) (o : K) :
    ∃ C, A.smul o = .ok C ∧ C.WF ∧ C.size = A.size ∧ C.nz = A.nz ∧ C.diag = A.diag * o ∧
      ∀ i j, C.dense i j = A.dense i j * o := by
  have hM := wf_scale h.block o
  refine ⟨_, fromSmall_ok _ _ _ _ hM h.rows h.cols h.sorted,
    wf_of_block h _ _ hM h.rows h.cols, rfl, rfl, rfl, ?_⟩
  intro i j
  by_cases hij : i ∈ A.nz ∧ j ∈ A.nz
  · rw [dense_mk_mem hij.1 hij.2, dense_mem hij.1 hij.2]
    exact val_scale _ _ _ _
  · have h1 : i ∉ A.nz ∨ j ∉ A.nz := by
      by_contra hc; exact hij (by simpa [not_or] using hc)
    rw [dense_mk_not h1, dense_not_mem h1]
    split <;> simp

theorem addEye_ok {A : SSM K} (h : A.WF) (d e : K) (hde : e = A.diag + d) :
    ∃ C, fromSmall A.size (A.small.addEye d) A.nz e = .ok C ∧ C.WF ∧ C.size = A.size ∧
      C.nz = A.nz ∧ C.diag = e ∧ ∀ i j, C.dense i j = A.dense i j + if i = j then d else 0 := by
  have hM := wf_addEye A.small d
  have hr : (A.small.addEye d).nrows = A.nz.length := by rw [nrows_addEye, h.rows]
  have hc : (A.small.addEye d).ncols = A.nz.length := by rw [ncols_addEye, h.cols]
  refine ⟨_, fromSmall_ok _ _ _ _ hM hr hc h.sorted,
    wf_of_block h _ _ hM hr hc, rfl, rfl, rfl, ?_⟩
  intro i j
  by_cases hij : i ∈ A.nz ∧ j ∈ A.nz
  · rw [dense_mk_mem hij.1 hij.2, dense_mem hij.1 hij.2]
    rw [val_addEye]
    · congr 1
      by_cases hh : i = j
      · rw [if_pos hh, if_pos (by rw [hh])]
      · rw [if_neg hh, if_neg]
        intro h'
        apply hh
        exact idxOf_inj hij.1 hij.2 h'
    · rw [h.rows]; exact idxOf_lt hij.1
    · rw [h.cols]; exact idxOf_lt hij.2
  · have h1 : i ∉ A.nz ∨ j ∉ A.nz := by
      by_contra hc; exact hij (by simpa [not_or] using hc)
    rw [dense_mk_not h1, dense_not_mem h1]
    split
    · exact hde
    · simp

theorem subDiag_ok {A : SSM K} (h : A.WF) (d : K) :
    ∃ C, A.subDiag d = .ok C ∧ C.WF ∧ C.size = A.size ∧ C.nz = A.nz ∧
      ∀ i j, C.dense i j = A.dense i j - if i = j then d else 0 := by
  obtain ⟨C, h1, h2, h3, h4, _, h5⟩ := addEye_ok h (-d) (A.diag - d) (by ring)
  refine ⟨C, h1, h2, h3, h4, ?_⟩
  intro i j
  rw [h5]
  split <;> ring

theorem addDiag_ok {A : SSM K} (h : A.WF) (d : K) :
    ∃ C, A.addDiag d = .ok C ∧ C.WF ∧ C.size = A.size ∧ C.nz = A.nz ∧
      ∀ i j, C.dense i j = A.dense i j + if i = j then d else 0 := by
  obtain ⟨C, h1, h2, h3, h4, _, h5⟩ := addEye_ok h d (A.diag + d) rfl
  exact ⟨C, h1, h2, h3, h4, h5⟩

/-! ## Column maps -/

theorem advance_ok {cnz : List Nat} (hc : cnz.Pairwise (· < ·)) {v ic : Nat} (hv : v ∈ cnz)
    (hic : ic ≤ cnz.idxOf v) : advance v cnz ic = .ok (cnz.idxOf v) := by
  have hlt := idxOf_lt hv
  have h : (cnz.drop ic).findIdx? (· == v) = some (cnz.idxOf v - ic) := by
    rw [List.findIdx?_eq_some_iff_getElem]
    refine ⟨by rw [List.length_drop]; omega, ?_, ?_⟩
    · rw [List.getElem_drop, beq_iff_eq]
      have : ic + (cnz.idxOf v - ic) = cnz.idxOf v := by omega
      simp only [this]
      exact getElem_idx hv
    · intro k hk
      rw [List.getElem_drop, beq_iff_eq]
      intro h
      have := idxOf_getElem (nodup_of_sorted hc) (ic + k) (by omega)
      rw [h] at this
      omega
  unfold advance
  rw [h]
  dsimp only
  congr 1
  omega

theorem colMap_ok {cnz : List Nat} (hc : cnz.Pairwise (· < ·)) (nz : List Nat)
    (hn : nz.Pairwise (· < ·)) (hsub : ∀ v ∈ nz, v ∈ cnz) (ic : Nat)
    (hic : ∀ v ∈ nz, ic ≤ cnz.idxOf v) : colMap cnz ic nz = .ok (nz.map cnz.idxOf) := by
  induction nz generalizing ic with
  | nil => rfl
  | cons v rest ih =>
    rw [List.pairwise_cons] at hn
    unfold colMap
    rw [advance_ok hc (hsub v (by simp)) (hic v (by simp))]
    dsimp only
    rw [ih hn.2 (fun u hu => hsub u (by simp [hu]))]
    · rfl
    · intro u hu
      exact Nat.le_of_lt (idxOf_mono hc (hsub v (by simp)) (hsub u (by simp [hu])) (hn.1 u hu))

end Verif.SparseStoch
