import Verif.SparseStoch.AddLemmas

/-!
# Product of compressed matrices
-/

namespace Verif.SparseStoch

set_option linter.unusedSectionVars false
set_option linter.unusedSimpArgs false

open Verif.Csr

variable {K : Type} [Field K] [LinearOrder K] [IsStrictOrderedRing K]

/-- A sum over all indices of a function that vanishes outside a list. -/
theorem sum_on_list (n : Nat) (l : List Nat) (hn : l.Nodup) (hl : ∀ x ∈ l, x < n) (f : Nat → K)
    (h0 : ∀ x < n, x ∉ l → f x = 0) :
    ∑ k ∈ Finset.range n, f k = ∑ k ∈ Finset.range l.length, f (l.getD k 0) := by
  have h1 : ∑ k ∈ Finset.range n, f k = ∑ k ∈ l.toFinset, f k := by
    symm
    apply Finset.sum_subset
    · intro x hx
      rw [List.mem_toFinset] at hx
      exact Finset.mem_range.2 (hl x hx)
    · intro x hx hx2
      rw [List.mem_toFinset] at hx2
      exact h0 x (Finset.mem_range.1 hx) hx2
  rw [h1]
  symm
  apply Finset.sum_bij (fun k _ => l.getD k 0)
  · intro k hk
    rw [Finset.mem_range] at hk
    rw [List.mem_toFinset, getD_lt hk]
    exact List.getElem_mem _
  · intro a ha b hb hab
    rw [Finset.mem_range] at ha hb
    rw [getD_lt ha, getD_lt hb] at hab
    exact (List.Nodup.getElem_inj_iff hn).1 hab
  · intro x hx
    rw [List.mem_toFinset] at hx
    exact ⟨l.idxOf x, Finset.mem_range.2 (idxOf_lt hx), getD_idx hx⟩
  · intro k _; rfl

/-- Off-identity part. -/
def off (A : SSM K) (i j : Nat) : K := A.dense i j - if i = j then A.diag else 0

theorem off_zero {A : SSM K} {i j : Nat} (h : i ∉ A.nz ∨ j ∉ A.nz) : off A i j = 0 := by
  unfold off
  rw [dense_not_mem h, sub_self]

theorem sum_delta (n i : Nat) (hi : i < n) (f : Nat → K) (a : K) :
    ∑ k ∈ Finset.range n, (if i = k then a else 0) * f k = a * f i := by
  have : ∀ k, (if i = k then a else 0) * f k = if i = k then a * f i else 0 := by
    intro k; by_cases hk : i = k <;> simp [hk]
  simp only [this]
  rw [Finset.sum_ite_eq]
  simp [hi]

theorem sum_delta' (n j : Nat) (hj : j < n) (f : Nat → K) (b : K) :
    ∑ k ∈ Finset.range n, f k * (if k = j then b else 0) = f j * b := by
  have : ∀ k, f k * (if k = j then b else 0) = if j = k then f j * b else 0 := by
    intro k
    by_cases hk : k = j
    · simp [hk]
    · simp [hk, Ne.symm hk]
  simp only [this]
  rw [Finset.sum_ite_eq]
  simp [hj]

theorem product_split (A B : SSM K) (n i j : Nat) (hi : i < n) (hj : j < n) :
    ∑ k ∈ Finset.range n, A.dense i k * B.dense k j =
      (∑ k ∈ Finset.range n, off A i k * off B k j) + A.dense i j * B.diag +
        B.dense i j * A.diag - if i = j then A.diag * B.diag else 0 := by
  have h1 : ∀ k, off A i k * off B k j = A.dense i k * B.dense k j
      - (if i = k then A.diag else 0) * B.dense k j
      - A.dense i k * (if k = j then B.diag else 0)
      + (if i = k then A.diag else 0) * (if k = j then B.diag else 0) := by
    intro k; unfold off; ring
  simp only [h1, Finset.sum_add_distrib, Finset.sum_sub_distrib]
  rw [sum_delta n i hi, sum_delta' n j hj, sum_delta n i hi (fun k => if k = j then B.diag else 0)]
  by_cases hij : i = j
  · simp [hij]; ring
  · simp [hij]; ring

/-- The block of `A - aI` moved into the index space of the result. -/
theorem moved_ok {A : SSM K} (hA : A.WF) (cnz : List Nat) (hc : cnz.Pairwise (· < ·))
    (hAs : ∀ x ∈ A.nz, x ∈ cnz) :
    ∃ am M, fromSmall cnz.length (A.small.addEye (-A.diag)) (A.nz.map cnz.idxOf) 0 = .ok am ∧
      am.toFull = .ok M ∧ M.WF ∧ M.nrows = cnz.length ∧ M.ncols = cnz.length ∧
      ∀ x y, x < cnz.length → y < cnz.length →
        M.val x y = off A (cnz.getD x 0) (cnz.getD y 0) := by
  have hr : (A.small.addEye (-A.diag)).nrows = (A.nz.map cnz.idxOf).length := by
    rw [nrows_addEye, hA.rows, List.length_map]
  have hcc : (A.small.addEye (-A.diag)).ncols = (A.nz.map cnz.idxOf).length := by
    rw [ncols_addEye, hA.cols, List.length_map]
  have hs : (A.nz.map cnz.idxOf).Pairwise (· < ·) := by
    rw [List.pairwise_map]
    apply hA.sorted.imp_of_mem
    intro a b ha hb hab
    exact idxOf_mono hc (hAs a ha) (hAs b hb) hab
  have hwf : (SSM.mk cnz.length (A.nz.map cnz.idxOf) (A.small.addEye (-A.diag)) 0).WF := by
    refine ⟨hs, ?_, wf_addEye _ _, hr, hcc⟩
    intro i hi
    rw [List.mem_map] at hi
    obtain ⟨a, ha, rfl⟩ := hi
    exact idxOf_lt (hAs a ha)
  obtain ⟨M, h1, h2, h3, h4, h5⟩ := toFull_ok hwf
  refine ⟨_, M, fromSmall_ok _ _ _ _ (wf_addEye _ _) hr hcc hs, h1, h2, h3, h4, ?_⟩
  intro x y hx hy
  rw [h5 x y hx]
  have hmem : ∀ z, z < cnz.length → (z ∈ A.nz.map cnz.idxOf ↔ cnz.getD z 0 ∈ A.nz) := by
    intro z hz
    rw [List.mem_map]
    constructor
    · rintro ⟨a, ha, rfl⟩
      rw [getD_idx (hAs a ha)]; exact ha
    · intro h
      refine ⟨_, h, ?_⟩
      rw [getD_lt hz, idxOf_getElem (nodup_of_sorted hc)]
  have hidx : ∀ z, z < cnz.length → cnz.getD z 0 ∈ A.nz →
      (A.nz.map cnz.idxOf).idxOf z = A.nz.idxOf (cnz.getD z 0) := by
    intro z hz h
    have h1 : A.nz.idxOf (cnz.getD z 0) < (A.nz.map cnz.idxOf).length := by
      rw [List.length_map]; exact idxOf_lt h
    have h2 : (A.nz.map cnz.idxOf)[A.nz.idxOf (cnz.getD z 0)] = z := by
      rw [List.getElem_map, getElem_idx h, getD_lt hz, idxOf_getElem (nodup_of_sorted hc)]
    have h3 := idxOf_getElem (nodup_of_sorted hs) _ h1
    rw [h2] at h3
    exact h3
  by_cases hxy : cnz.getD x 0 ∈ A.nz ∧ cnz.getD y 0 ∈ A.nz
  · rw [dense_mk_mem ((hmem x hx).2 hxy.1) ((hmem y hy).2 hxy.2), hidx x hx hxy.1,
      hidx y hy hxy.2, val_addEye]
    · unfold off
      rw [dense_mem hxy.1 hxy.2, sub_eq_add_neg]
      congr 1
      by_cases h : cnz.getD x 0 = cnz.getD y 0
      · rw [if_pos h, if_pos (by rw [h])]
      · rw [if_neg h, if_neg (fun h' => h (idxOf_inj hxy.1 hxy.2 h')), neg_zero]
    · rw [hA.rows]; exact idxOf_lt hxy.1
    · rw [hA.cols]; exact idxOf_lt hxy.2
  · have h1 : cnz.getD x 0 ∉ A.nz ∨ cnz.getD y 0 ∉ A.nz := by
      by_contra hc; exact hxy (by simpa only [not_or, not_not] using hc)
    rw [off_zero h1, dense_mk_not (h1.imp (fun h h' => h ((hmem x hx).1 h'))
      (fun h h' => h ((hmem y hy).1 h')))]
    simp

theorem scaled_ok {A : SSM K} (hA : A.WF) (b : K) :
    ∃ C, A.scaledBy b = .ok C ∧ C.WF ∧ C.size = A.size ∧
      C.nz = A.nz ∧ ∀ i j, C.dense i j = A.dense i j * b := by
  unfold SSM.scaledBy
  by_cases h : b = 1
  · exact ⟨A, by rw [if_pos h], hA, rfl, rfl, fun i j => by rw [h, mul_one]⟩
  · obtain ⟨C, h1, h2, h3, h4, _, h5⟩ := smul_ok hA b
    exact ⟨C, by rw [if_neg h]; exact h1, h2, h3, h4, h5⟩

theorem matmul_ok {A B : SSM K} (hA : A.WF) (hB : B.WF) (hsize : A.size = B.size) :
    ∃ C, A.matmul B = .ok C ∧ C.WF ∧ C.size = A.size ∧
      ∀ i j, i < A.size → j < A.size →
        C.dense i j = ∑ k ∈ Finset.range A.size, A.dense i k * B.dense k j := by
  obtain ⟨aB, ha1, ha2, ha3, ha4, ha5⟩ := scaled_ok hB A.diag
  obtain ⟨bA, hb1, hb2, hb3, hb4, hb5⟩ := scaled_ok hA B.diag
  obtain ⟨S, hs1, hs2, hs3, hs4, hs5⟩ := addWith_ok id rfl (fun _ _ => rfl) hb2 ha2
    (by rw [hb3, ha3, hsize])
  obtain ⟨D, hd1, hd2, hd3, hd4, hd5⟩ := subDiag_ok hs2 (A.diag * B.diag)
  have hD : ∀ i j, D.dense i j = A.dense i j * B.diag + B.dense i j * A.diag -
      if i = j then A.diag * B.diag else 0 := by
    intro i j
    rw [hd5, hs5, ha5, hb5]; rfl
  have hDsize : D.size = A.size := by rw [hd3, hs3, hb3]
  have hsum : bA.add aB = .ok S := hs1
  by_cases hint : interLen A B = 0
  · refine ⟨D, ?_, hd2, hDsize, ?_⟩
    · unfold SSM.matmul
      simp only [ha1, hb1, hsum, hint, bind, Except.bind, if_true]
      exact hd1
    · intro i j hi hj
      rw [product_split A B A.size i j hi hj, hD, Finset.sum_eq_zero]
      · ring
      · intro k _
        by_cases hk : k ∈ A.nz
        · have : k ∉ B.nz := by
            intro hkB
            unfold interLen at hint
            rw [List.length_eq_zero_iff, List.filter_eq_nil_iff] at hint
            exact hint k hk (by simpa using hkB)
          rw [off_zero (A := B) (Or.inl this), mul_zero]
        · rw [off_zero (A := A) (Or.inr hk), zero_mul]
  · have hmem : ∀ x, x ∈ unique (A.nz ++ B.nz) ↔ x ∈ A.nz ∨ x ∈ B.nz := by
      intro x; rw [mem_unique, List.mem_append]
    have hc := sorted_unique (A.nz ++ B.nz)
    generalize hcnz : unique (A.nz ++ B.nz) = cnz at hmem hc
    have hAs : ∀ x ∈ A.nz, x ∈ cnz := fun x h => (hmem x).2 (Or.inl h)
    have hBs : ∀ x ∈ B.nz, x ∈ cnz := fun x h => (hmem x).2 (Or.inr h)
    have hin : ∀ x ∈ cnz, x < A.size := by
      intro x hx
      rcases (hmem x).1 hx with h | h
      · exact hA.inside x h
      · exact hsize ▸ hB.inside x h
    obtain ⟨am, af, hm1, hm2, hm3, hm4, hm5, hm6⟩ := moved_ok hA cnz hc hAs
    obtain ⟨bm, bf, hn1, hn2, hn3, hn4, hn5, hn6⟩ := moved_ok hB cnz hc hBs
    have hr : (af.matmul bf).nrows = cnz.length := by rw [nrows_matmul, hm4]
    have hcc : (af.matmul bf).ncols = cnz.length := by rw [ncols_matmul, hn5]
    have hcm := fromSmall_ok A.size (af.matmul bf) cnz (0 : K) (wf_matmul _ _) hr hcc hc
    have hcmwf : (SSM.mk A.size cnz (af.matmul bf) (0 : K)).WF := ⟨hc, hin, wf_matmul _ _, hr, hcc⟩
    obtain ⟨C, hC1, hC2, hC3, hC4, hC5⟩ := addWith_ok id rfl (fun _ _ => rfl) hcmwf hd2 hDsize.symm
    have hC1' : (SSM.mk A.size cnz (af.matmul bf) (0 : K)).add D = .ok C := hC1
    refine ⟨C, ?_, hC2, hC3, ?_⟩
    · unfold SSM.matmul
      simp only [ha1, hb1, hsum, hint, bind, Except.bind, if_false, hcnz,
        colMap_ok hc A.nz hA.sorted hAs 0 (by simp), colMap_ok hc B.nz hB.sorted hBs 0 (by simp),
        hm1, hn1, hm2, hn2, hcm, hd1, hC1']
    · intro i j hi hj
      rw [hC5, product_split A B A.size i j hi hj, hD]
      have : (SSM.mk A.size cnz (af.matmul bf) (0 : K)).dense i j =
          ∑ k ∈ Finset.range A.size, off A i k * off B k j := by
        rw [sum_on_list A.size cnz (nodup_of_sorted hc) hin]
        · by_cases hij : i ∈ cnz ∧ j ∈ cnz
          · rw [dense_mk_mem hij.1 hij.2, val_matmul _ _ hm3 _ _ (by rw [hm4]; exact idxOf_lt hij.1)
              (by rw [hn5]; exact idxOf_lt hij.2), hm5]
            apply Finset.sum_congr rfl
            intro k hk
            rw [Finset.mem_range] at hk
            rw [hm6 _ _ (idxOf_lt hij.1) hk, hn6 _ _ hk (idxOf_lt hij.2), getD_idx hij.1,
              getD_idx hij.2]
          · have h1 : i ∉ cnz ∨ j ∉ cnz := by
              by_contra hc; exact hij (by simpa only [not_or, not_not] using hc)
            rw [dense_mk_not h1, Finset.sum_eq_zero]
            · simp
            · intro k _
              rcases h1 with h1 | h1
              · rw [off_zero (A := A) (Or.inl fun h => h1 (hAs i h)), zero_mul]
              · rw [off_zero (A := B) (Or.inr fun h => h1 (hBs j h)), mul_zero]
        · intro x _ hx
          rw [off_zero (A := A) (Or.inr fun h => hx (hAs x h)), zero_mul]
      rw [this]
      simp only [id]
      ring

end Verif.SparseStoch
